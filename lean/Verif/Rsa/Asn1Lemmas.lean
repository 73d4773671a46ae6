import Verif.Rsa.Asn1
import Mathlib.Tactic.Ring
import Mathlib.Tactic.Linarith

/-
Reading and writing of DER are inverse (for C124).
-/

namespace Gears.Rsa

open Gears.Str

/-! ### Numbers -/

theorem natVal_foldl (l : Bytes) : ∀ a : Nat, l.foldl (fun n b => n * 256 + b.toNat) a = a * 256 ^ l.length + natVal l := by
  induction l with
  | nil => intro a; simp [natVal]
  | cons b l ih =>
    intro a
    unfold natVal
    rw [List.foldl_cons, List.foldl_cons, ih, ih (0 * 256 + b.toNat), List.length_cons, Nat.pow_succ]
    ring

theorem natVal_append (a b : Bytes) : natVal (a ++ b) = natVal a * 256 ^ b.length + natVal b := by
  conv => lhs; unfold natVal
  rw [List.foldl_append, natVal_foldl]
  rfl

theorem natVal_cons (b : UInt8) (l : Bytes) : natVal (b :: l) = b.toNat * 256 ^ l.length + natVal l := by
  have := natVal_append [b] l
  simpa [natVal] using this

theorem natVal_snoc (l : Bytes) (b : UInt8) : natVal (l ++ [b]) = natVal l * 256 + b.toNat := by
  rw [natVal_append]; simp [natVal]

theorem natVal_lt (l : Bytes) : natVal l < 256 ^ l.length := by
  induction l with
  | nil => simp [natVal]
  | cons b l ih =>
    rw [natVal_cons, List.length_cons, Nat.pow_succ]
    have := b.toNat_lt
    nlinarith

theorem natVal_natBytes (n : Nat) : natVal (natBytes n) = n := by
  induction n using Nat.strongRecOn with
  | ind n ih =>
    unfold natBytes
    split
    · rename_i h; simp [natVal, h]
    · rename_i h
      rw [natVal_snoc, ih _ (by omega)]
      simp
      omega

theorem natBytes_head (n : Nat) (h : n ≠ 0) : ∃ a l, natBytes n = a :: l ∧ a ≠ 0 := by
  induction n using Nat.strongRecOn with
  | ind n ih =>
    unfold natBytes
    rw [dif_neg h]
    by_cases h0 : n / 256 = 0
    · refine ⟨UInt8.ofNat n, [], ?_, ?_⟩
      · rw [h0]; unfold natBytes; simp
      · intro e
        have := congrArg UInt8.toNat e
        simp at this
        omega
    · obtain ⟨a, l, e, ha⟩ := ih (n / 256) (by omega) h0
      exact ⟨a, l ++ [UInt8.ofNat n], by rw [e]; rfl, ha⟩

theorem natBytes_length (k : Nat) : ∀ n, n < 256 ^ k → (natBytes n).length ≤ k := by
  induction k with
  | zero =>
    intro n h
    have : n = 0 := by simpa using h
    subst this
    unfold natBytes; simp
  | succ k ih =>
    intro n h
    unfold natBytes
    split
    · simp
    · rw [List.length_append]
      have := ih (n / 256) (by rw [Nat.pow_succ] at h; omega)
      simp
      omega

/-! ### Integers -/

/-- What the bytes of an integer mean in two's complement. -/
def intVal (bs : Bytes) : Int := if bs.headD 0 ≥ 128 then (natVal bs : Int) - 256 ^ bs.length else natVal bs

theorem natVal_compl (l : Bytes) : natVal (l.map fun b => 255 - b) + natVal l + 1 = 256 ^ l.length := by
  induction l with
  | nil => simp [natVal]
  | cons b l ih =>
    rw [List.map_cons, natVal_cons, natVal_cons, List.length_cons, List.length_map, Nat.pow_succ]
    have hb : (255 - b).toNat + b.toNat = 255 := by
      have h : b ≤ 255 := by
        revert b; exact all_bytes (by decide +kernel)
      rw [UInt8.toNat_sub_of_le _ _ h]
      have := b.toNat_lt
      simp; omega
    nlinarith

theorem parseBigInt_eq (bs : Bytes) (h : checkInteger bs = true) : parseBigInt bs = some (intVal bs) := by
  unfold parseBigInt intVal
  rw [h]
  simp only [Bool.not_true, Bool.false_eq_true, if_false]
  split
  · have := natVal_compl bs
    congr 1
    have h2 : ((natVal (bs.map fun b => 255 - b) : Nat) : Int) + natVal bs + 1 = 256 ^ bs.length := by exact_mod_cast this
    linarith
  · rfl

theorem head_half (b : UInt8) (l : Bytes) : 128 ≤ b ↔ 128 * 256 ^ l.length ≤ natVal (b :: l) := by
  rw [natVal_cons, UInt8.le_iff_toNat_le]
  have h1 := natVal_lt l
  have h2 : 0 < 256 ^ l.length := Nat.pow_pos (by omega)
  constructor
  · intro h
    have h : 128 ≤ b.toNat := h
    nlinarith
  · intro h
    show 128 ≤ b.toNat
    by_contra hc
    have : b.toNat + 1 ≤ 128 := by omega
    nlinarith

theorem parseInt64_eq (bs : Bytes) (h : checkInteger bs = true) (hl : bs.length ≤ 8) : parseInt64 bs = some (intVal bs) := by
  unfold parseInt64 intVal
  rw [h, if_neg (by simp), if_neg (by omega)]
  cases bs with
  | nil => simp [checkInteger] at h
  | cons b l =>
    have hh := head_half b l
    have hlt := natVal_lt (b :: l)
    simp only [List.length_cons] at hlt hl ⊢
    generalize natVal (b :: l) = v at hh hlt
    have hpow : ∀ k < 8, 2 ^ (64 - (k + 1) * 8) * 256 ^ (k + 1) = 2 ^ 64 ∧ 2 ^ (64 - (k + 1) * 8) * (128 * 256 ^ k) = 2 ^ 63 := by decide +kernel
    obtain ⟨h1, h2⟩ := hpow l.length (by omega)
    have hS : 0 < 2 ^ (64 - (l.length + 1) * 8) := Nat.pow_pos (by omega)
    have hc : (2 : Int) ^ (64 - (l.length + 1) * 8) = ((2 ^ (64 - (l.length + 1) * 8) : Nat) : Int) := by push_cast; rfl
    rw [hc]
    have hc2 : (256 : Int) ^ (l.length + 1) = ((256 ^ (l.length + 1) : Nat) : Int) := by push_cast; rfl
    rw [hc2]
    generalize 2 ^ (64 - (l.length + 1) * 8) = S at *
    generalize 256 ^ (l.length + 1) = W at *
    refine congrArg some ?_
    have hmul : (v : Int) * (S : Nat) = ((v * S : Nat) : Int) := by push_cast; ring
    rw [hmul]
    have hvS : v * S < 2 ^ 64 := by rw [← h1, Nat.mul_comm S]; exact Nat.mul_lt_mul_of_pos_right hlt hS
    have hS' : (S : Int) ≠ 0 := by omega
    by_cases hb : 128 ≤ b
    · rw [if_pos (show (b :: l).headD 0 ≥ 128 from hb)]
      have hge : 2 ^ 63 ≤ v * S := by rw [← h2, Nat.mul_comm S]; exact Nat.mul_le_mul_right _ (hh.1 hb)
      have hbm : Int.bmod ((v * S : Nat) : Int) (2 ^ 64) = (v * S : Nat) - 2 ^ 64 := by
        rw [Int.bmod_def]
        push_cast
        have : ((v : Int) * S) % 18446744073709551616 = v * S := Int.emod_eq_of_lt (by positivity) (by exact_mod_cast hvS)
        rw [this, if_neg (by have : (2 ^ 63 : Int) ≤ v * S := by exact_mod_cast hge
                             norm_num at this; omega)]
      rw [hbm]
      have : ((v * S : Nat) : Int) - 2 ^ 64 = ((v : Int) - W) * S := by
        have : (S : Int) * W = 2 ^ 64 := by exact_mod_cast h1
        push_cast
        norm_num at this ⊢
        rw [← this]; ring
      rw [this, Int.mul_ediv_cancel _ hS']
    · rw [if_neg (show ¬ (b :: l).headD 0 ≥ 128 from hb)]
      have hlt2 : v * S < 2 ^ 63 := by
        rw [← h2, Nat.mul_comm S]
        refine Nat.mul_lt_mul_of_pos_right ?_ hS
        by_contra hc
        exact hb (hh.2 (by omega))
      have hbm : Int.bmod ((v * S : Nat) : Int) (2 ^ 64) = (v * S : Nat) := by
        rw [Int.bmod_def]
        push_cast
        have : ((v : Int) * S) % 18446744073709551616 = v * S := Int.emod_eq_of_lt (by positivity) (by exact_mod_cast hvS)
        rw [this, if_pos (by have : (v * S : Int) < 2 ^ 63 := by exact_mod_cast hlt2
                             norm_num at this; omega)]
      rw [hbm]
      push_cast
      rw [Int.mul_ediv_cancel _ hS']

theorem compl_zero : ∀ a : UInt8, 255 - a = 255 → a = 0 := all_bytes (by decide +kernel)

/-- Two's complement of a byte more. -/
theorem intVal_snoc (l : Bytes) (h : l ≠ []) (b : UInt8) : intVal (l ++ [b]) = intVal l * 256 + b.toNat := by
  unfold intVal
  have : (l ++ [b]).headD 0 = l.headD 0 := by cases l <;> simp at h ⊢
  rw [this, natVal_snoc]
  split
  · simp [pow_succ]; ring
  · simp

theorem checkInteger_snoc (l : Bytes) (b : UInt8) (h : 2 ≤ l.length) : checkInteger (l ++ [b]) = checkInteger l := by
  match l, h with
  | [_], h => simp at h
  | a :: c :: l, _ => rfl

theorem small_byte (v : Int) (h : -128 ≤ v ∧ v ≤ 127) : intVal [UInt8.ofNat (v % 256).toNat] = v := by
  have h1 : (UInt8.ofNat (v % 256).toNat).toNat = (v % 256).toNat := by
    rw [UInt8.toNat_ofNat']; omega
  have hv : natVal [UInt8.ofNat (v % 256).toNat] = (v % 256).toNat := by simp [natVal]; omega
  unfold intVal
  rw [hv]
  by_cases hc : 128 ≤ (v % 256).toNat
  · rw [if_pos (UInt8.le_iff_toNat_le.2 (by simp only [List.headD_cons]; rw [h1]; exact hc))]
    simp; omega
  · rw [if_neg (fun h => hc (by have := UInt8.le_iff_toNat_le.1 h; simp only [List.headD_cons] at this; rw [h1] at this; exact this))]
    omega

theorem putInt64_spec (v : Int) : putInt64 v ≠ [] ∧ intVal (putInt64 v) = v ∧ checkInteger (putInt64 v) = true := by
  by_cases h : -128 ≤ v ∧ v ≤ 127
  · rw [putInt64, dif_pos h]
    exact ⟨by simp, small_byte v h, rfl⟩
  · have hlt : (v / 256).natAbs < v.natAbs := by omega
    obtain ⟨h1, h2, h3⟩ := putInt64_spec (v / 256)
    rw [putInt64, dif_neg h]
    refine ⟨by simp, ?_, ?_⟩
    · rw [intVal_snoc _ h1, h2, UInt8.toNat_ofNat']
      omega
    · by_cases hl : 2 ≤ (putInt64 (v / 256)).length
      · rw [checkInteger_snoc _ _ hl, h3]
      · -- two bytes
        have hs : -128 ≤ v / 256 ∧ v / 256 ≤ 127 := by
          by_contra hc
          rw [putInt64, dif_neg hc, List.length_append] at hl
          have : (putInt64 (v / 256 / 256)).length ≠ 0 := by
            have hlt2 : (v / 256 / 256).natAbs < v.natAbs := by omega
            have := (putInt64_spec (v / 256 / 256)).1
            simpa using this
          rw [List.length_singleton] at hl
          omega
        rw [putInt64, dif_pos hs]
        simp only [List.singleton_append, checkInteger, Bool.not_eq_true', Bool.or_eq_false_iff, Bool.and_eq_false_iff, decide_eq_false_iff_not]
        have hx : (UInt8.ofNat (v / 256 % 256).toNat).toNat = (v / 256 % 256).toNat := by rw [UInt8.toNat_ofNat']; omega
        have hy : (UInt8.ofNat (v % 256).toNat).toNat = (v % 256).toNat := by rw [UInt8.toNat_ofNat']; omega
        have key : ¬ ((v / 256 % 256).toNat = 0 ∧ (v % 256).toNat < 128) ∧ ¬ ((v / 256 % 256).toNat = 255 ∧ 128 ≤ (v % 256).toNat) := by omega
        constructor
        · by_contra hc
          push Not at hc
          refine key.1 ⟨?_, ?_⟩
          · rw [← hx, hc.1]; rfl
          · have := UInt8.lt_iff_toNat_lt.1 hc.2
            rw [hy] at this; exact this
        · by_contra hc
          push Not at hc
          refine key.2 ⟨?_, ?_⟩
          · rw [← hx, hc.1]; rfl
          · have := UInt8.le_iff_toNat_le.1 hc.2
            rw [hy] at this; exact this
termination_by v.natAbs
decreasing_by all_goals omega

theorem putInt64_length (k : Nat) : ∀ v : Int, -(128 * 256 ^ k) ≤ v → v < 128 * 256 ^ k → (putInt64 v).length ≤ k + 1 := by
  induction k with
  | zero => intro v h1 h2; rw [putInt64, dif_pos (by omega)]; simp
  | succ k ih =>
    intro v h1 h2
    rw [putInt64]
    split
    · simp
    · rw [List.length_append]
      have := ih (v / 256) (by rw [pow_succ] at h1; omega) (by rw [pow_succ] at h2; omega)
      simp
      omega

theorem parse_putInt64 (v : Int) (h1 : -2 ^ 63 ≤ v) (h2 : v < 2 ^ 63) : parseInt64 (putInt64 v) = some v := by
  obtain ⟨-, h3, h4⟩ := putInt64_spec v
  rw [parseInt64_eq _ h4 (putInt64_length 7 v (by norm_num at h1 ⊢; exact h1) (by norm_num at h2 ⊢; exact h2)), h3]

theorem putBigInt_spec (v : Int) : intVal (putBigInt v) = v ∧ checkInteger (putBigInt v) = true := by
  unfold putBigInt
  by_cases hneg : v < 0
  · rw [if_pos hneg]
    have hm : natVal (natBytes (-v - 1).toNat) = (-v - 1).toNat := natVal_natBytes _
    have hcompl := natVal_compl (natBytes (-v - 1).toNat)
    rw [hm] at hcompl
    have hlen : ((natBytes (-v - 1).toNat).map fun b => 255 - b).length = (natBytes (-v - 1).toNat).length := List.length_map _
    by_cases h0 : (-v - 1).toNat = 0
    · have hv : v = -1 := by omega
      subst hv
      have : natBytes ((- -1 - 1 : Int)).toNat = [] := by rw [show ((- -1 - 1 : Int)).toNat = 0 from rfl, natBytes]; simp
      rw [this]
      decide
    · obtain ⟨a, l, e, ha⟩ := natBytes_head _ h0
      rw [e] at hcompl hlen ⊢
      simp only [List.map_cons] at hcompl hlen ⊢
      simp only [reduceCtorEq, false_or, List.headD_cons]
      have hz : ((natVal ((255 - a) :: l.map fun b => 255 - b) : Nat) : Int) = 256 ^ (a :: l).length - 1 - (-v - 1) := by
        have : ((natVal ((255 - a) :: l.map fun b => 255 - b) : Nat) : Int) + ((-v - 1).toNat : Int) + 1 = 256 ^ (a :: l).length := by exact_mod_cast hcompl
        omega
      split
      · rename_i hh
        constructor
        · unfold intVal
          rw [List.headD_cons, if_pos (by decide), natVal_cons, List.length_cons (a := 255), hlen]
          push_cast
          rw [hz, pow_succ]
          ring
        · simp only [checkInteger, Bool.not_eq_true', Bool.or_eq_false_iff, Bool.and_eq_false_iff, decide_eq_false_iff_not]
          exact ⟨.inl (by decide), .inr (by rw [ge_iff_le, UInt8.not_le]; exact hh)⟩
      · rename_i hh
        rw [UInt8.not_lt] at hh
        constructor
        · unfold intVal
          rw [List.headD_cons, if_pos hh, hz, hlen]
          ring
        · cases hl : l with
          | nil => rfl
          | cons c l' =>
            simp only [List.map_cons, checkInteger, Bool.not_eq_true', Bool.or_eq_false_iff, Bool.and_eq_false_iff, decide_eq_false_iff_not]
            refine ⟨.inl fun e => ?_, .inl fun e => ?_⟩
            · rw [e] at hh; revert hh; decide
            · exact ha (compl_zero a e)
  · rw [if_neg hneg]
    by_cases h0 : v = 0
    · subst h0; decide
    · rw [if_neg h0]
      have hm : natVal (natBytes v.toNat) = v.toNat := natVal_natBytes _
      obtain ⟨a, l, e, ha⟩ := natBytes_head v.toNat (by omega)
      rw [e] at hm ⊢
      by_cases hh : a ≥ 128
      · rw [if_pos (show (a :: l).headD 0 ≥ 128 from hh)]
        constructor
        · unfold intVal
          rw [List.headD_cons, if_neg (by decide), natVal_cons, hm]
          simp; omega
        · simp only [checkInteger, Bool.not_eq_true', Bool.or_eq_false_iff, Bool.and_eq_false_iff, decide_eq_false_iff_not]
          exact ⟨.inr (by rw [UInt8.not_lt]; exact hh), .inl (by decide)⟩
      · rw [if_neg (show ¬ (a :: l).headD 0 ≥ 128 from hh)]
        constructor
        · unfold intVal
          rw [List.headD_cons, if_neg hh, hm]
          omega
        · cases l with
          | nil => rfl
          | cons c l' =>
            simp only [checkInteger, Bool.not_eq_true', Bool.or_eq_false_iff, Bool.and_eq_false_iff, decide_eq_false_iff_not]
            refine ⟨.inl ha, .inl fun e => ?_⟩
            rw [e] at hh; revert hh; decide

theorem parse_putBigInt (v : Int) : parseBigInt (putBigInt v) = some v := by
  rw [parseBigInt_eq _ (putBigInt_spec v).2, (putBigInt_spec v).1]

/-! ### Tags and lengths -/

theorem lenBytes_append (l1 : Bytes) : ∀ (k acc : Nat) (l2 : Bytes), lenBytes (l1.length + k) acc (l1 ++ l2) =
    (lenBytes l1.length acc l1).bind fun r => lenBytes k r.1 l2 := by
  induction l1 with
  | nil => intro k acc l2; simp [lenBytes]
  | cons b l1 ih =>
    intro k acc l2
    rw [List.length_cons, Nat.add_right_comm]
    simp only [List.cons_append, lenBytes]
    split
    · rfl
    · split
      · rfl
      · exact ih k _ l2

theorem lenBytes_put (n : Nat) (h0 : n ≠ 0) (h : n < 2 ^ 31) : lenBytes (natBytes n).length 0 (natBytes n) = some (n, []) := by
  induction n using Nat.strongRecOn with
  | ind n ih =>
    rw [natBytes, dif_neg h0]
    by_cases hq : n / 256 = 0
    · rw [hq]
      have : natBytes 0 = [] := by rw [natBytes]; simp
      rw [this]
      simp [lenBytes]
      omega
    · have hi := ih (n / 256) (by omega) hq (by omega)
      rw [List.length_append, List.length_singleton, lenBytes_append, hi]
      simp only [Option.bind_some, lenBytes]
      rw [if_neg (by omega)]
      simp
      omega

theorem lenBytes_put_append (n : Nat) (h0 : n ≠ 0) (h : n < 2 ^ 31) (r : Bytes) : lenBytes (natBytes n).length 0 (natBytes n ++ r) = some (n, r) := by
  have := lenBytes_append (natBytes n) 0 0 r
  rw [Nat.add_zero, lenBytes_put n h0 h] at this
  simpa [lenBytes] using this

theorem natBytes_four (n : Nat) (h : n < 2 ^ 31) : (natBytes n).length ≤ 4 := natBytes_length 4 n (by omega)

theorem natBytes_pos (n : Nat) (h : n ≠ 0) : 1 ≤ (natBytes n).length := by
  obtain ⟨a, l, e, -⟩ := natBytes_head n h
  rw [e]; simp

theorem long_byte (k : Nat) (h1 : 1 ≤ k) (h2 : k ≤ 4) : (UInt8.ofNat (128 + k)).toNat = 128 + k := by
  rw [UInt8.toNat_ofNat']; omega

theorem small_toNat (n : Nat) (h : n < 128) : (UInt8.ofNat n).toNat = n := by rw [UInt8.toNat_ofNat']; omega

theorem parseLength_put (n : Nat) (h : n < 2 ^ 31) (r : Bytes) : parseLength (putLength n ++ r) = some (n, r) := by
  unfold putLength
  split
  · rename_i hs
    simp only [List.singleton_append, parseLength]
    rw [if_pos (UInt8.lt_iff_toNat_lt.2 (by rw [small_toNat n hs]; exact hs)), small_toNat n hs]
  · rename_i hs
    have h1 := natBytes_pos n (by omega)
    have h2 := natBytes_four n h
    have h3 := long_byte _ h1 h2
    simp only [List.cons_append, parseLength]
    rw [if_neg (fun hc => by have := UInt8.lt_iff_toNat_lt.1 hc; rw [h3] at this; have : 128 + _ < 128 := this; omega),
      if_neg (fun hc => by have := congrArg UInt8.toNat hc; rw [h3] at this; have : 128 + _ = 128 := this; omega), h3,
      Nat.add_sub_cancel_left, lenBytes_put_append n (by omega) h]
    simp only
    rw [if_neg hs]

theorem must'_tlv (compound : Bool) (tag : Nat) (t : UInt8) (h1 : t.toNat / 64 = 0) (h2 : decide (t.toNat / 32 % 2 = 1) = compound) (h3 : t.toNat % 32 = tag)
    (h4 : tag ≠ 31) (c r : Bytes) (h : c.length < 2 ^ 31) : must' compound tag (tlv t c ++ r) = some (c, r) := by
  have hp : parseHead (tlv t c ++ r) = some (⟨0, compound, tag, c.length⟩, c ++ r) := by
    unfold tlv
    simp only [List.cons_append, parseHead, List.append_assoc]
    rw [if_neg (by omega), parseLength_put _ h]
    simp [h1, h2, h3]
  unfold must' element
  rw [if_neg (by simp [tlv]), hp]
  simp

theorem element_tlv (compound : Bool) (tag : Nat) (t : UInt8) (h1 : t.toNat / 64 = 0) (h2 : decide (t.toNat / 32 % 2 = 1) = compound) (h3 : t.toNat % 32 = tag)
    (h4 : tag ≠ 31) (o : Bool) (c r : Bytes) (h : c.length < 2 ^ 31) : element compound tag o (tlv t c ++ r) = some (some c, r) := by
  have hp : parseHead (tlv t c ++ r) = some (⟨0, compound, tag, c.length⟩, c ++ r) := by
    unfold tlv
    simp only [List.cons_append, parseHead, List.append_assoc]
    rw [if_neg (by omega), parseLength_put _ h]
    simp [h1, h2, h3]
  unfold element
  rw [if_neg (by simp [tlv]), hp]
  simp

theorem seq_tlv (c r : Bytes) (h : c.length < 2 ^ 31) : must' true 16 (tlv 48 c ++ r) = some (c, r) :=
  must'_tlv true 16 48 (by decide) (by decide) (by decide) (by decide) c r h

theorem seqOpt_tlv (c r : Bytes) (h : c.length < 2 ^ 31) : element true 16 true (tlv 48 c ++ r) = some (some c, r) :=
  element_tlv true 16 48 (by decide) (by decide) (by decide) (by decide) true c r h

theorem int_tlv (parse : Bytes → Option Int) (v : Int) (c r : Bytes) (hp : parse c = some v) (h : c.length < 2 ^ 31) :
    intField parse (tlv 2 c ++ r) = some (v, r) := by
  unfold intField
  rw [must'_tlv false 2 2 (by decide) (by decide) (by decide) (by decide) c r h]
  simp [hp]

theorem skip_tlv (v : Int) (r : Bytes) (h : (putBigInt v).length < 2 ^ 31) : skipInt (tlv 2 (putBigInt v) ++ r) = some r := by
  unfold skipInt
  rw [element_tlv false 2 2 (by decide) (by decide) (by decide) (by decide) true _ r h]
  simp [parse_putBigInt]

theorem read_tlv (t : UInt8) (ht : t.toNat % 32 ≠ 31) (c r : Bytes) (h : c.length < 2 ^ 31) : readASN1 t (tlv t c ++ r) = some (c, r) := by
  have hput : ∀ r, ∃ b l, putLength c.length ++ r = b :: l ∧
      (if b < 128 then some (b.toNat, l)
        else if b.toNat - 128 = 0 ∨ b.toNat - 128 > 4 ∨ l.length < b.toNat - 128 then none
        else if natVal (l.take (b.toNat - 128)) < 128 then none
        else if natVal (l.take (b.toNat - 128)) / 256 ^ (b.toNat - 128 - 1) = 0 then none
        else if 2 + (b.toNat - 128) + natVal (l.take (b.toNat - 128)) ≥ 2 ^ 32 then none
        else some (natVal (l.take (b.toNat - 128)), l.drop (b.toNat - 128))) = some (c.length, r) := by
    intro r
    unfold putLength
    split
    · rename_i hs
      refine ⟨_, _, rfl, ?_⟩
      rw [if_pos (UInt8.lt_iff_toNat_lt.2 (by rw [small_toNat _ hs]; exact hs)), small_toNat _ hs]
      simp
    · rename_i hs
      have h1 := natBytes_pos c.length (by omega)
      have h2 := natBytes_four c.length h
      have h3 := long_byte _ h1 h2
      refine ⟨_, _, rfl, ?_⟩
      rw [if_neg (fun hc => by have := UInt8.lt_iff_toNat_lt.1 hc; rw [h3] at this; have : 128 + _ < 128 := this; omega), h3, Nat.add_sub_cancel_left]
      simp only [List.append_eq, List.take_left, List.drop_left, List.length_append]
      rw [if_neg (by omega), natVal_natBytes, if_neg hs, if_neg, if_neg (by omega)]
      obtain ⟨a, l, e, ha⟩ := natBytes_head c.length (by omega)
      have hv := natVal_natBytes c.length
      rw [e, natVal_cons] at hv
      rw [e, List.length_cons, Nat.add_sub_cancel]
      have ha' : 1 ≤ a.toNat := by
        rcases Nat.eq_zero_or_pos a.toNat with h0 | h0
        · exact absurd (UInt8.toNat_inj.1 h0) ha
        · exact h0
      have hpos : 0 < 256 ^ l.length := Nat.pow_pos (by omega)
      intro h0
      rw [Nat.div_eq_zero_iff] at h0
      rcases h0 with h0 | h0
      · omega
      · nlinarith
  obtain ⟨b, l, e, hb⟩ := hput (c ++ r)
  unfold tlv
  simp only [List.cons_append, List.append_assoc]
  rw [e]
  simp only [readASN1]
  rw [if_neg ht]
  rw [hb]
  simp

end Gears.Rsa
