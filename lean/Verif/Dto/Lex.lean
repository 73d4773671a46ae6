import Verif.Dto.Spec
import Mathlib.Tactic.Tauto

/-
The lexer reads exactly the tokens of the specification.
-/

namespace Gears.Dto

open Gears.Str Gears.Utf8

/-! ## Numbers -/

theorem digit_iff (c : UInt8) : isDigit c = true ↔ Digit c := by simp [isDigit, Digit]

/-- What can follow a number. -/
def NumEnd (r : Bytes) : Prop := ∀ c, r.head? = some c → ¬ Digit c ∧ c ≠ 46 ∧ c ≠ 101 ∧ c ≠ 69

theorem lexDigits_append {ds r : Bytes} (h : ∀ d ∈ ds, Digit d) (hr : ∀ c, r.head? = some c → ¬ Digit c) : lexDigits (ds ++ r) = (ds, r) := by
  unfold lexDigits
  have h1 : ∀ d ∈ ds, isDigit d = true := fun d hd => (digit_iff d).2 (h d hd)
  rw [List.takeWhile_append_of_pos h1, List.dropWhile_append_of_pos h1]
  cases r with
  | nil => simp
  | cons c r =>
    have : ¬ isDigit c = true := fun e => hr c rfl ((digit_iff c).1 e)
    simp [List.takeWhile_cons, List.dropWhile_cons, this]

theorem mem_takeWhile' {p : UInt8 → Bool} : ∀ (s : Bytes) (d : UInt8), d ∈ s.takeWhile p → p d = true
  | [], d, h => by simp at h
  | c :: s, d, h => by
    rw [List.takeWhile_cons] at h
    split at h
    · rcases List.mem_cons.1 h with rfl | h
      · assumption
      · exact mem_takeWhile' s d h
    · simp at h

theorem lexDigits_sound (s : Bytes) : s = (lexDigits s).1 ++ (lexDigits s).2 ∧ (∀ d ∈ (lexDigits s).1, Digit d) ∧
    ∀ c, (lexDigits s).2.head? = some c → ¬ Digit c := by
  unfold lexDigits
  refine ⟨(List.takeWhile_append_dropWhile).symm, fun d hd => (digit_iff d).1 (mem_takeWhile' s d hd), fun c hc e => ?_⟩
  have := List.head?_dropWhile_not isDigit s
  rw [hc] at this
  simp [(digit_iff c).2 e] at this

theorem lexInt_append {i r : Bytes} (hi : i = [48] ∨ ∃ c ds, i = c :: ds ∧ 49 ≤ c ∧ c ≤ 57 ∧ ∀ d ∈ ds, Digit d)
    (hr : ∀ c, r.head? = some c → ¬ Digit c) : lexInt (i ++ r) = some (i, r) := by
  rcases hi with rfl | ⟨c, ds, rfl, h1, h2, h3⟩
  · rfl
  · have hc : c ≠ 48 := by rintro rfl; exact absurd h1 (by decide)
    have hd : isDigit c = true := (digit_iff c).2 ⟨by
      have h49 : (48 : UInt8) ≤ 49 := by decide
      exact UInt8.le_trans h49 h1, h2⟩
    simp only [List.cons_append]
    unfold lexInt
    split
    · rename_i heq; simp at heq; exact absurd heq.1 hc
    · rename_i heq
      simp at heq
      obtain ⟨rfl, rfl⟩ := heq
      rw [if_pos hd, lexDigits_append h3 hr]
    · rename_i heq; simp at heq

theorem lexFrac_append {f r : Bytes} (hf : f = [] ∨ ∃ ds, f = 46 :: ds ∧ ds ≠ [] ∧ ∀ d ∈ ds, Digit d)
    (hr : ∀ c, r.head? = some c → ¬ Digit c ∧ c ≠ 46) : lexFrac (f ++ r) = some (f, r) := by
  rcases hf with rfl | ⟨ds, rfl, h1, h2⟩
  · simp only [List.nil_append]
    unfold lexFrac
    split
    · exact absurd rfl (hr 46 rfl).2
    · rfl
  · simp only [List.cons_append]
    unfold lexFrac
    simp only
    rw [lexDigits_append h2 (fun c hc => (hr c hc).1)]
    simp [h1]

theorem lexExp_append {e r : Bytes} (he : e = [] ∨ ∃ c s ds, e = c :: s ++ ds ∧ (c = 101 ∨ c = 69) ∧ (s = [] ∨ s = [43] ∨ s = [45]) ∧
    ds ≠ [] ∧ ∀ d ∈ ds, Digit d) (hr : NumEnd r) : lexExp (e ++ r) = some (e, r) := by
  rcases he with rfl | ⟨c, s, ds, rfl, hc, hs, h1, h2⟩
  · simp only [List.nil_append]
    cases r with
    | nil => rfl
    | cons c r =>
      have := hr c rfl
      unfold lexExp
      simp [this.2.2.1, this.2.2.2]
  · have hd := lexDigits_append (r := r) h2 (fun c hc => (hr c hc).1)
    have key : ∀ p, lexExpDigits p (ds ++ r) = some (p ++ ds, r) := by
      intro p; unfold lexExpDigits; rw [hd]; simp [h1]
    rcases hs with rfl | rfl | rfl
    · cases ds with
      | nil => exact absurd rfl h1
      | cons d ds =>
        have hdd := h2 d (by simp)
        have hne : ¬ (d = 43 ∨ d = 45) := by
          rintro (rfl | rfl) <;> exact absurd hdd.1 (by decide)
        simp only [List.cons_append, List.nil_append]
        unfold lexExp
        simp only
        rw [if_pos hc]
        rw [if_neg hne]
        exact key [c]
    · simp only [List.cons_append, List.nil_append]
      unfold lexExp
      simp only
      rw [if_pos hc]
      rw [if_pos (by simp)]
      exact key [c, 43]
    · simp only [List.cons_append, List.nil_append]
      unfold lexExp
      simp only
      rw [if_pos hc]
      rw [if_pos (by simp)]
      exact key [c, 45]

theorem lexNum_complete {t r : Bytes} (ht : NumText t) (hr : NumEnd r) : lexNum (t ++ r) = some (t, r) := by
  obtain ⟨sg, i, f, e, rfl, hs, hi, hf, he⟩ := ht
  have hex : ∀ c, (e ++ r).head? = some c → ¬ Digit c ∧ c ≠ 46 := by
    intro c hc
    rcases he with rfl | ⟨x, s, ds, rfl, hx, -⟩
    · exact ⟨(hr c hc).1, (hr c hc).2.1⟩
    · simp at hc
      subst hc
      rcases hx with rfl | rfl <;> exact ⟨by unfold Digit; decide, by decide⟩
  have hfr : ∀ c, (f ++ (e ++ r)).head? = some c → ¬ Digit c := by
    intro c hc
    rcases hf with rfl | ⟨ds, rfl, -⟩
    · exact (hex c hc).1
    · simp at hc; subst hc; unfold Digit; decide
  have hu : lexUnsigned (i ++ f ++ e ++ r) = some (i ++ f ++ e, r) := by
    unfold lexUnsigned
    rw [List.append_assoc, List.append_assoc, lexInt_append hi hfr]
    simp only
    rw [lexFrac_append hf hex]
    simp only
    rw [lexExp_append he hr]
  rcases hs with rfl | rfl
  · simp only [List.nil_append]
    unfold lexNum
    split
    · rename_i heq
      have : i ≠ [] ∧ ∀ c, i.head? = some c → c ≠ 45 := by
        rcases hi with rfl | ⟨c, ds, rfl, h1, -⟩
        · simp
        · refine ⟨by simp, fun c' hc' => ?_⟩
          simp at hc'; subst hc'
          rintro rfl; exact absurd h1 (by decide)
      cases i with
      | nil => exact absurd rfl this.1
      | cons c i => simp at heq; exact absurd heq.1 (this.2 c rfl)
    · exact hu
  · show lexNum (45 :: (i ++ f ++ e) ++ r) = _
    simp only [List.cons_append]
    unfold lexNum
    simp only [hu]
    simp

theorem lexNum_sound {s t r : Bytes} (h : lexNum s = some (t, r)) : NumText t ∧ s = t ++ r := by
  have hint : ∀ s i r, lexInt s = some (i, r) → s = i ++ r ∧ (i = [48] ∨ ∃ c ds, i = c :: ds ∧ 49 ≤ c ∧ c ≤ 57 ∧ ∀ d ∈ ds, Digit d) := by
    intro s i r h
    unfold lexInt at h
    split at h
    · simp at h; obtain ⟨rfl, rfl⟩ := h; exact ⟨rfl, .inl rfl⟩
    · rename_i c r' hc
      split at h
      · rename_i hd
        simp at h
        obtain ⟨rfl, rfl⟩ := h
        obtain ⟨h1, h2, -⟩ := lexDigits_sound r'
        refine ⟨by rw [List.cons_append, ← h1], .inr ⟨c, _, rfl, ?_, ((digit_iff c).1 hd).2, h2⟩⟩
        have h48 : c ≠ 48 := fun e => hc e
        have := ((digit_iff c).1 hd).1
        rw [UInt8.le_iff_toNat_le] at this ⊢
        have h48' : c.toNat ≠ 48 := fun e => h48 (UInt8.toNat_inj.1 e)
        have e1 : (48 : UInt8).toNat = 48 := rfl
        have e2 : (49 : UInt8).toNat = 49 := rfl
        omega
      · simp at h
    · simp at h
  have hfrac : ∀ s f r, lexFrac s = some (f, r) → s = f ++ r ∧ (f = [] ∨ ∃ ds, f = 46 :: ds ∧ ds ≠ [] ∧ ∀ d ∈ ds, Digit d) := by
    intro s f r h
    unfold lexFrac at h
    split at h
    · rename_i r'
      split at h
      · simp at h
      · rename_i hne
        simp at h
        obtain ⟨rfl, rfl⟩ := h
        obtain ⟨h1, h2, -⟩ := lexDigits_sound r'
        exact ⟨by rw [List.cons_append, ← h1], .inr ⟨_, rfl, hne, h2⟩⟩
    · simp at h; obtain ⟨rfl, rfl⟩ := h; exact ⟨rfl, .inl rfl⟩
  have hdig : ∀ p s e r, lexExpDigits p s = some (e, r) → ∃ ds, s = ds ++ r ∧ e = p ++ ds ∧ ds ≠ [] ∧ ∀ d ∈ ds, Digit d := by
    intro p s e r h
    unfold lexExpDigits at h
    split at h
    · simp at h
    · rename_i hne
      simp at h
      obtain ⟨rfl, rfl⟩ := h
      obtain ⟨h1, h2, -⟩ := lexDigits_sound s
      exact ⟨_, h1, rfl, hne, h2⟩
  have hexp : ∀ s e r, lexExp s = some (e, r) → s = e ++ r ∧ (e = [] ∨ ∃ c s ds, e = c :: s ++ ds ∧ (c = 101 ∨ c = 69) ∧
      (s = [] ∨ s = [43] ∨ s = [45]) ∧ ds ≠ [] ∧ ∀ d ∈ ds, Digit d) := by
    intro s e r h
    unfold lexExp at h
    split at h
    · rename_i c r'
      split at h
      · rename_i hc
        split at h
        · simp at h
        · rename_i d r2
          split at h
          · rename_i hd
            obtain ⟨ds, rfl, rfl, h1, h2⟩ := hdig _ _ _ _ h
            refine ⟨by simp, .inr ⟨c, [d], ds, rfl, hc, ?_, h1, h2⟩⟩
            rcases hd with rfl | rfl <;> simp
          · obtain ⟨ds, hs, rfl, h1, h2⟩ := hdig _ _ _ _ h
            exact ⟨by rw [hs]; simp, .inr ⟨c, [], ds, rfl, hc, .inl rfl, h1, h2⟩⟩
      · simp at h; obtain ⟨rfl, rfl⟩ := h; exact ⟨rfl, .inl rfl⟩
    · simp at h; obtain ⟨rfl, rfl⟩ := h; exact ⟨rfl, .inl rfl⟩
  have huns : ∀ s t r, lexUnsigned s = some (t, r) → s = t ++ r ∧ ∀ sg : Bytes, sg = [] ∨ sg = [45] → NumText (sg ++ t) := by
    intro s t r h
    unfold lexUnsigned at h
    split at h
    · simp at h
    · rename_i i s1 hi
      split at h
      · simp at h
      · rename_i f s2 hf
        split at h
        · simp at h
        · rename_i e s3 he
          simp at h
          obtain ⟨rfl, rfl⟩ := h
          obtain ⟨rfl, i2⟩ := hint _ _ _ hi
          obtain ⟨rfl, f2⟩ := hfrac _ _ _ hf
          obtain ⟨rfl, e2⟩ := hexp _ _ _ he
          exact ⟨by simp, fun sg hsg => ⟨sg, i, f, e, by simp, hsg, i2, f2, e2⟩⟩
  unfold lexNum at h
  split at h
  · rename_i r'
    cases hu : lexUnsigned r' with
    | none => simp [hu] at h
    | some p =>
      simp [hu] at h
      obtain ⟨rfl, rfl⟩ := h
      obtain ⟨h1, h2⟩ := huns _ _ _ hu
      exact ⟨h2 [45] (.inr rfl), by rw [h1]; simp⟩
  · obtain ⟨h1, h2⟩ := huns _ _ _ h
    exact ⟨h2 [] (.inl rfl), h1⟩

/-! ## Strings -/

theorem hex_iff (c : UInt8) : (isHex c = true ↔ HexDigit c (hexVal c)) ∧ ∀ v, HexDigit c v → v = hexVal c := by
  revert c
  refine all_bytes fun i => ⟨?_, fun v hv => ?_⟩
  · revert i; unfold HexDigit hexVal; decide +kernel
  · have : ∀ i : Fin 256, ((48 ≤ UInt8.ofFin i ∧ UInt8.ofFin i ≤ 57) → (UInt8.ofFin i).toNat - 48 = hexVal (UInt8.ofFin i)) ∧
        ((97 ≤ UInt8.ofFin i ∧ UInt8.ofFin i ≤ 102) → (UInt8.ofFin i).toNat - 87 = hexVal (UInt8.ofFin i)) ∧
        ((65 ≤ UInt8.ofFin i ∧ UInt8.ofFin i ≤ 70) → (UInt8.ofFin i).toNat - 55 = hexVal (UInt8.ofFin i)) := by decide +kernel
    obtain ⟨h1, h2, h3⟩ := this i
    rcases hv with ⟨a, b, rfl⟩ | ⟨a, b, rfl⟩ | ⟨a, b, rfl⟩
    · exact h1 ⟨a, b⟩
    · exact h2 ⟨a, b⟩
    · exact h3 ⟨a, b⟩

theorem getu4_append {x : Bytes} {v : Nat} (h : U4 x v) (r : Bytes) : getu4 (x ++ r) = some (v, r) := by
  obtain ⟨a, b, c, d, va, vb, vc, vd, rfl, ha, hb, hc, hd, rfl⟩ := h
  have ea := (hex_iff a).2 _ ha
  have eb := (hex_iff b).2 _ hb
  have ec := (hex_iff c).2 _ hc
  have ed := (hex_iff d).2 _ hd
  subst ea eb ec ed
  have hex : isHex a = true ∧ isHex b = true ∧ isHex c = true ∧ isHex d = true :=
    ⟨(hex_iff a).1.2 ha, (hex_iff b).1.2 hb, (hex_iff c).1.2 hc, (hex_iff d).1.2 hd⟩
  simp only [List.cons_append, List.nil_append, getu4, hex, Bool.and_self, if_true]
  have e : hex4 a b c d = hexVal a * 4096 + hexVal b * 256 + hexVal c * 16 + hexVal d := by unfold hex4; omega
  rw [e]

theorem getu4_sound {s r : Bytes} {v : Nat} (h : getu4 s = some (v, r)) : ∃ x, U4 x v ∧ s = x ++ r := by
  unfold getu4 at h
  split at h
  · rename_i a b c d r'
    split at h
    · rename_i hh
      simp at h hh
      obtain ⟨rfl, rfl⟩ := h
      obtain ⟨⟨⟨ha, hb⟩, hc⟩, hd⟩ := hh
      exact ⟨[92, 117, a, b, c, d], ⟨a, b, c, d, _, _, _, _, rfl, (hex_iff a).1.1 ha, (hex_iff b).1.1 hb, (hex_iff c).1.1 hc,
        (hex_iff d).1.1 hd, by unfold hex4; omega⟩, rfl⟩
    · simp at h
  · simp at h

theorem u4_lt {x : Bytes} {v : Nat} (h : U4 x v) : v < 65536 ∧ x.length = 6 ∧ 34 ∉ x ∧ ∃ y, x = 92 :: 117 :: y := by
  obtain ⟨a, b, c, d, va, vb, vc, vd, rfl, ha, hb, hc, hd, rfl⟩ := h
  have : ∀ c v, HexDigit c v → v < 16 ∧ c ≠ 34 := by
    intro c v hv
    rcases hv with ⟨h1, h2, rfl⟩ | ⟨h1, h2, rfl⟩ | ⟨h1, h2, rfl⟩
    all_goals
      rw [UInt8.le_iff_toNat_le] at h1 h2
      refine ⟨?_, fun e => ?_⟩
      · first
        | (have e : (57 : UInt8).toNat = 57 := rfl; omega)
        | (have e : (102 : UInt8).toNat = 102 := rfl; omega)
        | (have e : (70 : UInt8).toNat = 70 := rfl; omega)
      · subst e; exact absurd h1 (by decide)
  have h1 := this _ _ ha
  have h2 := this _ _ hb
  have h3 := this _ _ hc
  have h4 := this _ _ hd
  refine ⟨by omega, rfl, ?_, _, rfl⟩
  simp [h1.2.symm, h2.2.symm, h3.2.symm, h4.2.symm]

theorem u4_inj {x y : Bytes} {v w : Nat} (h : U4 x v) (h' : U4 y w) (r r' : Bytes) (e : x ++ r = y ++ r') : v = w ∧ x = y ∧ r = r' := by
  have h1 := getu4_append h r
  have h2 := getu4_append h' r'
  rw [e, h2] at h1
  simp at h1
  obtain ⟨rfl, rfl⟩ := h1
  exact ⟨rfl, List.append_cancel_right e, rfl⟩

/-- A list without c is a prefix of what is before c. -/
theorem prefix_of {α : Type} {c : α} : ∀ (p u r t : List α), c ∉ p → p ++ t = u ++ c :: r → ∃ t', u = p ++ t'
  | [], u, r, t, _, _ => ⟨u, rfl⟩
  | a :: p, u, r, t, hc, h => by
    cases u with
    | nil => simp at h; exact absurd h.1.symm (by simp at hc; exact hc.1)
    | cons b u =>
      simp at h
      obtain ⟨rfl, h⟩ := h
      obtain ⟨t', rfl⟩ := prefix_of p u r t (by simp at hc; exact hc.2) h
      exact ⟨t', rfl⟩

theorem esc_iff (e b : UInt8) : simpleEsc e = some b ↔ (e, b) ∈ escapes := by
  unfold simpleEsc escapes
  by_cases h34 : e = 34
  · subst h34; simp; exact eq_comm
  by_cases h92 : e = 92
  · subst h92; simp; exact eq_comm
  by_cases h47 : e = 47
  · subst h47; simp; exact eq_comm
  by_cases h98 : e = 98
  · subst h98; simp; exact eq_comm
  by_cases h102 : e = 102
  · subst h102; simp; exact eq_comm
  by_cases h110 : e = 110
  · subst h110; simp; exact eq_comm
  by_cases h114 : e = 114
  · subst h114; simp; exact eq_comm
  by_cases h116 : e = 116
  · subst h116; simp; exact eq_comm
  simp [*]

theorem surr_iff (v : Nat) : isSurr v = true ↔ High v ∨ Low v := by unfold isSurr High Low; simp; omega

theorem isPair_iff (v w : Nat) : isPair v w = true ↔ High v ∧ Low w := by unfold isPair High Low; simp

/-- The step at a `\u` escape. -/
theorem strStep_u {x : Bytes} {v : Nat} (h : U4 x v) (r : Bytes) : strStep (x ++ r) =
    if isSurr v then
      match getu4 r with
      | some (u2, r4) => if isPair v u2 then some (encodeRune (pairRune v u2), r4) else some (encodeRune 0xFFFD, r)
      | none => some (encodeRune 0xFFFD, r)
    else some (encodeRune v, r) := by
  obtain ⟨-, -, -, y, rfl⟩ := u4_lt h
  have hg := getu4_append h r
  simp only [List.cons_append] at hg ⊢
  unfold strStep
  have : simpleEsc 117 = none := by decide
  simp only [this, hg]
  rfl

theorem strStep_plain {r : Nat} (hr : Scalar r) (h1 : 32 ≤ r) (h3 : r ≠ 92) (t : Bytes) :
    strStep (encodeRune r ++ t) = some (encodeRune r, t) := by
  by_cases ha : r < 0x80
  · rw [encode_ascii ha]
    have hn := toNat_ofNat (show r < 256 by omega)
    have h92 : UInt8.ofNat r ≠ 92 := fun e => h3 (by rw [e] at hn; exact hn.symm)
    have h32 : ¬ UInt8.ofNat r < 32 := by
      rw [UInt8.lt_iff_toNat_lt, hn]; show ¬ r < 32; omega
    have h128 : UInt8.ofNat r < 128 := by
      rw [UInt8.lt_iff_toNat_lt, hn]; exact ha
    simp only [List.singleton_append]
    unfold strStep
    split
    · rename_i heq; simp at heq
    · rename_i heq; simp at heq; exact absurd heq.1 h92
    · rename_i heq; simp at heq
      obtain ⟨rfl, rfl⟩ := heq
      rw [if_neg h32, if_pos h128]
  · obtain ⟨b, u, hb, hb2⟩ := encode_high (r := r) (by omega)
    have hd := decode_encode hr t
    rw [hb] at hd
    simp only [List.cons_append] at hd
    rw [hb]
    simp only [List.cons_append]
    have h92 : b ≠ 92 := by rintro rfl; exact absurd hb2 (by decide)
    have h32 : ¬ b < 32 := by
      rw [UInt8.lt_iff_toNat_lt]; show ¬ b.toNat < 32; omega
    have h128 : ¬ b < 128 := by
      rw [UInt8.lt_iff_toNat_lt]; show ¬ b.toNat < 128; omega
    unfold strStep
    split
    · rename_i heq; simp at heq
    · rename_i heq; simp at heq; exact absurd heq.1 h92
    · rename_i heq; simp at heq
      obtain ⟨rfl, rfl⟩ := heq
      rw [if_neg h32, if_neg h128, hd]
      simp [hb]

theorem strStep_bad {b : UInt8} (hb : 128 ≤ b) {t : Bytes} (h : ∀ r t', Scalar r → b :: t ≠ encodeRune r ++ t') :
    strStep (b :: t) = some (encodeRune 0xFFFD, t) := by
  have hb2 : 128 ≤ b.toNat := by rw [UInt8.le_iff_toNat_le] at hb; exact hb
  have h92 : b ≠ 92 := by rintro rfl; exact absurd hb2 (by decide)
  have h32 : ¬ b < 32 := by
    rw [UInt8.lt_iff_toNat_lt]; show ¬ b.toNat < 32; omega
  have h128 : ¬ b < 128 := by
    rw [UInt8.lt_iff_toNat_lt]; show ¬ b.toNat < 128; omega
  have hd : decodeRune (b :: t) = (0xFFFD, 1) := by
    rcases decode_cases (s := b :: t) (by simp) with h' | ⟨r, rest, h1, h2, -⟩
    · exact h'
    · exact absurd h2 (h r rest h1)
  unfold strStep
  split
  · rename_i heq; simp at heq
  · rename_i heq; simp at heq; exact absurd heq.1 h92
  · rename_i heq; simp at heq
    obtain ⟨rfl, rfl⟩ := heq
    rw [if_neg h32, if_neg h128, hd]
    rfl

theorem encode_no34 {r : Nat} (h : r ≠ 34) : (34 : UInt8) ∉ encodeRune r := by
  by_cases hr : r < 0x80
  · rw [encode_ascii hr]
    intro e
    simp at e
    have := congrArg UInt8.toNat e
    rw [toNat_ofNat (by omega)] at this
    exact h this.symm
  · intro hm
    have : ∀ n, 34 < n → n < 256 → (34 : UInt8) ≠ UInt8.ofNat n := by
      intro n h1 h2 e
      have := congrArg UInt8.toNat e
      rw [toNat_ofNat h2] at this
      have e34 : (34 : UInt8).toNat = 34 := rfl
      omega
    revert hm
    unfold encodeRune
    rw [if_neg hr]
    split
    · simp only [List.mem_cons, List.not_mem_nil, or_false]
      rintro (e | e)
      · exact this _ (by omega) (by omega) e
      · exact this _ (by omega) (by omega) e
    · split
      · decide
      · split
        · simp only [List.mem_cons, List.not_mem_nil, or_false]
          rintro (e | e | e)
          · exact this _ (by omega) (by omega) e
          · exact this _ (by omega) (by omega) e
          · exact this _ (by omega) (by omega) e
        · intro hm
          simp only [List.mem_cons, List.not_mem_nil, or_false] at hm
          by_cases hbig : r < 0x110000
          · rcases hm with e | e | e | e
            · exact this _ (by omega) (by omega) e
            · exact this _ (by omega) (by omega) e
            · exact this _ (by omega) (by omega) e
            · exact this _ (by omega) (by omega) e
          · omega

theorem lexStr_complete {b v : Bytes} (h : Chars b v) (r : Bytes) : ∀ n, (b ++ 34 :: r).length ≤ n → lexStr n (b ++ 34 :: r) = some (v, r) := by
  have step : ∀ (x p t s : Bytes), x ≠ [] → x.head? ≠ some 34 → strStep (x ++ (t ++ 34 :: r)) = some (p, t ++ 34 :: r) →
      (∀ n, (t ++ 34 :: r).length ≤ n → lexStr n (t ++ 34 :: r) = some (s, r)) →
      ∀ n, (x ++ t ++ 34 :: r).length ≤ n → lexStr n (x ++ t ++ 34 :: r) = some (p ++ s, r) := by
    intro x p t s hx h34 hs ih n hn
    cases x with
    | nil => exact absurd rfl hx
    | cons c x =>
      cases n with
      | zero => simp at hn
      | succ n =>
        rw [List.append_assoc]
        simp only [List.cons_append, List.head?_cons] at hs h34 ⊢
        unfold lexStr
        rw [if_neg (by simpa using h34), hs]
        simp only
        rw [ih n (by simp at hn ⊢; omega)]
        rfl
  induction h with
  | nil =>
    intro n hn
    cases n with
    | zero => simp at hn
    | succ n => simp [lexStr]
  | @plain r' t s h1 h2 h3 h4 _ ih =>
    refine step (encodeRune r') _ t s (encode_ne _) ?_ (strStep_plain h1 h2 h4 _) ih
    intro e
    exact encode_no34 h3 (List.mem_of_head? e)
  | @esc e b t s h1 _ ih =>
    have := (esc_iff e b).2 h1
    exact step [92, e] [b] t s (by simp) (by simp) (by simp [strStep, this]) ih
  | @uni x v t s h1 h2 h3 _ ih =>
    obtain ⟨-, -, -, y, hy⟩ := u4_lt h1
    refine step x _ t s (by simp [hy]) (by simp [hy]) ?_ ih
    rw [strStep_u h1, if_neg (by rw [surr_iff]; tauto)]
  | @pair x y v w t s h1 h2 h3 h4 _ ih =>
    obtain ⟨-, -, -, z, hz⟩ := u4_lt h1
    refine step (x ++ y) _ t s (by simp [hz]) (by simp [hz]) ?_ ih
    rw [List.append_assoc, strStep_u h1, if_pos (by rw [surr_iff]; tauto), getu4_append h2]
    simp only
    rw [if_pos ((isPair_iff v w).2 ⟨h3, h4⟩)]
    have : pairRune v w = 0x10000 + (v - 0xD800) * 1024 + (w - 0xDC00) := by unfold pairRune; omega
    rw [this]
  | @lone x v t s h1 h2 _ ih =>
    obtain ⟨-, -, -, z, hz⟩ := u4_lt h1
    refine step x _ t s (by simp [hz]) (by simp [hz]) ?_ ih
    rw [strStep_u h1, if_pos (by rw [surr_iff]; tauto)]
    cases hg : getu4 (t ++ 34 :: r) with
    | none => rfl
    | some p =>
      obtain ⟨u2, r4⟩ := p
      simp only
      rw [if_neg]
      rw [isPair_iff]
      rintro ⟨hv, hu⟩
      obtain ⟨y, hy, he⟩ := getu4_sound hg
      obtain ⟨t', ht'⟩ := prefix_of y t r r4 (u4_lt hy).2.2.1 he.symm
      rcases h2 with ⟨-, h2⟩ | h2
      · exact h2 y u2 t' hy hu ht'
      · unfold High at hv; unfold Low at h2; omega
  | @bad b t s h1 h2 _ ih =>
    have h34 : b ≠ 34 := by rintro rfl; exact absurd h1 (by decide)
    refine step [b] _ t s (by simp) (by simpa using h34) ?_ ih
    refine strStep_bad h1 fun q t' hq he => ?_
    have hq34 : q ≠ 34 := by
      rintro rfl
      rw [encode_ascii (by omega)] at he
      simp at he
      exact h34 he.1
    obtain ⟨t'', ht⟩ := prefix_of (encodeRune q) (b :: t) r t' (encode_no34 hq34) (by simpa using he.symm)
    exact h2 q t'' hq ht

theorem strStep_sound {s p r : Bytes} {c : UInt8} (hc : s.head? = some c) (h34 : c ≠ 34) (h : strStep s = some (p, r)) : r.length < s.length ∧
    ∀ t q e, r = t ++ 34 :: e → Chars t q → ∃ b, s = b ++ 34 :: e ∧ Chars b (p ++ q) := by
  unfold strStep at h
  split at h
  · simp at h
  · rename_i r1
    split at h
    · simp at h
    · rename_i e r2
      split at h
      · rename_i b hb
        simp at h
        obtain ⟨rfl, rfl⟩ := h
        refine ⟨by simp; omega, fun t q e' ht hq => ⟨92 :: e :: t, by simp [ht], .esc ((esc_iff e b).1 hb) hq⟩⟩
      · split at h
        · simp at h
        · rename_i u r3 hg
          obtain ⟨x, hx, he⟩ := getu4_sound hg
          rw [he]
          have hxl := (u4_lt hx).2.1
          split at h
          · rename_i hs
            rw [surr_iff] at hs
            have lone : ∀ (p r : Bytes), (¬ ∃ u2 r4, getu4 r3 = some (u2, r4) ∧ isPair u u2 = true) →
                some (encodeRune 0xFFFD, r3) = some (p, r) → r.length < (x ++ r3).length ∧
                ∀ t q e, r = t ++ 34 :: e → Chars t q → ∃ b, x ++ r3 = b ++ 34 :: e ∧ Chars b (p ++ q) := by
              intro p r hno heq
              simp at heq
              obtain ⟨rfl, rfl⟩ := heq
              refine ⟨by simp; omega, fun t q e ht hq => ⟨x ++ t, by simp [ht], .lone hx ?_ hq⟩⟩
              by_cases hh : High u
              · refine .inl ⟨hh, fun y w t' hy hw hty => hno ⟨w, t' ++ 34 :: e, ?_, (isPair_iff u w).2 ⟨hh, hw⟩⟩⟩
                rw [ht, hty, List.append_assoc]
                exact getu4_append hy _
              · exact .inr (by tauto)
            split at h
            · rename_i u2 r4 hg2
              split at h
              · rename_i hp
                simp at h
                obtain ⟨rfl, rfl⟩ := h
                obtain ⟨y, hy, rfl⟩ := getu4_sound hg2
                rw [isPair_iff] at hp
                refine ⟨by simp; omega, fun t q e ht hq => ⟨x ++ y ++ t, by simp [ht], ?_⟩⟩
                have : pairRune u u2 = 0x10000 + (u - 0xD800) * 1024 + (u2 - 0xDC00) := by unfold pairRune; omega
                rw [this]
                exact .pair hx hy hp.1 hp.2 hq
              · rename_i hp
                refine lone p r ?_ h
                rintro ⟨u3, r5, h1, h2⟩
                rw [hg2] at h1
                simp at h1
                obtain ⟨rfl, rfl⟩ := h1
                exact hp h2
            · rename_i hg2
              refine lone p r ?_ h
              rintro ⟨u3, r5, h1, h2⟩
              rw [hg2] at h1
              simp at h1
          · rename_i hs
            rw [surr_iff] at hs
            simp at h
            obtain ⟨rfl, rfl⟩ := h
            refine ⟨by simp; omega, fun t q e ht hq => ⟨x ++ t, by simp [ht], .uni hx (by tauto) (by tauto) hq⟩⟩
  · rename_i c' r1 h92
    simp at hc
    subst hc
    split at h
    · simp at h
    · rename_i h32
      have h32' : 32 ≤ c'.toNat := by
        rw [UInt8.lt_iff_toNat_lt] at h32
        have : (32 : UInt8).toNat = 32 := rfl
        omega
      split at h
      · rename_i h128
        simp at h
        obtain ⟨rfl, rfl⟩ := h
        rw [UInt8.lt_iff_toNat_lt] at h128
        have h128' : c'.toNat < 128 := h128
        refine ⟨by simp, fun t q e ht hq => ⟨c' :: t, by simp [ht], ?_⟩⟩
        have := Chars.plain (r := c'.toNat) (by unfold Scalar; omega) h32' (fun e => h34 (UInt8.toNat_inj.1 e))
          (fun e => h92 (UInt8.toNat_inj.1 e)) hq
        rw [encode_ascii h128', ofNat_of rfl] at this
        exact this
      · rename_i h128
        rw [UInt8.lt_iff_toNat_lt] at h128
        have h128' : 128 ≤ c'.toNat := by
          have : (128 : UInt8).toNat = 128 := rfl
          omega
        rcases decode_cases (s := c' :: r1) (by simp) with hd | ⟨z, rest, h1, h2, h3⟩
        · rw [hd] at h
          simp at h
          obtain ⟨rfl, rfl⟩ := h
          refine ⟨by simp, fun t q e ht hq => ⟨c' :: t, by simp [ht], .bad (by rw [UInt8.le_iff_toNat_le]; exact h128') ?_ hq⟩⟩
          intro z t' hz he
          refine decode_bad hd hz (t' ++ 34 :: e) ?_
          rw [ht, ← List.append_assoc, ← he]; rfl
        · rw [h3] at h
          rw [h2] at h ⊢
          simp at h
          obtain ⟨rfl, rfl⟩ := h
          refine ⟨?_, fun t q e ht hq => ⟨encodeRune z ++ t, by simp [ht], ?_⟩⟩
          · have := List.length_pos_iff.2 (encode_ne z)
            simp; omega
          · have hz : 128 ≤ z := by
              refine Nat.le_of_not_lt fun hz => ?_
              rw [encode_ascii (by omega)] at h2
              simp at h2
              have := h2.1
              rw [this, toNat_ofNat (by omega)] at h128'
              omega
            exact .plain h1 (by omega) (by omega) (by omega) hq

theorem lexStr_sound : ∀ (n : Nat) (s v r : Bytes), lexStr n s = some (v, r) → ∃ b, s = b ++ 34 :: r ∧ Chars b v
  | 0, s, v, r, h => by simp [lexStr] at h
  | n + 1, s, v, r, h => by
    cases s with
    | nil => simp [lexStr] at h
    | cons c s =>
      unfold lexStr at h
      split at h
      · rename_i hc
        simp at h
        obtain ⟨rfl, rfl⟩ := h
        exact ⟨[], by simp [hc], .nil⟩
      · rename_i hc
        split at h
        · simp at h
        · rename_i p r' hs
          cases hl : lexStr n r' with
          | none => simp [hl] at h
          | some q =>
            simp [hl] at h
            obtain ⟨rfl, rfl⟩ := h
            obtain ⟨b, hb, hq⟩ := lexStr_sound n r' q.1 q.2 hl
            exact (strStep_sound (c := c) rfl hc hs).2 b q.1 q.2 hb hq

/-- The strings that texts stand for are valid UTF-8. -/
theorem valid_cons {r : Nat} {s : Bytes} (hr : Scalar r) (h : Valid s) : Valid (encodeRune r ++ s) := by
  obtain ⟨rs, h1, rfl⟩ := h
  exact ⟨r :: rs, by simpa using ⟨hr, h1⟩, rfl⟩

theorem chars_valid {b v : Bytes} (h : Chars b v) : Valid v := by
  have fffd : Scalar 0xFFFD := by decide
  induction h with
  | nil => exact ⟨[], by simp, rfl⟩
  | plain h1 _ _ _ _ ih => exact valid_cons h1 ih
  | @esc e b t s h1 _ ih =>
    have : Scalar b.toNat ∧ encodeRune b.toNat = [b] := by
      revert h1
      unfold escapes
      simp only [List.mem_cons, Prod.mk.injEq, List.not_mem_nil, or_false]
      rintro (⟨-, rfl⟩ | ⟨-, rfl⟩ | ⟨-, rfl⟩ | ⟨-, rfl⟩ | ⟨-, rfl⟩ | ⟨-, rfl⟩ | ⟨-, rfl⟩ | ⟨-, rfl⟩) <;> decide
    have h := valid_cons this.1 ih
    rw [this.2] at h
    exact h
  | @uni x v t s h1 h2 h3 _ ih =>
    refine valid_cons ?_ ih
    have := (u4_lt h1).1
    unfold High at h2; unfold Low at h3; unfold Scalar
    omega
  | @pair x y v w t s h1 h2 h3 h4 _ ih =>
    refine valid_cons ?_ ih
    unfold High at h3; unfold Low at h4; unfold Scalar
    omega
  | lone _ _ _ ih => exact valid_cons fffd ih
  | bad _ _ _ ih => exact valid_cons fffd ih

/-! ## Tokens -/

def Tok.isNum : Tok → Bool
  | .num _ => Bool.true
  | _ => Bool.false

theorem lexWord_append (w : Bytes) (t : Tok) (r : Bytes) : lexWord w t (w ++ r) = some (t, r) := by
  unfold lexWord
  rw [if_pos ((isPrefix_iff w _).2 ⟨r, rfl⟩)]
  simp

theorem lexWord_sound {w : Bytes} {t t' : Tok} {s r : Bytes} (h : lexWord w t s = some (t', r)) : t' = t ∧ s = w ++ r := by
  unfold lexWord at h
  split at h
  · rename_i hp
    obtain ⟨r', rfl⟩ := (isPrefix_iff w s).1 hp
    simp at h
    exact ⟨h.1.symm, by rw [h.2]⟩
  · simp at h

theorem num_head {t : Bytes} (h : NumText t) : ∃ c u, t = c :: u ∧ (c = 45 ∨ Digit c) := by
  obtain ⟨sg, i, f, e, rfl, hs, hi, -⟩ := h
  rcases hs with rfl | rfl
  · rcases hi with rfl | ⟨c, ds, rfl, h1, h2, -⟩
    · exact ⟨48, _, rfl, .inr (by unfold Digit; decide)⟩
    · refine ⟨c, _, rfl, .inr ⟨?_, h2⟩⟩
      have h49 : (48 : UInt8) ≤ 49 := by decide
      exact UInt8.le_trans h49 h1
  · exact ⟨45, _, rfl, .inl rfl⟩

theorem lexTok_complete {x : Bytes} {t : Tok} (h : TokText x t) (r : Bytes) (hr : t.isNum = true → NumEnd r) :
    lexTok (x ++ r) = some (t, r) := by
  cases t with
  | lbrace => subst h; rfl
  | rbrace => subst h; rfl
  | lbrack => subst h; rfl
  | rbrack => subst h; rfl
  | colon => subst h; rfl
  | comma => subst h; rfl
  | null => subst h; exact lexWord_append (ascii "null") .null r
  | true => subst h; exact lexWord_append (ascii "true") .true r
  | false => subst h; exact lexWord_append (ascii "false") .false r
  | str s =>
    obtain ⟨b, rfl, hb⟩ := h
    have e : 34 :: b ++ [34] ++ r = 34 :: (b ++ 34 :: r) := by simp
    rw [e]
    have := lexStr_complete hb r ((b ++ 34 :: r).length + 1) (by omega)
    simp only [lexTok]
    rw [this]
    rfl
  | num t =>
    obtain ⟨rfl, hx⟩ := h
    have hn := lexNum_complete hx (hr rfl)
    obtain ⟨c, u, rfl, hc⟩ := num_head hx
    have : c ≠ 123 ∧ c ≠ 125 ∧ c ≠ 91 ∧ c ≠ 93 ∧ c ≠ 58 ∧ c ≠ 44 ∧ c ≠ 34 ∧ c ≠ 110 ∧ c ≠ 116 ∧ c ≠ 102 := by
      have : ∀ d : UInt8, ¬ Digit d → d ≠ 45 → c ≠ d := by
        rintro d h1 h2 rfl
        exact hc.elim h2 h1
      refine ⟨this _ ?_ ?_, this _ ?_ ?_, this _ ?_ ?_, this _ ?_ ?_, this _ ?_ ?_, this _ ?_ ?_, this _ ?_ ?_, this _ ?_ ?_, this _ ?_ ?_,
        this _ ?_ ?_⟩ <;> first | decide | (unfold Digit; decide)
    obtain ⟨h1, h2, h3, h4, h5, h6, h7, h8, h9, h10⟩ := this
    simp only [List.cons_append] at hn ⊢
    simp only [lexTok]
    rw [if_neg h1, if_neg h2, if_neg h3, if_neg h4, if_neg h5, if_neg h6, if_neg h7, if_neg h8, if_neg h9, if_neg h10, hn]
    rfl

theorem tok_ne {x : Bytes} {t : Tok} (h : TokText x t) : x ≠ [] ∧ ∀ c, x.head? = some c → isSpace c = false := by
  cases t with
  | str s => obtain ⟨b, rfl, -⟩ := h; exact ⟨by simp, by simp; decide⟩
  | num t =>
    obtain ⟨rfl, hx⟩ := h
    obtain ⟨c, u, rfl, hc⟩ := num_head hx
    refine ⟨by simp, fun d hd => ?_⟩
    simp at hd
    subst hd
    rcases hc with rfl | hc
    · decide
    · rw [← digit_iff] at hc
      have : ∀ i : Fin 256, isDigit (UInt8.ofFin i) = true → isSpace (UInt8.ofFin i) = false := by decide +kernel
      exact all_bytes (P := fun c => isDigit c = true → isSpace c = false) this c hc
  | _ =>
    subst h
    refine ⟨by decide, ?_⟩
    simp [ascii]
    try decide

theorem lexTok_sound {s r : Bytes} {t : Tok} (h : lexTok s = some (t, r)) : ∃ x, s = x ++ r ∧ TokText x t := by
  unfold lexTok at h
  split at h
  · simp at h
  · rename_i c r'
    have one : ∀ (d : UInt8) (t' : Tok), TokText [d] t' → c = d → some (t', r') = some (t, r) → ∃ x, c :: r' = x ++ r ∧ TokText x t := by
      rintro d t' h1 rfl h2
      simp at h2
      obtain ⟨rfl, rfl⟩ := h2
      exact ⟨[c], rfl, h1⟩
    split at h
    · exact one 123 .lbrace rfl ‹_› h
    split at h
    · exact one 125 .rbrace rfl ‹_› h
    split at h
    · exact one 91 .lbrack rfl ‹_› h
    split at h
    · exact one 93 .rbrack rfl ‹_› h
    split at h
    · exact one 58 .colon rfl ‹_› h
    split at h
    · exact one 44 .comma rfl ‹_› h
    split at h
    · rename_i hc
      subst hc
      cases hl : lexStr (r'.length + 1) r' with
      | none => simp [hl] at h
      | some p =>
        simp [hl] at h
        obtain ⟨rfl, rfl⟩ := h
        obtain ⟨b, hb, hv⟩ := lexStr_sound _ _ _ _ hl
        exact ⟨34 :: b ++ [34], by simp [hb], b, rfl, hv⟩
    split at h
    · obtain ⟨rfl, hs⟩ := lexWord_sound h
      exact ⟨_, hs, rfl⟩
    split at h
    · obtain ⟨rfl, hs⟩ := lexWord_sound h
      exact ⟨_, hs, rfl⟩
    split at h
    · obtain ⟨rfl, hs⟩ := lexWord_sound h
      exact ⟨_, hs, rfl⟩
    cases hl : lexNum (c :: r') with
    | none => simp [hl] at h
    | some p =>
      simp [hl] at h
      obtain ⟨rfl, rfl⟩ := h
      obtain ⟨h1, h2⟩ := lexNum_sound hl
      exact ⟨p.1, h2, rfl, h1⟩

theorem space_iff (c : UInt8) : isSpace c = true ↔ c = 32 ∨ c = 9 ∨ c = 10 ∨ c = 13 := by unfold isSpace; simp; tauto

/-- A number is followed by a punctuation mark or nothing. -/
def Apart : List Tok → Prop
  | [] => True
  | [_] => True
  | t :: u :: ts => (t.isNum = true → u = .comma ∨ u = .rbrack ∨ u = .rbrace) ∧ Apart (u :: ts)

theorem apart_tail {t : Tok} {ts : List Tok} (h : Apart (t :: ts)) : Apart ts := by
  cases ts with
  | nil => trivial
  | cons u ts => exact h.2

theorem lex_complete {ts : List Tok} {b : Bytes} (h : Spells ts b) : Apart ts → ∀ n, b.length < n → lex n b = some ts := by
  have hdrop : ∀ (w s : Bytes), Ws w → (w ++ s).dropWhile isSpace = s.dropWhile isSpace := by
    intro w s hw
    exact List.dropWhile_append_of_pos fun c hc => (space_iff c).2 (hw c hc)
  induction h with
  | @nil w hw =>
    intro _ n hn
    cases n with
    | zero => omega
    | succ n =>
      have := hdrop w [] hw
      simp only [List.append_nil, List.dropWhile_nil] at this
      unfold lex
      simp [this]
  | @cons w x t ts r hw hx hs ih =>
    intro ha n hn
    cases n with
    | zero => omega
    | succ n =>
      obtain ⟨h1, h2⟩ := tok_ne hx
      have e : (w ++ x ++ r).dropWhile isSpace = x ++ r := by
        rw [List.append_assoc, hdrop _ _ hw]
        cases x with
        | nil => exact absurd rfl h1
        | cons c x => simp [List.dropWhile_cons, h2 c rfl]
      have hne : x ++ r ≠ [] := by simp [h1]
      have hend : t.isNum = true → NumEnd r := by
        intro hnum c hc
        cases hs with
        | nil hw' =>
          have := hw' c (List.mem_of_head? hc)
          rcases this with rfl | rfl | rfl | rfl <;> refine ⟨?_, ?_⟩ <;> first | decide | (unfold Digit; decide)
        | @cons w' x' t' ts' r' hw' hx' hs' =>
          cases w' with
          | cons d w' =>
            simp at hc
            subst hc
            have := hw' d (by simp)
            rcases this with rfl | rfl | rfl | rfl <;> refine ⟨?_, ?_⟩ <;> first | decide | (unfold Digit; decide)
          | nil =>
            have := ha.1 hnum
            rcases this with rfl | rfl | rfl
            all_goals
              have hx'' := hx'
              simp only [TokText] at hx''
              subst hx''
              simp [ascii] at hc
              subst hc
              refine ⟨?_, ?_⟩ <;> first | decide | (unfold Digit; decide)
      unfold lex
      simp only [e]
      rw [if_neg hne, lexTok_complete hx r hend]
      simp only
      rw [ih (apart_tail ha) n (by
        have := List.length_pos_iff.2 h1
        simp at hn; omega)]
      rfl

theorem lex_sound : ∀ (n : Nat) (b : Bytes) (ts : List Tok), lex n b = some ts → Spells ts b
  | 0, b, ts, h => by simp [lex] at h
  | n + 1, b, ts, h => by
    unfold lex at h
    simp only at h
    have hw : Ws (b.takeWhile isSpace) := fun c hc => (space_iff c).1 (mem_takeWhile' b c hc)
    have hb : b = b.takeWhile isSpace ++ b.dropWhile isSpace := List.takeWhile_append_dropWhile.symm
    split at h
    · rename_i he
      simp at h
      subst h
      rw [he, List.append_nil] at hb
      rw [hb]
      exact .nil hw
    · split at h
      · simp at h
      · rename_i t r ht
        cases hl : lex n r with
        | none => simp [hl] at h
        | some us =>
          simp [hl] at h
          subst h
          obtain ⟨x, hx, htx⟩ := lexTok_sound ht
          rw [hb, hx, ← List.append_assoc]
          exact .cons hw htx (lex_sound n r us hl)

theorem spells_ws {ts : List Tok} {b w : Bytes} (hw : Ws w) (h : Spells ts b) : Spells ts (w ++ b) := by
  have app : ∀ {u v : Bytes}, Ws u → Ws v → Ws (u ++ v) := by
    intro u v hu hv c hc
    rcases List.mem_append.1 hc with hc | hc
    · exact hu c hc
    · exact hv c hc
  cases h with
  | nil h => exact .nil (app hw h)
  | cons h1 h2 h3 =>
    rw [← List.append_assoc, ← List.append_assoc]
    exact .cons (app hw h1) h2 h3

theorem spells_append {ts us : List Tok} {b c : Bytes} (h : Spells ts b) (h' : Spells us c) : Spells (ts ++ us) (b ++ c) := by
  induction h with
  | nil hw => exact spells_ws hw h'
  | cons h1 h2 _ ih =>
    rw [List.append_assoc]
    exact .cons h1 h2 ih

theorem spells_tok {t : Tok} {x : Bytes} (h : TokText x t) : Spells [t] x := by
  have := Spells.cons (w := []) (r := []) (by intro c hc; simp at hc) h (.nil (by intro c hc; simp at hc))
  simpa using this

end Gears.Dto
