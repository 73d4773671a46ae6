import Verif.Strconv.Shortest
import Verif.Dto.Enc
import Verif.Conf.ValuesProps

/-
The texts of float64 values in JSON: `floatEncoder.encode` of encoding/json 1.17 and `fmtE`, `fmtF` of strconv (ftoa.go), as used by `MarshalM`
(/repo/dto/m.go:16-18).
-/

namespace Gears.Strconv

open Gears.Str (Bytes natDigits itoa)
open Gears.Conf (LitDigits)

/-! ## Model -/

def zeros (n : Nat) : Bytes := List.replicate n 48

/-- `fmtE` with all digits; dp is the position of the point: 0.ds * 10^dp. -/
def fmtE (ds : Bytes) (dp : Int) : Bytes :=
  let exp := dp - 1
  let e := exp.natAbs
  ds.take 1 ++ (if 1 < ds.length then 46 :: ds.drop 1 else []) ++ [101, if exp < 0 then 45 else 43] ++
    (if e < 10 then 48 :: natDigits e else natDigits e)

/-- The digit at position i, zero outside. -/
def digitAt (ds : Bytes) (i : Int) : UInt8 := if 0 ≤ i ∧ i < ds.length then ds.getD i.toNat 48 else 48

/-- `fmtF` with the digits after the point that are there. -/
def fmtF (ds : Bytes) (dp : Int) : Bytes :=
  let prec := (ds.length - dp).toNat
  (if 0 < dp then ds.take dp.toNat ++ zeros (dp.toNat - ds.length) else [48]) ++
    (if 0 < prec then 46 :: (List.range prec).map fun i : Nat => digitAt ds (dp + i) else [])

/-- e-09 becomes e-9. -/
def cleanE (t : Bytes) : Bytes :=
  match t.reverse with
  | c :: 48 :: 45 :: 101 :: r => (c :: 45 :: 101 :: r).reverse
  | _ => t

/-- 1e-6 and 1e21 -/
def small : Nat := 4517329193108106637
def large : Nat := 4921056587992461136

/-- The text without sign. -/
def magText (b : Nat) : Bytes :=
  if b = 0 then [48]
  else
    let r := shortest b
    let ds := natDigits r.1
    let dp : Int := ds.length + r.2
    if b < small ∨ large ≤ b then cleanE (fmtE ds dp) else fmtF ds dp

/-- `floatEncoder.encode`; none: an error -/
def fmtFloat (x : F64) : Option Bytes :=
  if infMag ≤ x.mag then none else some ((if x.neg then [45] else []) ++ magText x.mag)

/-- The float64 nearest to an integer. -/
def ofInt (n : Int) : F64 := ⟨n < 0, mag 10 n.natAbs 0⟩

/-! ## Specification -/

/-- Texts of the number d * 10^j, without exponent. -/
inductive Plain (d : Nat) (j : Int) : Bytes → Prop where
  | whole {n : Nat} : j = n → Plain d j (natDigits d ++ zeros n)
  | point {a b : Bytes} : natDigits d = a ++ b → a ≠ [] → b ≠ [] → j = -b.length → Plain d j (a ++ 46 :: b)
  | frac {n : Nat} : j = -(n + (natDigits d).length : Nat) → Plain d j (48 :: 46 :: zeros n ++ natDigits d)

/-- Texts with one digit before the point and an exponent with sign. -/
inductive Sci (d : Nat) (j : Int) : Bytes → Prop where
  | mk {c : UInt8} {r e : Bytes} {x : Int} : natDigits d = c :: r → j = x - r.length → (e = 43 :: natDigits x.natAbs ∧ 0 ≤ x ∨ e = 45 :: natDigits x.natAbs ∧ x < 0) →
      Sci d j (c :: (if r = [] then [] else 46 :: r) ++ 101 :: e)

/-- The text of the number with magnitude b: the shortest digits, with an exponent if the number is less than 1e-6 or at least 1e21. -/
def MagText (b : Nat) (t : Bytes) : Prop :=
  b = 0 ∧ t = [48] ∨ b ≠ 0 ∧ ∃ d j, Shortest b d j ∧ ((b < mag 10 1 (-6) ∨ mag 10 1 21 ≤ b) ∧ Sci d j t ∨ (mag 10 1 (-6) ≤ b ∧ b < mag 10 1 21) ∧ Plain d j t)

/-! ## Layout -/

theorem small_eq : small = mag 10 1 (-6) := by decide +kernel
theorem large_eq : large = mag 10 1 21 := by decide +kernel

theorem natDigits_ne (n : Nat) : natDigits n ≠ [] := by
  rw [natDigits]; split <;> simp

theorem fmtF_plain (d : Nat) (j : Int) : Plain d j (fmtF (natDigits d) ((natDigits d).length + j)) := by
  have hne := natDigits_ne d
  generalize hds : natDigits d = ds at hne
  have hl : 0 < ds.length := List.length_pos_iff.2 hne
  unfold fmtF
  simp only
  have hprec : ((ds.length : Int) - (ds.length + j)).toNat = (-j).toNat := by congr 1; omega
  rw [hprec]
  by_cases hj : 0 ≤ j
  · rw [if_pos (by omega), if_neg (by omega)]
    have h1 : ((ds.length : Int) + j).toNat = ds.length + j.toNat := by omega
    rw [h1, List.take_of_length_le (by omega), Nat.add_sub_cancel_left, List.append_nil, ← hds]
    exact .whole (by omega)
  · have hpos : 0 < (-j).toNat := by omega
    by_cases hdp : 0 < (ds.length : Int) + j
    · rw [if_pos hdp, if_pos hpos]
      have h1 : ((ds.length : Int) + j).toNat = ds.length - (-j).toNat := by omega
      rw [h1]
      have h2 : ds.length - (-j).toNat - ds.length = 0 := by omega
      rw [h2]
      have h3 : (List.range (-j).toNat).map (fun i : Nat => digitAt ds (ds.length + j + i)) = ds.drop (ds.length - (-j).toNat) := by
        apply List.ext_getElem
        · simp; omega
        · intro i hi1 hi2
          simp at hi1
          simp only [List.getElem_map, List.getElem_range, List.getElem_drop]
          unfold digitAt
          rw [if_pos ⟨by omega, by omega⟩]
          have : ((ds.length : Int) + j + i).toNat = ds.length - (-j).toNat + i := by omega
          rw [this, List.getD_eq_getElem?_getD, List.getElem?_eq_getElem (by omega), Option.getD_some]
      rw [h3]
      simp only [zeros, List.replicate_zero, List.append_nil]
      refine .point (by rw [List.take_append_drop]; exact hds) ?_ ?_ ?_
      · intro h; have := congrArg List.length h; simp at this; omega
      · intro h; have := congrArg List.length h; simp at this; omega
      · simp; omega
    · rw [if_neg hdp, if_pos hpos]
      have h3 : (List.range (-j).toNat).map (fun i : Nat => digitAt ds (ds.length + j + i)) = zeros ((-j).toNat - ds.length) ++ ds := by
        apply List.ext_getElem
        · simp [zeros]; omega
        · intro i hi1 hi2
          simp at hi1
          simp only [List.getElem_map, List.getElem_range, zeros]
          unfold digitAt
          by_cases h : i < (-j).toNat - ds.length
          · rw [if_neg (by omega), List.getElem_append_left (by simpa using h)]
            simp
          · rw [if_pos ⟨by omega, by omega⟩, List.getElem_append_right (by simpa using h)]
            have : ((ds.length : Int) + j + i).toNat = i - (List.replicate ((-j).toNat - ds.length) (48 : UInt8)).length := by simp; omega
            rw [this, List.getD_eq_getElem?_getD, List.getElem?_eq_getElem, Option.getD_some]
      rw [h3, ← hds]
      refine .frac ?_
      rw [hds]; omega

theorem natDigits_small {n : Nat} (h : n < 10) : natDigits n = [UInt8.ofNat (48 + n)] := by rw [natDigits, if_pos h]

theorem natDigits_two {n : Nat} (h : 10 ≤ n) : ∃ a x y, natDigits n = a ++ [x, y] ∧ (a = [] → x ≠ 48) := by
  have last : ∀ m, ∃ a x, natDigits m = a ++ [x] ∧ (a = [] → m ≠ 0 → x ≠ 48) := by
    intro m
    rw [natDigits]
    split
    · rename_i h
      refine ⟨[], _, rfl, fun _ h0 => ?_⟩
      have : ∀ i : Fin 10, i.1 ≠ 0 → UInt8.ofNat (48 + i.1) ≠ 48 := by decide
      exact this ⟨m, h⟩ h0
    · exact ⟨_, _, rfl, fun h => absurd h (natDigits_ne _)⟩
  rw [natDigits, if_neg (by omega)]
  obtain ⟨a, x, h1, h2⟩ := last (n / 10)
  exact ⟨a, x, _, by rw [h1]; simp; rfl, fun h => h2 h (by omega)⟩

theorem sci_of {d : Nat} {j : Int} (h : ¬ (0 ≤ ((natDigits d).length : Int) + j - 1 ∧ ((natDigits d).length : Int) + j - 1 < 10)) :
    Sci d j (cleanE (fmtE (natDigits d) ((natDigits d).length + j))) := by
  have hne := natDigits_ne d
  cases hds : natDigits d with
  | nil => exact absurd hds hne
  | cons c r =>
    rw [hds] at h
    simp only [List.length_cons, Nat.cast_add, Nat.cast_one] at h ⊢
    unfold fmtE
    simp only [List.take_succ_cons, List.take_zero, List.length_cons, List.drop_succ_cons, List.drop_zero]
    have hr : (if 1 < r.length + 1 then 46 :: r else []) = (if r = [] then [] else 46 :: r) := by
      cases r with
      | nil => simp
      | cons => simp
    rw [hr]
    generalize hx : ((r.length : Int) + 1 + j - 1) = x at *
    have hj : j = x - r.length := by omega
    generalize hm : (if r = [] then [] else 46 :: r) = m
    by_cases hneg : x < 0
    · rw [if_pos hneg]
      have key : cleanE ([c] ++ m ++ [101, 45] ++ (if x.natAbs < 10 then 48 :: natDigits x.natAbs else natDigits x.natAbs)) = c :: m ++ 101 :: 45 :: natDigits x.natAbs := by
        by_cases h10 : x.natAbs < 10
        · rw [if_pos h10, natDigits_small h10]
          unfold cleanE
          simp
        · rw [if_neg h10]
          obtain ⟨a, y, z, h1, h2⟩ := natDigits_two (n := x.natAbs) (by omega)
          rw [h1]
          unfold cleanE
          have hrev : ([c] ++ m ++ [101, 45] ++ (a ++ [y, z])).reverse = z :: y :: (a.reverse ++ (45 :: 101 :: (m.reverse ++ [c]))) := by simp
          rw [hrev]
          split
          · rename_i heq
            simp only [List.cons.injEq] at heq
            obtain ⟨rfl, rfl, heq⟩ := heq
            cases ha : a.reverse with
            | nil => exact absurd rfl (h2 (by simpa using ha))
            | cons w l =>
              rw [ha] at heq
              simp only [List.cons_append, List.cons.injEq] at heq
              obtain ⟨rfl, heq⟩ := heq
              exfalso
              have hw : (45 : UInt8) ∈ natDigits x.natAbs := by
                rw [h1]
                have : (45 : UInt8) ∈ a.reverse := by rw [ha]; simp
                simp at this
                simp [this]
              rcases Dto.natDigits_text x.natAbs with h | ⟨c', ds, h, h3, h4, h5⟩
              · rw [h] at hw; simp at hw
              · rw [h] at hw
                rcases List.mem_cons.1 hw with rfl | hw
                · exact absurd h3 (by decide)
                · have := h5 _ hw
                  unfold Dto.Digit at this
                  exact absurd this (by decide)
          · simp
      rw [key, ← hm]
      exact .mk hds hj (.inr ⟨rfl, hneg⟩)
    · rw [if_neg hneg]
      have h10 : ¬ x.natAbs < 10 := by omega
      rw [if_neg h10]
      have key : cleanE ([c] ++ m ++ [101, 43] ++ natDigits x.natAbs) = c :: m ++ 101 :: 43 :: natDigits x.natAbs := by
        obtain ⟨a, y, z, h1, h2⟩ := natDigits_two (n := x.natAbs) (by omega)
        rw [h1]
        unfold cleanE
        have hrev : ([c] ++ m ++ [101, 43] ++ (a ++ [y, z])).reverse = z :: y :: (a.reverse ++ (43 :: 101 :: (m.reverse ++ [c]))) := by simp
        rw [hrev]
        split
        · rename_i heq
          simp only [List.cons.injEq] at heq
          obtain ⟨rfl, rfl, heq⟩ := heq
          cases ha : a.reverse with
          | nil => exact absurd rfl (h2 (by simpa using ha))
          | cons w l =>
            rw [ha] at heq
            simp only [List.cons_append, List.cons.injEq] at heq
            obtain ⟨rfl, heq⟩ := heq
            exfalso
            have hw : (45 : UInt8) ∈ natDigits x.natAbs := by
              rw [h1]
              have : (45 : UInt8) ∈ a.reverse := by rw [ha]; simp
              simp at this
              simp [this]
            rcases Dto.natDigits_text x.natAbs with h | ⟨c', ds, h, h3, h4, h5⟩
            · rw [h] at hw; simp at hw
            · rw [h] at hw
              rcases List.mem_cons.1 hw with rfl | hw
              · exact absurd h3 (by decide)
              · have := h5 _ hw
                unfold Dto.Digit at this
                exact absurd this (by decide)
        · simp
      rw [key, ← hm]
      exact .mk hds hj (.inl ⟨rfl, by omega⟩)

/-! ## Sizes -/

theorem natDigits_length (n : Nat) : n < 10 ^ (natDigits n).length ∧ (n ≠ 0 → 10 ^ (natDigits n).length ≤ 10 * n) := by
  induction n using Nat.strongRecOn with
  | ind n ih =>
    rw [natDigits]
    split
    · simp; omega
    · rename_i h
      obtain ⟨h1, h2⟩ := ih (n / 10) (by omega)
      have h2 := h2 (by omega)
      rw [List.length_append, List.length_singleton, Nat.pow_succ]
      omega

/-- The position of the first digit. -/
theorem lead_pos {d : Nat} {j x : Int} (hd : d ≠ 0) (hx : ((natDigits d).length : Int) + j - 1 = x) :
    (10 : ℚ) ^ x ≤ d * (10 : ℚ) ^ j ∧ d * (10 : ℚ) ^ j < (10 : ℚ) ^ (x + 1) := by
  obtain ⟨h1, h2⟩ := natDigits_length d
  have h2 := h2 hd
  have hp : 0 < (natDigits d).length := List.length_pos_iff.2 (natDigits_ne d)
  generalize (natDigits d).length = l at *
  have e1 : (10 : ℚ) ^ (x + 1) = 10 ^ l * (10 : ℚ) ^ j := by
    rw [← zpow_natCast, ← zpow_add₀ (by norm_num)]; congr 1; omega
  have e2 : (10 : ℚ) ^ (x + 1) = 10 * (10 : ℚ) ^ x := by
    rw [zpow_add₀ (by norm_num), zpow_one, mul_comm]
  have ht := ten_pos j
  constructor
  · have h3 : (10 : ℚ) ^ l ≤ 10 * d := by exact_mod_cast h2
    have h4 := mul_le_mul_of_nonneg_right h3 ht.le
    rw [← e1, e2, mul_assoc] at h4
    linarith
  · rw [e1]
    exact mul_lt_mul_of_pos_right (by exact_mod_cast h1) ht

theorem mag_mono {d d' : Nat} {j j' : Int} (h : d * (10 : ℚ) ^ j ≤ d' * (10 : ℚ) ^ j') : mag 10 d j ≤ mag 10 d' j' :=
  Nearest.mono (mul_nonneg (q_nonneg d j) two_pos.le) (mul_nonneg (q_nonneg d' j') two_pos.le) ((back_mag _ d j).1 rfl) ((back_mag _ d' j').1 rfl)
    (mul_le_mul_of_nonneg_right h two_pos.le)

theorem mag_pow {d : Nat} {j x : Int} (hd : d ≠ 0) (hx : ((natDigits d).length : Int) + j - 1 = x) : mag 10 1 x ≤ mag 10 d j ∧ mag 10 d j ≤ mag 10 1 (x + 1) := by
  obtain ⟨h1, h2⟩ := lead_pos hd hx
  exact ⟨mag_mono (by simpa using h1), mag_mono (by simpa using h2.le)⟩

theorem pow_mono {x y : Int} (h : x ≤ y) : mag 10 1 x ≤ mag 10 1 y := by
  apply mag_mono
  simpa using zpow_le_zpow_right₀ (a := (10 : ℚ)) (by norm_num) h

theorem exp_range {b d : Nat} {j x : Int} (hb : b ≠ 0) (hi : b < infMag) (h : Back b d j) (hx : ((natDigits d).length : Int) + j - 1 = x) : -400 ≤ x ∧ x < 400 := by
  have hd : d ≠ 0 := by rintro rfl; exact hb (back_zero h)
  have hm := (back_mag b d j).2 h
  obtain ⟨h1, h2⟩ := mag_pow hd hx
  have a1 : mag 10 1 (-400) = 0 := by decide +kernel
  have a2 : infMag ≤ mag 10 1 400 := by decide +kernel
  constructor
  · by_contra hlt
    have := pow_mono (show x + 1 ≤ -400 by omega)
    omega
  · by_contra hlt
    have := pow_mono (show 400 ≤ x by omega)
    omega

/-- Numbers that need an exponent have one that is not from 0 to 9. -/
theorem exp_big {b d : Nat} {j : Int} (hb : b ≠ 0) (h : Back b d j) (hs : b < small ∨ large ≤ b) :
    ¬ (0 ≤ ((natDigits d).length : Int) + j - 1 ∧ ((natDigits d).length : Int) + j - 1 < 10) := by
  have hd : d ≠ 0 := by rintro rfl; exact hb (back_zero h)
  have hm := (back_mag b d j).2 h
  rintro ⟨h1, h2⟩
  generalize hx : ((natDigits d).length : Int) + j - 1 = x at *
  obtain ⟨h3, h4⟩ := mag_pow hd hx
  have a1 : small ≤ mag 10 1 0 := by decide +kernel
  have a2 : mag 10 1 10 < large := by decide +kernel
  have b1 := pow_mono h1
  have b2 := pow_mono (show x + 1 ≤ 10 by omega)
  omega

/-- The text has the digits and the form of the specification. -/
theorem magText_spec (b : Nat) : MagText b (magText b) := by
  unfold MagText magText
  by_cases hb : b = 0
  · exact .inl ⟨hb, by rw [if_pos hb]⟩
  · right
    refine ⟨hb, (shortest b).1, (shortest b).2, shortest_spec hb, ?_⟩
    rw [if_neg hb, ← small_eq, ← large_eq]
    simp only
    by_cases hs : b < small ∨ large ≤ b
    · rw [if_pos hs]
      exact .inl ⟨hs, sci_of (exp_big hb (shortest_spec hb).back hs)⟩
    · rw [if_neg hs]
      exact .inr ⟨by omega, fmtF_plain _ _⟩

/-! ## Reading the texts back -/

theorem val_append (base : Nat) : ∀ (a b : Bytes) (n : Nat), Conf.val base n (a ++ b) = (Conf.val base n a).bind fun i => Conf.val base i b
  | [], b, n => rfl
  | c :: a, b, n => by
    rw [List.cons_append, Conf.val, Conf.val]
    split
    · exact val_append base a b n
    · split
      · rfl
      · split
        · exact val_append base a b _
        · rfl

theorem digit_ne {c : UInt8} (h : Dto.Digit c) : c ≠ 95 := by
  rintro rfl
  exact absurd h (by unfold Dto.Digit; decide)

theorem natDigits_digits (n : Nat) : ∀ c ∈ natDigits n, Dto.Digit c := by
  intro c hc
  rcases Dto.natDigits_text n with h | ⟨c', ds, h, h3, h4, h5⟩
  · rw [h] at hc
    simp at hc
    subst hc
    unfold Dto.Digit; decide
  · rw [h] at hc
    rcases List.mem_cons.1 hc with rfl | hc
    · refine ⟨?_, h4⟩
      have : (48 : UInt8) ≤ 49 := by decide
      exact UInt8.le_trans this h3
    · exact h5 _ hc

theorem zeros_digits (n : Nat) : ∀ c ∈ zeros n, Dto.Digit c := by
  intro c hc
  have := List.eq_of_mem_replicate hc
  subst this
  unfold Dto.Digit; decide

theorem lit_digits {t : Bytes} {acc n : Nat} (hd : ∀ c ∈ t, Dto.Digit c) (hne : t ≠ []) (hv : Conf.val 10 acc t = some n) : LitDigits 10 acc t n :=
  (Conf.litDigits_iff (by omega) t acc n).2 ⟨good_true_no (fun h => digit_ne (hd 95 h) rfl) hne, hv⟩

theorem count_digits {t : Bytes} (hd : ∀ c ∈ t, Dto.Digit c) : count t = t.length := by
  unfold count
  rw [List.filter_eq_self.2]
  intro c hc
  simpa using digit_ne (hd c hc)

theorem val_natDigits (n : Nat) : Conf.val 10 0 (natDigits n) = some n := ((Conf.litDigits_iff (by omega) _ _ _).1 (Conf.natDigits_literal n).1).2

theorem val_zeros (n acc : Nat) : Conf.val 10 acc (zeros n) = some (acc * 10 ^ n) := by
  induction n generalizing acc with
  | zero => simp [zeros, Conf.val]
  | succ n ih =>
    have : zeros (n + 1) = 48 :: zeros n := rfl
    have h48 : Conf.digitVal 48 = some 0 := by decide
    rw [this, Conf.val, if_neg (by decide), h48]
    simp only
    rw [if_pos (by omega), ih, Nat.pow_succ]
    congr 1; ring

theorem val_split {d : Nat} {a b : Bytes} (h : natDigits d = a ++ b) : ∃ i, Conf.val 10 0 a = some i ∧ Conf.val 10 i b = some d := by
  have hv := val_natDigits d
  rw [h, val_append] at hv
  cases ha : Conf.val 10 0 a with
  | none => rw [ha] at hv; simp at hv
  | some i => rw [ha] at hv; exact ⟨i, rfl, hv⟩

theorem plain_body {d : Nat} {j : Int} {t : Bytes} (h : Plain d j t) : ∃ n f, Body t false n f 0 ∧ value false n f 0 = d * (10 : ℚ) ^ j := by
  have hdig := natDigits_digits d
  have hne := natDigits_ne d
  cases h with
  | @whole n hj =>
    refine ⟨d * 10 ^ n, 0, .dec (.whole (lit_digits (t := natDigits d ++ zeros n) ?_ ?_ ?_)), ?_⟩
    · intro c hc
      rcases List.mem_append.1 hc with hc | hc
      · exact hdig c hc
      · exact zeros_digits n c hc
    · simp [hne]
    · rw [val_append, val_natDigits]; exact val_zeros n d
    · subst hj
      simp [value]
  | @point a b hab ha hb hj =>
    obtain ⟨i, h1, h2⟩ := val_split hab
    rw [hab] at hdig
    have hda := fun c hc => hdig c (List.mem_append_left b hc)
    have hdb := fun c hc => hdig c (List.mem_append_right a hc)
    refine ⟨d, count b, .dec (.both (lit_digits hda ha h1) (lit_digits hdb hb h2)), ?_⟩
    rw [count_digits hdb, hj]
    simp [value]
  | @frac n hj =>
    have hdz : ∀ c ∈ zeros n ++ natDigits d, Dto.Digit c := by
      intro c hc
      rcases List.mem_append.1 hc with hc | hc
      · exact zeros_digits n c hc
      · exact hdig c hc
    have h0 : LitDigits 10 0 [48] 0 := lit_digits (by simp [Dto.Digit]) (by simp) (val_zeros 1 0)
    have h1 : LitDigits 10 0 (zeros n ++ natDigits d) d := lit_digits hdz (by simp [hne]) (by rw [val_append, val_zeros]; simpa using val_natDigits d)
    refine ⟨d, count (zeros n ++ natDigits d), .dec (.both (t := [48]) h0 h1), ?_⟩
    rw [count_digits hdz, hj]
    simp [value, zeros]

theorem clip_id {x : Int} (h : -100000 < x ∧ x < 100000) : clipInt x = x := by
  unfold clipInt
  rw [clip_small (by omega)]
  split <;> omega

theorem sci_body {d : Nat} {j : Int} {t : Bytes} (h : Sci d j t) : ∃ n f x, Body t false n f x ∧ value false n f x = d * (10 : ℚ) ^ j ∧
    ((natDigits d).length : Int) + j - 1 = x := by
  have hdig := natDigits_digits d
  cases h with
  | @mk c r e x hds hj he =>
    refine ⟨d, r.length, x, .decExp (m := c :: (if r = [] then [] else 46 :: r)) ?_ ?_, ?_, by rw [hds]; simp; omega⟩
    · have hv := val_split (d := d) (a := [c]) (b := r) (by rw [hds]; rfl)
      obtain ⟨i, h1, h2⟩ := hv
      rw [hds] at hdig
      have hc : LitDigits 10 0 [c] i := lit_digits (by intro x hx; simp at hx; subst hx; exact hdig _ (by simp)) (by simp) h1
      by_cases hr : r = []
      · subst hr
        simp [Conf.val] at h2
        subst h2
        exact .whole hc
      · rw [if_neg hr]
        have hdr : ∀ c ∈ r, Dto.Digit c := fun x hx => hdig x (by simp [hx])
        have := Mantissa.both hc (lit_digits hdr hr h2)
        rw [count_digits hdr] at this
        exact this
    · have hl := lit_digits (natDigits_digits x.natAbs) (natDigits_ne _) (val_natDigits _)
      rcases he with ⟨rfl, hx⟩ | ⟨rfl, hx⟩
      · have := Exponent.plus (lo := 101) (up := 69) (c := 101) (.inl rfl) hl
        rwa [show ((x.natAbs : Nat) : Int) = x by omega] at this
      · have := Exponent.minus (lo := 101) (up := 69) (c := 101) (.inl rfl) hl
        rwa [show -((x.natAbs : Nat) : Int) = x by omega] at this
    · simp [value, hj]

theorem body_text {s t : Bytes} {neg : Bool} {b d n f : Nat} {j x : Int} (hs : Sign s neg t) (hb : Body t false n f x) (hv : value false n f x = d * (10 : ℚ) ^ j)
    (hx : -100000 < x ∧ x < 100000) (hB : Back b d j) (hi : b < infMag) : parseFloat s = some ⟨neg, b⟩ := by
  rw [parse_iff]
  refine .num hs hb ?_ hi
  rw [clip_id hx, hv]
  exact hB

theorem magText_parse {b : Nat} {s t : Bytes} {neg : Bool} (hi : b < infMag) (h : MagText b t) (hs : Sign s neg t) : parseFloat s = some ⟨neg, b⟩ := by
  rcases h with ⟨rfl, rfl⟩ | ⟨hb, d, j, hsh, h⟩
  · have h0 : LitDigits 10 0 [48] 0 := lit_digits (by simp [Dto.Digit]) (by simp) (val_zeros 1 0)
    refine body_text (d := 0) (j := 0) hs (.dec (.whole h0)) (by simp [value]) (by omega) ?_ hi
    exact (back_mag 0 0 0).1 (mag_zero 0)
  · rcases h with ⟨-, h⟩ | ⟨-, h⟩
    · obtain ⟨n, f, x, h1, h2, h3⟩ := sci_body h
      have := exp_range hb hi hsh.back h3
      exact body_text hs h1 h2 (by omega) hsh.back hi
    · obtain ⟨n, f, h1, h2⟩ := plain_body h
      exact body_text hs h1 h2 (by omega) hsh.back hi

theorem magText_sign (b : Nat) (neg : Bool) {t : Bytes} : Sign ((if neg then [45] else []) ++ t) neg t := by
  cases neg
  · exact .none
  · exact .minus

/-- What was written is read again. -/
theorem fmt_parse {x : F64} {t : Bytes} (h : fmtFloat x = some t) : parseFloat t = some x := by
  unfold fmtFloat at h
  split at h
  · simp at h
  · rename_i hi
    simp only [Option.some.injEq] at h
    subst h
    exact magText_parse (by omega) (magText_spec x.mag) (magText_sign x.mag x.neg)

/-! ## JSON -/

theorem int_part {d : Nat} {a b : Bytes} (hd : d ≠ 0) (h : natDigits d = a ++ b) (ha : a ≠ []) : ∃ c ds, a = c :: ds ∧ 49 ≤ c ∧ c ≤ 57 ∧ ∀ d ∈ ds, Dto.Digit d := by
  rcases Dto.natDigits_text d with h' | ⟨c, ds, h', h3, h4, h5⟩
  · have := val_natDigits d
    rw [h'] at this
    have h0 := val_zeros 1 0
    have hz : zeros 1 = [48] := rfl
    rw [hz] at h0
    rw [h0] at this
    simp at this
    exact absurd this.symm hd
  · cases a with
    | nil => exact absurd rfl ha
    | cons c' l =>
      rw [h'] at h
      simp only [List.cons_append, List.cons.injEq] at h
      obtain ⟨rfl, rfl⟩ := h
      exact ⟨c, l, rfl, h3, h4, fun x hx => h5 x (List.mem_append_left _ hx)⟩

theorem magText_num {b : Nat} {t : Bytes} (neg : Bool) (h : MagText b t) : Dto.NumText ((if neg then [45] else []) ++ t) := by
  have hsign : (if neg then [45] else []) = ([] : Bytes) ∨ (if neg then [45] else []) = ([45] : Bytes) := by cases neg <;> simp
  rcases h with ⟨rfl, rfl⟩ | ⟨hb, d, j, hsh, h⟩
  · exact ⟨_, [48], [], [], by simp, hsign, .inl rfl, .inl rfl, .inl rfl⟩
  · have hd : d ≠ 0 := by rintro rfl; exact hb (back_zero hsh.back)
    rcases h with ⟨-, h⟩ | ⟨-, h⟩
    · cases h with
      | @mk c r e x hds hj he =>
        have hdig := natDigits_digits d
        rw [hds] at hdig
        refine ⟨_, [c], if r = [] then [] else 46 :: r, 101 :: e, by simp, hsign, .inr (int_part hd (b := r) (by rw [hds]; rfl) (by simp)), ?_, .inr ?_⟩
        · by_cases hr : r = []
          · exact .inl (by rw [if_pos hr])
          · exact .inr ⟨r, by rw [if_neg hr], hr, fun x hx => hdig x (by simp [hx])⟩
        · rcases he with ⟨rfl, -⟩ | ⟨rfl, -⟩
          · exact ⟨101, [43], _, rfl, .inl rfl, .inr (.inl rfl), natDigits_ne _, natDigits_digits _⟩
          · exact ⟨101, [45], _, rfl, .inl rfl, .inr (.inr rfl), natDigits_ne _, natDigits_digits _⟩
    · cases h with
      | @whole n hj =>
        obtain ⟨c, ds, h1, h2, h3, h4⟩ := int_part hd (a := natDigits d) (b := []) (by simp) (natDigits_ne d)
        refine ⟨_, natDigits d ++ zeros n, [], [], by simp, hsign, .inr ⟨c, ds ++ zeros n, by rw [h1]; rfl, h2, h3, ?_⟩, .inl rfl, .inl rfl⟩
        intro x hx
        rcases List.mem_append.1 hx with hx | hx
        · exact h4 x hx
        · exact zeros_digits n x hx
      | @point a b' hab ha hb' hj =>
        have hdig := natDigits_digits d
        rw [hab] at hdig
        exact ⟨_, a, 46 :: b', [], by simp, hsign, .inr (int_part hd hab ha), .inr ⟨b', rfl, hb', fun x hx => hdig x (List.mem_append_right _ hx)⟩, .inl rfl⟩
      | @frac n hj =>
        refine ⟨_, [48], 46 :: (zeros n ++ natDigits d), [], by simp, hsign, .inl rfl, .inr ⟨_, rfl, by simp [natDigits_ne d], ?_⟩, .inl rfl⟩
        intro x hx
        rcases List.mem_append.1 hx with hx | hx
        · exact zeros_digits n x hx
        · exact natDigits_digits d x hx

theorem fmt_num {x : F64} {t : Bytes} (h : fmtFloat x = some t) : Dto.NumText t := by
  unfold fmtFloat at h
  split at h
  · simp at h
  · simp only [Option.some.injEq] at h
    subst h
    exact magText_num x.neg (magText_spec x.mag)

theorem int_range (n : Nat) (h : n ≤ 2 ^ 64) : mag 10 n 0 < infMag := by
  have h1 : mag 10 n 0 ≤ mag 10 1 20 := by
    apply mag_mono
    have : n ≤ 10 ^ 20 := by omega
    have : (n : ℚ) ≤ 10 ^ 20 := by exact_mod_cast this
    simpa using this
  have h2 : mag 10 1 20 < infMag := by decide +kernel
  omega

theorem itoa_parse (n : Int) (h1 : -2 ^ 63 ≤ n) (h2 : n < 2 ^ 64) : parseFloat (itoa n) = some (ofInt n) := by
  have hl := lit_digits (natDigits_digits n.natAbs) (natDigits_ne _) (val_natDigits n.natAbs)
  have hB : Back (mag 10 n.natAbs 0) n.natAbs 0 := (back_mag _ _ _).1 rfl
  have hi : mag 10 n.natAbs 0 < infMag := int_range _ (by omega)
  unfold itoa ofInt
  by_cases hn : n < 0
  · rw [if_pos hn]
    simp only [hn, decide_true]
    exact body_text .minus (.dec (.whole hl)) (by simp [value]) (by omega) hB hi
  · rw [if_neg hn]
    simp only [hn, decide_false]
    exact body_text .none (.dec (.whole hl)) (by simp [value]) (by omega) hB hi

end Gears.Strconv
