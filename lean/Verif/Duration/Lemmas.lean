import Verif.Duration.Model
import Verif.Procs.Props

namespace Gears.Duration

open Gears.Str
open Gears.Procs (wrap wrap_of horner horner_mono horner_bound horner_snoc of_digit)

/-- The text ends here, or does not go on with a digit. -/
def NoDigit (r : Bytes) : Prop := ∀ c l, r = c :: l → isDigit c = false

theorem isDigit_eq : isDigit = Procs.isDigit := rfl

/-- Every text begins with some digits. -/
theorem digits_prefix (s : Bytes) : ∃ l r, s = l ++ r ∧ l.all isDigit = true ∧ NoDigit r := by
  induction s with
  | nil => exact ⟨[], [], rfl, rfl, by simp [NoDigit]⟩
  | cons c t ih =>
    by_cases hc : isDigit c = true
    · obtain ⟨l, r, rfl, h1, h2⟩ := ih
      exact ⟨c :: l, r, rfl, by simp [hc, h1], h2⟩
    · refine ⟨[], c :: t, rfl, rfl, ?_⟩
      rintro c' l' ⟨⟩
      simpa using hc

theorem horner_zero_le (l : Bytes) (n : Nat) (c : UInt8) : 10 * n + (c - 48).toNat ≤ horner n (c :: l) := horner_mono l _

theorem wrap_cases {x : Int} (h1 : 0 ≤ x) (h2 : x < 2 ^ 64) : (wrap x < 0 ↔ 2 ^ 63 ≤ x) ∧ (x < 2 ^ 63 → wrap x = x) := by
  constructor
  · simp only [wrap]; omega
  · intro h; exact wrap_of (by omega) h

theorem leadingInt_digits {r : Bytes} (hr : NoDigit r) : ∀ (l : Bytes) (n : Nat), l.all isDigit = true → n < 2 ^ 63 →
    leadingInt n (l ++ r) = if horner n l < 2 ^ 63 then some ((horner n l : Int), r) else none := by
  intro l
  induction l with
  | nil =>
    intro n _ hn
    simp only [List.nil_append, horner, hn, if_true]
    cases r with
    | nil => rfl
    | cons c r => simp [leadingInt, hr c r rfl]
  | cons c l ih =>
    intro n hl hn
    simp only [List.all_cons, Bool.and_eq_true] at hl
    have hd := (of_digit c hl.1).1
    have hge := horner_zero_le l n c
    simp only [List.cons_append, leadingInt, hl.1, if_true]
    split
    · rename_i h
      rw [if_neg]; omega
    · rename_i h
      have hw := wrap_cases (x := (n : Int) * 10 + (c - 48).toNat) (by omega) (by omega)
      split
      · rename_i h1
        rw [if_neg]; have := hw.1.1 h1; omega
      · rename_i h1
        have h2 : (n : Int) * 10 + (c - 48).toNat < 2 ^ 63 := by
          by_cases h2 : (2 : Int) ^ 63 ≤ (n : Int) * 10 + (c - 48).toNat
          · exact absurd (hw.1.2 h2) h1
          · omega
        rw [hw.2 h2]
        have := ih (10 * n + (c - 48).toNat) hl.2 (by omega)
        rw [show ((10 * n + (c - 48).toNat : Nat) : Int) = (n : Int) * 10 + (c - 48).toNat by push_cast; ring] at this
        exact this

theorem leadingFraction_skip {r : Bytes} (hr : NoDigit r) (x : Int) (sc : Nat) : ∀ l : Bytes, l.all isDigit = true →
    leadingFraction x sc true (l ++ r) = (x, sc, r) := by
  intro l
  induction l with
  | nil =>
    intro _
    cases r with
    | nil => rfl
    | cons c r => simp [leadingFraction, hr c r rfl]
  | cons c l ih =>
    intro hl
    simp only [List.all_cons, Bool.and_eq_true] at hl
    simp [leadingFraction, hl.1, ih hl.2]

/-- The digits that fit, and how many there are. -/
theorem leadingFraction_digits {r : Bytes} (hr : NoDigit r) : ∀ (l : Bytes) (n sc : Nat), l.all isDigit = true → n < 2 ^ 63 →
    ∃ k, k ≤ l.length ∧ leadingFraction n sc false (l ++ r) = ((horner n (l.take k) : Int), sc * 10 ^ k, r) ∧
      horner n (l.take k) < 2 ^ 63 ∧ (k < l.length → 2 ^ 63 ≤ horner n (l.take (k + 1))) := by
  intro l
  induction l with
  | nil =>
    intro n sc _ hn
    refine ⟨0, by simp, ?_, by simpa [horner] using hn, by simp⟩
    cases r with
    | nil => simp [leadingFraction, horner]
    | cons c r => simp [leadingFraction, hr c r rfl, horner]
  | cons c l ih =>
    intro n sc hl hn
    simp only [List.all_cons, Bool.and_eq_true] at hl
    have hd := (of_digit c hl.1).1
    simp only [List.cons_append, leadingFraction, hl.1, if_true, Bool.false_eq_true, if_false]
    by_cases hbig : 2 ^ 63 ≤ 10 * n + (c - 48).toNat
    · refine ⟨0, by simp, ?_, by simpa [horner] using hn, fun _ => by simpa [horner] using hbig⟩
      have : (if ((2 : Int) ^ 63 - 1) / 10 < n then leadingFraction n sc true (l ++ r) else
          if wrap ((n : Int) * 10 + (c - 48).toNat) < 0 then leadingFraction n sc true (l ++ r)
          else leadingFraction (wrap ((n : Int) * 10 + (c - 48).toNat)) (sc * 10) false (l ++ r)) =
          leadingFraction n sc true (l ++ r) := by
        split
        · rfl
        · rename_i h
          rw [if_pos ((wrap_cases (by omega) (by omega)).1.2 (by omega))]
      rw [this, leadingFraction_skip hr _ _ _ hl.2]
      simp [horner]
    · have hw := wrap_cases (x := (n : Int) * 10 + (c - 48).toNat) (by omega) (by omega)
      rw [if_neg (by omega), if_neg (by rw [hw.1]; omega), hw.2 (by omega)]
      obtain ⟨k, h1, h2, h3, h4⟩ := ih (10 * n + (c - 48).toNat) (sc * 10) hl.2 (by omega)
      refine ⟨k + 1, by simpa using h1, ?_, by simpa [horner] using h3, fun hk => by simpa [horner] using h4 (by simpa using hk)⟩
      rw [show ((10 * n + (c - 48).toNat : Nat) : Int) = (n : Int) * 10 + (c - 48).toNat by push_cast; ring] at h2
      rw [h2]
      simp [horner, pow_succ]; ring

/-- The unit ends with the text, or before a period or digit. -/
def UnitEnds (r : Bytes) : Prop := ∀ c l, r = c :: l → c = 46 ∨ isDigit c = true

theorem takeUnit_append {u r : Bytes} (hu : ∀ c ∈ u, ¬ (c = 46 ∨ isDigit c = true)) (hr : UnitEnds r) : takeUnit (u ++ r) = (u, r) := by
  induction u with
  | nil =>
    cases r with
    | nil => rfl
    | cons c r => simp [takeUnit, hr c r rfl]
  | cons c u ih =>
    have hc := hu c (by simp)
    simp only [List.cons_append, takeUnit, hc, if_false, ih (fun d hd => hu d (by simp [hd]))]

theorem takeUnit_spec (s : Bytes) : s = (takeUnit s).1 ++ (takeUnit s).2 ∧ UnitEnds (takeUnit s).2 ∧
    ∀ c ∈ (takeUnit s).1, ¬ (c = 46 ∨ isDigit c = true) := by
  induction s with
  | nil => simp [takeUnit, UnitEnds]
  | cons c l ih =>
    by_cases hc : c = 46 ∨ isDigit c = true
    · simp only [takeUnit, hc, if_true]
      refine ⟨rfl, ?_, by simp⟩
      rintro c' l' ⟨⟩; exact hc
    · simp only [takeUnit, hc, if_false]
      refine ⟨by rw [List.cons_append, ← ih.1], ih.2.1, ?_⟩
      intro d hd
      rcases List.mem_cons.1 hd with rfl | hd
      · exact hc
      · exact ih.2.2 d hd

/-! ### The float64 computation -/

theorem rnd_nonneg {x : ℚ} (h : 0 ≤ x) : 0 ≤ Float64.rnd x := by
  have h1 := Float64.rnd_err x
  rw [abs_of_nonneg h, abs_le] at h1
  have : x / 2 ^ 53 ≤ x := div_le_self h (by norm_num)
  linarith [h1.1]

theorem rnd_upper {x : ℚ} (h : 0 ≤ x) : Float64.rnd x ≤ x + x / 2 ^ 53 := by
  have h1 := Float64.rnd_err x
  rw [abs_of_nonneg h, abs_le] at h1
  linarith [h1.2]

theorem rnd_lower {x : ℚ} (h : 0 ≤ x) : x - x / 2 ^ 53 ≤ Float64.rnd x := by
  have h1 := Float64.rnd_err x
  rw [abs_of_nonneg h, abs_le] at h1
  linarith [h1.1]

/-- What the float64 computation of a fraction gives before it is truncated. -/
def fractionFloat (f unit : Int) (scale : Nat) : ℚ :=
  Float64.rnd (Float64.ofInt f * Float64.div (Float64.ofInt unit) (scale : ℚ))

theorem fraction_err {f unit : Int} {scale : Nat} (h0 : 0 ≤ f) (h1 : f < scale) (h2 : 0 < unit) (h3 : unit ≤ 3600000000000) :
    |fractionFloat f unit scale - (f : ℚ) * unit / scale| ≤ 1 / 500 := by
  have hs : (0 : ℚ) < scale := by
    have : (0 : Int) < scale := by omega
    exact_mod_cast this
  have hf : (0 : ℚ) ≤ f := by exact_mod_cast h0
  have hfs : (f : ℚ) ≤ scale := by
    have : f ≤ (scale : Int) := by omega
    exact_mod_cast this
  have hu : (0 : ℚ) < unit := by exact_mod_cast h2
  have hu3 : (unit : ℚ) ≤ 3600000000000 := by exact_mod_cast h3
  have hun : Float64.ofInt unit = unit := Float64.rnd_int_exact unit (by rw [abs_of_pos h2]; omega)
  have ha1 := rnd_upper hf
  have ha2 := rnd_lower hf
  have ha0 := rnd_nonneg hf
  set a := Float64.rnd (f : ℚ) with hA
  have hq : 0 ≤ (unit : ℚ) / scale := by positivity
  have hb1 := rnd_upper hq
  have hb2 := rnd_lower hq
  have hb0 := rnd_nonneg hq
  set q := (unit : ℚ) / scale with hQ
  set b := Float64.rnd q with hB
  have hab : 0 ≤ a * b := mul_nonneg ha0 hb0
  have hc1 := rnd_upper hab
  have hc2 := rnd_lower hab
  have he : fractionFloat f unit scale = Float64.rnd (a * b) := by
    unfold fractionFloat
    rw [hun]
    rfl
  rw [he]
  have hfq : (f : ℚ) * unit / scale = f * q := by rw [hQ]; ring
  rw [hfq]
  have hfqu : (f : ℚ) * q ≤ unit := by
    rw [hQ, mul_div_assoc', div_le_iff₀ hs]
    nlinarith
  have hfq0 : 0 ≤ (f : ℚ) * q := mul_nonneg hf hq
  have e : (1 : ℚ) / 2 ^ 53 ≤ 1 / 9000000000000000 := by norm_num
  have habu : a * b ≤ (f + f / 2 ^ 53) * (q + q / 2 ^ 53) := mul_le_mul ha1 hb1 hb0 (by positivity)
  have habl : (f - f / 2 ^ 53) * (q - q / 2 ^ 53) ≤ a * b := mul_le_mul ha2 hb2
    (by have : q / 2 ^ 53 ≤ q := div_le_self hq (by norm_num)
        linarith) ha0
  have eu : (f + f / 2 ^ 53) * (q + q / 2 ^ 53) = f * q * (1 + 1 / 2 ^ 53) ^ 2 := by ring
  have el : (f - f / 2 ^ 53) * (q - q / 2 ^ 53) = f * q * (1 - 1 / 2 ^ 53) ^ 2 := by ring
  rw [eu] at habu
  rw [el] at habl
  have e1 : Float64.rnd (a * b) ≤ f * q * (1 + 1 / 2 ^ 53) ^ 3 := by
    calc Float64.rnd (a * b) ≤ a * b + a * b / 2 ^ 53 := hc1
      _ = a * b * (1 + 1 / 2 ^ 53) := by ring
      _ ≤ f * q * (1 + 1 / 2 ^ 53) ^ 2 * (1 + 1 / 2 ^ 53) := mul_le_mul_of_nonneg_right habu (by norm_num)
      _ = _ := by ring
  have e2 : f * q * (1 - 1 / 2 ^ 53) ^ 3 ≤ Float64.rnd (a * b) := by
    calc f * q * (1 - 1 / 2 ^ 53) ^ 3 = f * q * (1 - 1 / 2 ^ 53) ^ 2 * (1 - 1 / 2 ^ 53) := by ring
      _ ≤ a * b * (1 - 1 / 2 ^ 53) := mul_le_mul_of_nonneg_right habl (by norm_num)
      _ = a * b - a * b / 2 ^ 53 := by ring
      _ ≤ _ := hc2
  have n1 : ((1 : ℚ) + 1 / 2 ^ 53) ^ 3 ≤ 1 + 1 / 1800000000000000 := by norm_num
  have n2 : (1 : ℚ) - 1 / 1800000000000000 ≤ (1 - 1 / 2 ^ 53) ^ 3 := by norm_num
  have m1 := mul_le_mul_of_nonneg_left n1 hfq0
  have m2 := mul_le_mul_of_nonneg_left n2 hfq0
  rw [abs_le]
  constructor <;> linarith

/-- The fraction is exact if it is a whole number of nanoseconds to begin with. -/
theorem fraction_exact {f unit : Int} {scale : Nat} {m : Int} (h0 : 0 ≤ f) (h1 : f < 2 ^ 53) (hm : unit = m * scale) (hs : 0 < scale)
    (hm0 : 0 ≤ m) (hm1 : f * m < 2 ^ 53) (hu : unit < 2 ^ 53) : fraction f unit scale = f * m := by
  have hsq : (scale : ℚ) ≠ 0 := by positivity
  have hmu : m ≤ unit := by
    rw [hm]
    have : (1 : Int) ≤ scale := by exact_mod_cast hs
    nlinarith
  have hu0 : 0 ≤ unit := by omega
  have e1 : Float64.ofInt unit = unit := Float64.rnd_int_exact unit (by rw [abs_of_nonneg hu0]; exact hu)
  have e2 : Float64.ofInt f = f := Float64.rnd_int_exact f (by rw [abs_of_nonneg h0]; exact h1)
  have e3 : Float64.div (unit : ℚ) (scale : ℚ) = m := by
    have : (unit : ℚ) / scale = (m : ℚ) := by
      rw [hm]; push_cast; field_simp
    rw [Float64.div, this]
    exact Float64.rnd_int_exact m (by rw [abs_of_nonneg hm0]; omega)
  have e4 : Float64.rnd ((f : ℚ) * m) = f * m := by
    have := Float64.rnd_int_exact (f * m) (by rw [abs_of_nonneg (mul_nonneg h0 hm0)]; exact hm1)
    push_cast at this
    exact this
  unfold fraction
  rw [e1, e2, e3, e4]
  have : ((f : ℚ) * m) = ((f * m : Int) : ℚ) := by push_cast; ring
  rw [this, Int.floor_intCast]

end Gears.Duration
