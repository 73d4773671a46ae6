import Mathlib.Data.Int.Log
import Mathlib.Algebra.Order.Floor.Ring
import Mathlib.Data.Rat.Floor
import Mathlib.Algebra.Order.Field.Basic
import Mathlib.Tactic.Linarith
import Mathlib.Tactic.Ring
import Mathlib.Tactic.NormNum
import Mathlib.Tactic.Positivity
import Mathlib.Tactic.FieldSimp

/-
IEEE 754 binary64 arithmetic on the range that occurs in this repository, as used by Go's `float64`.

A finite float64 is represented by its value, a rational.  `rnd` rounds a rational to the nearest float64, ties to
even, with a 53-bit significand.  Exponent range: no subnormals, no overflow to infinity; the uses (conversions of
`int64` and quotients of such) stay between 2^-63 and 2^63, far inside the normal range.
-/

namespace Gears.Float64

/-- Nearest integer, ties to even. -/
def roundHalfEven (x : ℚ) : ℤ :=
  let f := ⌊x⌋
  let r := x - f
  if r < 1 / 2 then f
  else if 1 / 2 < r then f + 1
  else if f % 2 = 0 then f else f + 1

/-- Unit in the last place of the binade of `x`. -/
def ulp (x : ℚ) : ℚ := (2 : ℚ) ^ (Int.log 2 |x| - 52)

/-- Round to the nearest float64. -/
def rnd (x : ℚ) : ℚ := if x = 0 then 0 else roundHalfEven (x / ulp x) * ulp x

/-- Go conversion `float64(n)` of an integer. -/
def ofInt (n : ℤ) : ℚ := rnd n

/-- Go `/` on float64. -/
def div (x y : ℚ) : ℚ := rnd (x / y)

/-- Go `math.Ceil` followed by a conversion to `int64` (in range). -/
def ceilInt (x : ℚ) : ℤ := ⌈x⌉

theorem roundHalfEven_int (n : ℤ) : roundHalfEven n = n := by
  simp [roundHalfEven]

theorem roundHalfEven_err (x : ℚ) : |(roundHalfEven x : ℚ) - x| ≤ 1 / 2 := by
  have h1 := Int.floor_le x
  have h2 := Int.lt_floor_add_one x
  unfold roundHalfEven
  simp only
  rw [abs_le]
  split
  · constructor <;> linarith
  · split
    · push_cast; constructor <;> linarith
    · split
      · constructor <;> linarith
      · push_cast; constructor <;> linarith

theorem ulp_pos (x : ℚ) : 0 < ulp x := zpow_pos (by norm_num) _

theorem rnd_err_ulp (x : ℚ) : |rnd x - x| ≤ ulp x / 2 := by
  have hu := ulp_pos x
  unfold rnd
  split
  · rename_i h; subst h; simp; linarith
  · have h := roundHalfEven_err (x / ulp x)
    have e : (roundHalfEven (x / ulp x) : ℚ) * ulp x - x = ((roundHalfEven (x / ulp x) : ℚ) - x / ulp x) * ulp x := by
      field_simp
    rw [e, abs_mul, abs_of_pos hu]
    nlinarith

theorem ulp_le (x : ℚ) (hx : x ≠ 0) : ulp x ≤ |x| / 2 ^ 52 := by
  have h := Int.zpow_log_le_self (b := 2) (r := |x|) (by norm_num) (abs_pos.mpr hx)
  have e : ulp x = (2 : ℚ) ^ (Int.log 2 |x|) / 2 ^ 52 := by
    unfold ulp
    rw [zpow_sub₀ (by norm_num)]
    norm_num
  rw [e]
  have h' : (2 : ℚ) ^ (Int.log 2 |x|) ≤ |x| := by exact_mod_cast h
  exact div_le_div_of_nonneg_right h' (by positivity)

/-- The standard relative error bound. -/
theorem rnd_err (x : ℚ) : |rnd x - x| ≤ |x| / 2 ^ 53 := by
  by_cases hx : x = 0
  · subst hx; simp [rnd]
  · have h1 := rnd_err_ulp x
    have h2 := ulp_le x hx
    have : |x| / 2 ^ 53 = (|x| / 2 ^ 52) / 2 := by ring
    rw [this]; linarith

/-- Integers of at most 53 bits are exact. -/
theorem rnd_int_exact (n : ℤ) (h : |n| < 2 ^ 53) : rnd (n : ℚ) = n := by
  unfold rnd
  by_cases hn : (n : ℚ) = 0
  · simp [hn]
  · rw [if_neg hn]
    have hpos : (0 : ℚ) < |(n : ℚ)| := abs_pos.mpr hn
    have hlog : Int.log 2 |(n : ℚ)| < 53 := by
      rw [← Int.lt_zpow_iff_log_lt (by norm_num) hpos]
      have : ((|n| : ℤ) : ℚ) < ((2 ^ 53 : ℤ) : ℚ) := Int.cast_lt.mpr h
      rw [Int.cast_abs] at this
      refine lt_of_lt_of_eq this ?_
      norm_num
    have hdiv : ∃ m : ℤ, (n : ℚ) / ulp n = m := by
      obtain ⟨k, hk⟩ := Int.eq_ofNat_of_zero_le (a := 52 - Int.log 2 |(n : ℚ)|) (by omega)
      refine ⟨n * 2 ^ k, ?_⟩
      have : ulp (n : ℚ) = ((2 : ℚ) ^ k)⁻¹ := by
        unfold ulp
        rw [show Int.log 2 |(n : ℚ)| - 52 = -(k : ℤ) by omega, zpow_neg, zpow_natCast]
      rw [this]; push_cast; field_simp
    obtain ⟨m, hm⟩ := hdiv
    rw [hm, roundHalfEven_int, ← hm]
    have := ulp_pos (n : ℚ)
    field_simp

/-- Evaluation rule: if `2^e ≤ x < 2^(e+1)` and `x / 2^(e-52)` is within less than 1/2 of the integer `m`, then `x`
rounds to `m * 2^(e-52)`. -/
theorem rnd_eq (x : ℚ) (e m : ℤ) (h1 : (2 : ℚ) ^ e ≤ x) (h2 : x < (2 : ℚ) ^ (e + 1))
    (h3 : |x / (2 : ℚ) ^ (e - 52) - m| < 1 / 2) : rnd x = m * (2 : ℚ) ^ (e - 52) := by
  have hx : 0 < x := lt_of_lt_of_le (zpow_pos (by norm_num) _) h1
  have hlog : Int.log 2 |x| = e := by
    rw [abs_of_pos hx]
    have a : e ≤ Int.log 2 x := (Int.zpow_le_iff_le_log (b := 2) (by norm_num) hx).mp (by exact_mod_cast h1)
    have b : Int.log 2 x < e + 1 := (Int.lt_zpow_iff_log_lt (b := 2) (by norm_num) hx).mp (by exact_mod_cast h2)
    omega
  unfold rnd
  rw [if_neg (ne_of_gt hx)]
  have hu : ulp x = (2 : ℚ) ^ (e - 52) := by unfold ulp; rw [hlog]
  rw [hu]
  have herr := roundHalfEven_err (x / (2 : ℚ) ^ (e - 52))
  rw [abs_lt] at h3
  rw [abs_le] at herr
  have : roundHalfEven (x / (2 : ℚ) ^ (e - 52)) = m := by
    have hlt : (roundHalfEven (x / (2 : ℚ) ^ (e - 52)) : ℚ) < m + 1 := by linarith [herr.2, h3.2]
    have hgt : (m : ℚ) - 1 < roundHalfEven (x / (2 : ℚ) ^ (e - 52)) := by linarith [herr.1, h3.1]
    have a : roundHalfEven (x / (2 : ℚ) ^ (e - 52)) < m + 1 := by exact_mod_cast hlt
    have b : m - 1 < roundHalfEven (x / (2 : ℚ) ^ (e - 52)) := by exact_mod_cast hgt
    omega
  rw [this]

end Gears.Float64
