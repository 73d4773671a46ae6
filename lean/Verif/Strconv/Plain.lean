import Verif.Strconv.Props
import Verif.Conf.ScalarProps

/-
Lemmas for C109: what removing underscores does to the text of a float, and integer literals read as floats.
-/

namespace Gears.Strconv

open Gears.Str (Bytes ascii)
open Gears.Conf (LitDigits DigitOf Literal IntText)
open Gears.Conf.Yaml (plain)

attribute [local irreducible] V mag

/-! ## Underscores -/

theorem plain_append (a b : Bytes) : plain (a ++ b) = plain a ++ plain b := List.filter_append ..

theorem plain_cons {c : UInt8} (h : c ≠ 95) (t : Bytes) : plain (c :: t) = c :: plain t := List.filter_cons_of_pos (by simpa using h)

theorem count_plain (u : Bytes) : count (plain u) = count u := by
  unfold count plain
  rw [List.filter_filter]
  simp

theorem lit_plain {base acc n : Nat} {t : Bytes} (h : LitDigits base acc t n) : LitDigits base acc (plain t) n := Conf.Yaml.litDigits_filter h

theorem mantissa_plain {base n f : Nat} {m : Bytes} (h : Mantissa base m n f) : Mantissa base (plain m) n f := by
  cases h with
  | whole h => exact .whole (lit_plain h)
  | point h =>
    rw [plain_append]
    exact .point (lit_plain h)
  | both h1 h2 =>
    rw [plain_append, plain_cons (by decide), ← count_plain]
    exact .both (lit_plain h1) (lit_plain h2)
  | frac h =>
    rw [plain_cons (by decide), ← count_plain]
    exact .frac (lit_plain h)

theorem exponent_plain {lo up : UInt8} (h1 : lo ≠ 95) (h2 : up ≠ 95) {e : Bytes} {x : Int} (h : Exponent lo up e x) : Exponent lo up (plain e) x := by
  have ne : ∀ {c : UInt8}, c = lo ∨ c = up → c ≠ 95 := by rintro c (rfl | rfl) <;> assumption
  cases h with
  | plain hc h => rw [plain_cons (ne hc)]; exact .plain hc (lit_plain h)
  | plus hc h => rw [plain_cons (ne hc), plain_cons (by decide)]; exact .plus hc (lit_plain h)
  | minus hc h => rw [plain_cons (ne hc), plain_cons (by decide)]; exact .minus hc (lit_plain h)

theorem body_plain {t : Bytes} {hex : Bool} {n f : Nat} {x : Int} (h : Body t hex n f x) : Body (plain t) hex n f x := by
  cases h with
  | dec h => exact .dec (mantissa_plain h)
  | decExp h1 h2 =>
    rw [plain_append]
    exact .decExp (mantissa_plain h1) (exponent_plain (by decide) (by decide) h2)
  | @hex p u m n f e x hp hu h1 h2 =>
    have hu' : plain u = [] := by rcases hu with rfl | ⟨rfl, -⟩ <;> rfl
    have e1 : plain (48 :: p :: u ++ m ++ e) = 48 :: p :: [] ++ plain m ++ plain e := by
      rw [plain_append, plain_append, plain_cons (by decide), plain_cons (by rcases hp with rfl | rfl <;> decide), hu']
    rw [e1]
    exact .hex hp (.inl rfl) (mantissa_plain h1) (exponent_plain (by decide) (by decide) h2)

theorem word_plain {t : Bytes} {w : Bytes} (hw : 95 ∉ w) (h : t.map low = w) : plain t = t := by
  unfold plain
  rw [List.filter_eq_self]
  intro c hc
  simp only [ne_eq, decide_eq_true_eq]
  rintro rfl
  apply hw
  rw [← h]
  exact List.mem_map.2 ⟨95, hc, by decide⟩

theorem sign_plain {s t : Bytes} {neg : Bool} (h : Sign s neg t) : Sign (plain s) neg (plain t) := by
  cases h with
  | none => exact .none
  | plus => rw [plain_cons (by decide)]; exact .plus
  | minus => rw [plain_cons (by decide)]; exact .minus

/-- Without its underscores the text means the same. -/
theorem text_plain {s : Bytes} {x : F64} (h : Text s x) : Text (plain s) x := by
  cases h with
  | nan h => rw [word_plain (by decide) h]; exact .nan h
  | inf h h' =>
    refine .inf (sign_plain h) ?_
    rcases h' with h' | h'
    · rw [word_plain (by decide) h']; exact .inl h'
    · rw [word_plain (by decide) h']; exact .inr h'
  | num h1 h2 h3 h4 => exact .num (sign_plain h1) (body_plain h2) h3 h4

/-! ## Integers -/

/-- Octal digits as decimal digits. -/
theorem octal_decimal {acc acc' n : Nat} {t : Bytes} (h : LitDigits 8 acc t n) (h1 : acc' ≤ acc * acc) (h2 : acc < 8 → acc' = acc) (h3 : 8 ≤ acc → 9 * acc ≤ 8 * acc') :
    ∃ n', LitDigits 10 acc' t n' ∧ n' ≤ n * n ∧ (n < 8 → n' = n) ∧ (8 ≤ n → 9 * n ≤ 8 * n') := by
  have up : ∀ {c : UInt8} {d}, DigitOf 8 c d → DigitOf 10 c d := fun h => ⟨by have := h.1; omega, h.2⟩
  have step : ∀ {acc acc' d : Nat}, d < 8 → acc' ≤ acc * acc → (acc < 8 → acc' = acc) → (8 ≤ acc → 9 * acc ≤ 8 * acc') →
      acc' * 10 + d ≤ (acc * 8 + d) * (acc * 8 + d) ∧ (acc * 8 + d < 8 → acc' * 10 + d = acc * 8 + d) ∧ (8 ≤ acc * 8 + d → 9 * (acc * 8 + d) ≤ 8 * (acc' * 10 + d)) := by
    intro acc acc' d hd h1 h2 h3
    refine ⟨?_, fun h => ?_, fun h => ?_⟩
    · have : d ≤ d * d := Nat.le_mul_self d
      nlinarith
    · have := h2 (by omega)
      omega
    · by_cases h4 : acc < 8
      · have := h2 h4
        omega
      · have := h3 (by omega)
        omega
  induction h generalizing acc' with
  | last hd =>
    obtain ⟨s1, s2, s3⟩ := step hd.1 h1 h2 h3
    exact ⟨_, .last (up hd), s1, s2, s3⟩
  | next hd _ ih =>
    obtain ⟨s1, s2, s3⟩ := step hd.1 h1 h2 h3
    obtain ⟨n', h, h'⟩ := ih s1 s2 s3
    exact ⟨n', .next (up hd) h, h'⟩
  | sep hd _ ih =>
    obtain ⟨s1, s2, s3⟩ := step hd.1 h1 h2 h3
    obtain ⟨n', h, h'⟩ := ih s1 s2 s3
    exact ⟨n', .sep (up hd) h, h'⟩

theorem mag_range {n : Nat} (h : n ≤ 10 ^ 40) : mag 10 n 0 < infMag := by
  have h1 : mag 10 n 0 ≤ mag 10 1 40 := by
    apply mag_mono
    have : (n : ℚ) ≤ 10 ^ 40 := by exact_mod_cast h
    simpa using this
  have h2 : mag 10 1 40 < infMag := by decide +kernel
  omega

/-- Decimal digits, and the nearest float. -/
theorem int_parse {s t : Bytes} {neg : Bool} {n : Nat} (hs : Sign s neg t) (h : LitDigits 10 0 t n) (hn : n ≤ 10 ^ 40) : parseFloat s = some ⟨neg, mag 10 n 0⟩ :=
  body_text (d := n) (j := 0) hs (.dec (.whole h)) (by simp [value]) (by omega) ((back_mag _ _ _).1 rfl) (mag_range hn)

theorem gap_arith {v va g ga n n' U : Nat} (hU : 19 ≤ U) (hn : 8 ≤ n) (hv : va + ga = v) (hg : ga ≤ g) (h19 : 19 ≤ v → 19 * g ≤ v) (hsm : v < 19 → g = 1)
    (hl : va + v ≤ 2 * (n * U)) (hh : 2 * (n' * U) ≤ v + (v + g)) (hr : 9 * n ≤ 8 * n') : False := by
  have hnU : 9 * (n * U) ≤ 8 * (n' * U) := by
    calc 9 * (n * U) = 9 * n * U := by ring
      _ ≤ 8 * n' * U := Nat.mul_le_mul_right U hr
      _ = _ := by ring
  have hbig : 8 * 19 ≤ n * U := Nat.mul_le_mul hn hU
  by_cases h : 19 ≤ v
  · have := h19 h
    omega
  · have := hsm (by omega)
    omega

theorem gap_mono (a : Nat) : 2 ^ (a / 4503599627370496 - 1) ≤ 2 ^ ((a + 1) / 4503599627370496 - 1) := by
  apply Nat.pow_le_pow_right (by omega)
  have : a / 4503599627370496 ≤ (a + 1) / 4503599627370496 := Nat.div_le_div_right (by omega)
  omega

theorem gap_small {b : Nat} (h : V b < 19) : 2 ^ (b / 4503599627370496 - 1) = 1 := by
  have : b / 4503599627370496 = 0 := by
    by_contra h0
    unfold V at h
    rw [if_neg h0] at h
    have : 4503599627370496 * 1 ≤ (4503599627370496 + b % 4503599627370496) * 2 ^ (b / 4503599627370496 - 1) :=
      Nat.mul_le_mul (by omega) (Nat.one_le_two_pow)
    omega
  rw [this]
  rfl

theorem two_big : 19 ≤ 2 ^ 1074 := by
  calc 19 ≤ 2 ^ 5 := by norm_num
    _ ≤ 2 ^ 1074 := Nat.pow_le_pow_right (by omega) (by omega)

theorem near_differ {n n' b U : Nat} (hU : 19 ≤ U) (hn : 8 ≤ n) (hr : 9 * n ≤ 8 * n') (h1 : Near (n * U) 1 b) (h2 : Near (n' * U) 1 b) : False := by
  have hh := h2.high.1
  rw [V_succ, Nat.mul_one] at hh
  cases b with
  | zero =>
    have h0 : V 0 = 0 := by unfold V; simp
    have hb : 8 * 19 ≤ n * U := Nat.mul_le_mul hn hU
    have hnU : 9 * (n * U) ≤ 8 * (n' * U) := by
      calc 9 * (n * U) = 9 * n * U := by ring
        _ ≤ 8 * n' * U := Nat.mul_le_mul_right U hr
        _ = _ := by ring
    rw [h0] at hh
    have : 2 ^ (0 / 4503599627370496 - 1) = 1 := rfl
    rw [this] at hh
    omega
  | succ a =>
    have hl := (h1.low a rfl).1
    rw [Nat.mul_one] at hl
    exact gap_arith hU hn (V_succ a).symm (gap_mono a) V_19 gap_small hl hh hr

/-- If one number is larger than the other by an eighth, the floats differ. -/
theorem mag_differ {n n' : Nat} (hn : 8 ≤ n) (hr : 9 * n ≤ 8 * n') : mag 10 n 0 ≠ mag 10 n' 0 := by
  intro he
  have key : ∀ m, mag 10 m 0 = nearest (m * 2 ^ 1074) 1 := by
    intro m
    unfold mag
    simp only [Int.toNat_zero, pow_zero, mul_one, Int.neg_zero]
  have h1 := (nearest_eq (n := n * 2 ^ 1074) (b := mag 10 n 0) Nat.one_pos).1 (key n).symm
  have h2 := (nearest_eq (n := n' * 2 ^ 1074) (b := mag 10 n 0) Nat.one_pos).1 (by rw [he]; exact (key n').symm)
  exact near_differ two_big hn hr h1 h2

end Gears.Strconv
