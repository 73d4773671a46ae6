import Mathlib.Algebra.Order.Field.Basic
import Mathlib.Data.Rat.Defs
import Mathlib.Algebra.Order.Ring.Abs
import Mathlib.Tactic.Linarith
import Mathlib.Tactic.Ring
import Mathlib.Tactic.NormNum
import Mathlib.Tactic.Positivity
import Mathlib.Tactic.FieldSimp

/-
IEEE 754 binary64 numbers as `strconv` of Go makes them: the bits without the sign, their value, and the number nearest to a fraction.

All finite values are multiples of 2^-1074, so values are natural numbers in this unit.  The bits of numbers from 2^1024 on stand for
numbers with more exponent bits; 2047 * 2^52 is infinity.
-/

namespace Gears.Strconv

/-- The value of the bits of a positive number, in units of 2^-1074: fraction and exponent fields, denormals without hidden bit. -/
def V (b : Nat) : Nat :=
  (if b / 4503599627370496 = 0 then b % 4503599627370496 else 4503599627370496 + b % 4503599627370496) * 2 ^ (b / 4503599627370496 - 1)

/-- The bits of the number nearest to n/d units, ties to the even one. -/
def nearest (n d : Nat) : Nat :=
  let e := Nat.log2 (n / d) - 52
  let t := d * 2 ^ e
  let q := n / t
  let r := n % t
  e * 4503599627370496 + (if 2 * r < t then q else if t < 2 * r then q + 1 else q + q % 2)

/-! ## Specification -/

/-- No number is nearer to x (in units of 2^-1074) than the one with bits b, and if another is as near, then b is even. -/
def Nearest (x : ℚ) (b : Nat) : Prop :=
  ∀ c, |x - V b| ≤ |x - V c| ∧ (|x - V b| = |x - V c| → c = b ∨ b % 2 = 0)

/-! ## Values -/

theorem V_succ (b : Nat) : V (b + 1) = V b + 2 ^ (b / 4503599627370496 - 1) := by
  unfold V
  by_cases h : b % 4503599627370496 + 1 < 4503599627370496
  · have h1 : (b + 1) / 4503599627370496 = b / 4503599627370496 := by omega
    have h2 : (b + 1) % 4503599627370496 = b % 4503599627370496 + 1 := by omega
    rw [h1, h2]
    split <;> ring
  · have h1 : (b + 1) / 4503599627370496 = b / 4503599627370496 + 1 := by omega
    have h2 : (b + 1) % 4503599627370496 = 0 := by omega
    have h3 : b % 4503599627370496 = 4503599627370495 := by omega
    rw [h1, h2, h3]
    by_cases h0 : b / 4503599627370496 = 0
    · simp [h0]
    · obtain ⟨k, hk⟩ : ∃ k, b / 4503599627370496 = k + 1 := ⟨_, (Nat.succ_pred h0).symm⟩
      simp [hk, pow_succ]; ring

theorem V_lt_succ (b : Nat) : V b < V (b + 1) := by
  rw [V_succ]; have : 0 < 2 ^ (b / 4503599627370496 - 1) := by positivity
  omega

theorem V_strictMono {a b : Nat} (h : a < b) : V a < V b := by
  induction b with
  | zero => omega
  | succ b ih =>
    have := V_lt_succ b
    by_cases hb : a = b
    · subst hb; exact this
    · have := ih (by omega); omega

theorem V_mono {a b : Nat} (h : a ≤ b) : V a ≤ V b := by
  rcases Nat.eq_or_lt_of_le h with rfl | h
  · exact Nat.le_refl _
  · exact Nat.le_of_lt (V_strictMono h)

theorem V_inj {a b : Nat} (h : V a = V b) : a = b := by
  rcases Nat.lt_trichotomy a b with h1 | h1 | h1
  · have := V_strictMono h1; omega
  · exact h1
  · have := V_strictMono h1; omega

/-- The number m * 2^e. -/
theorem V_form (e m : Nat) (h1 : m ≤ 9007199254740992) (h2 : e = 0 ∨ 4503599627370496 ≤ m) : V (e * 4503599627370496 + m) = m * 2 ^ e := by
  unfold V
  by_cases h3 : m < 4503599627370496
  · have h4 : e = 0 := by omega
    subst h4
    have h5 : (0 * 4503599627370496 + m) / 4503599627370496 = 0 := by omega
    have h6 : (0 * 4503599627370496 + m) % 4503599627370496 = m := by omega
    rw [h5, h6]; simp
  · by_cases h7 : m = 9007199254740992
    · subst h7
      have h5 : (e * 4503599627370496 + 9007199254740992) / 4503599627370496 = e + 2 := by omega
      have h6 : (e * 4503599627370496 + 9007199254740992) % 4503599627370496 = 0 := by omega
      rw [h5, h6]; simp [pow_succ]; ring
    · have h5 : (e * 4503599627370496 + m) / 4503599627370496 = e + 1 := by omega
      have h6 : (e * 4503599627370496 + m) % 4503599627370496 = m - 4503599627370496 := by omega
      rw [h5, h6]
      simp
      omega

/-! ## Between the neighbours -/

/-- n/d is between the middles of b and its neighbours, and at a middle only if b is even. -/
structure Near (n d b : Nat) : Prop where
  low : ∀ a, b = a + 1 → (V a + V b) * d ≤ 2 * n ∧ (b % 2 = 1 → (V a + V b) * d < 2 * n)
  high : 2 * n ≤ (V b + V (b + 1)) * d ∧ (b % 2 = 1 → 2 * n < (V b + V (b + 1)) * d)

theorem nearest_near (n d : Nat) (hd : 0 < d) : Near n d (nearest n d) := by
  unfold nearest
  simp only
  generalize he : Nat.log2 (n / d) - 52 = e
  have hT : 0 < d * 2 ^ e := by positivity
  have hq1 : e ≠ 0 → 4503599627370496 ≤ n / (d * 2 ^ e) := by
    intro h0
    rw [← Nat.div_div_eq_div_mul, Nat.le_div_iff_mul_le (by positivity)]
    have hx : n / d ≠ 0 := by intro h; rw [h] at he; simp [Nat.log2] at he; omega
    have h3 := (Nat.le_log2 hx (k := Nat.log2 (n / d))).1 (Nat.le_refl _)
    have h4 : Nat.log2 (n / d) = 52 + e := by omega
    rw [h4, pow_add] at h3
    exact h3
  have hq2 : n / (d * 2 ^ e) < 9007199254740992 := by
    rw [← Nat.div_div_eq_div_mul, Nat.div_lt_iff_lt_mul (by positivity)]
    have h3 : n / d < 2 ^ (Nat.log2 (n / d) + 1) := Nat.lt_log2_self
    have h4 : 2 ^ (Nat.log2 (n / d) + 1) ≤ 2 ^ (53 + e) := Nat.pow_le_pow_right (by norm_num) (by omega)
    rw [pow_add 2 53 e] at h4
    omega
  generalize hqd : n / (d * 2 ^ e) = q at hq1 hq2
  generalize hrd : n % (d * 2 ^ e) = r
  have hr : r < d * 2 ^ e := by rw [← hrd]; exact Nat.mod_lt _ hT
  have hn : q * (d * 2 ^ e) + r = n := by rw [← hqd, ← hrd, Nat.mul_comm]; exact Nat.div_add_mod _ _
  generalize hm : (if 2 * r < d * 2 ^ e then q else if d * 2 ^ e < 2 * r then q + 1 else q + q % 2) = m
  have hml : m = q ∨ m = q + 1 := by rw [← hm]; split; · exact .inl rfl
                                     · split; · exact .inr rfl
                                       · omega
  have hv : V (e * 4503599627370496 + m) = m * 2 ^ e := V_form e m (by omega) (by by_cases h : e = 0 <;> [exact .inl h; exact .inr (by have := hq1 h; omega)])
  have hpar : (e * 4503599627370496 + m) % 2 = m % 2 := by omega
  generalize hD : d * 2 ^ e = T at *
  -- twice n against odd multiples of T
  have hhi : 2 * n ≤ (2 * m + 1) * T ∧ (m % 2 = 1 → 2 * n < (2 * m + 1) * T) := by
    have e1 : (2 * q + 1) * T = 2 * (q * T) + T := by ring
    have e2 : (2 * (q + 1) + 1) * T = 2 * (q * T) + 3 * T := by ring
    rw [← hm]
    split
    · rw [e1]; omega
    · split
      · rw [e2]; omega
      · rcases Nat.mod_two_eq_zero_or_one q with h | h <;> rw [h]
        · simp only [Nat.add_zero, e1]; omega
        · rw [e2]; omega
  have hlo : ∀ k, m = k + 1 → (2 * k + 1) * T ≤ 2 * n ∧ (m % 2 = 1 → (2 * k + 1) * T < 2 * n) := by
    intro k hk
    have e1 : (2 * k + 1) * T + T = 2 * (m * T) := by rw [hk]; ring
    have e2 : (q + 1) * T = q * T + T := by ring
    rcases hml with h | h
    · rw [h] at e1
      refine ⟨by omega, fun _ => by omega⟩
    · have h1 : ¬ 2 * r < T := by intro h1; rw [if_pos h1] at hm; omega
      by_cases h2 : T < 2 * r
      · rw [h, e2] at e1
        exact ⟨by omega, fun _ => by omega⟩
      · rw [if_neg h1, if_neg h2] at hm
        rw [h, e2] at e1
        exact ⟨by omega, fun _ => by omega⟩
  have hpow : 0 < 2 ^ e := by positivity
  constructor
  · intro a ha
    rw [hpar, hv]
    by_cases hb : e = 0 ∨ 4503599627370496 < m
    · obtain ⟨k, hk⟩ : ∃ k, m = k + 1 := by
        rcases Nat.eq_zero_or_pos m with h0 | h0
        · subst h0; rcases hb with h | h <;> omega
        · exact ⟨m - 1, by omega⟩
      have hva : V a = k * 2 ^ e := by
        rw [← V_form e k (by omega) (by omega)]; congr 1; omega
      rw [hva]
      have e3 : (k * 2 ^ e + m * 2 ^ e) * d = (2 * k + 1) * T := by rw [hk, ← hD]; ring
      rw [e3]
      exact hlo k hk
    · have hm' : m = 4503599627370496 := by
        have := hq1 (by omega); omega
      have hmq : m = q := by
        have := hq1 (by omega); omega
      have hva : V a < m * 2 ^ e := by rw [← hv]; exact V_strictMono (by omega)
      have e3 : m * 2 ^ e * d = q * T := by rw [hmq, ← hD]; ring
      have e4 : (V a + m * 2 ^ e) * d < 2 * (m * 2 ^ e * d) := by
        have : (V a + m * 2 ^ e) * d < (m * 2 ^ e + m * 2 ^ e) * d := Nat.mul_lt_mul_of_pos_right (by omega) hd
        calc _ < _ := this
          _ = _ := by ring
      exact ⟨by omega, fun _ => by omega⟩
  · rw [hpar, hv]
    have hvs : (m + 1) * 2 ^ e ≤ V (e * 4503599627370496 + m + 1) := by
      by_cases hb : m < 9007199254740992
      · rw [Nat.add_assoc, V_form e (m + 1) (by omega) (by by_cases h : e = 0 <;> [exact .inl h; exact .inr (by have := hq1 h; omega)])]
      · have hm' : m = 9007199254740992 := by omega
        rw [V_succ, hv]
        have h5 : (e * 4503599627370496 + m) / 4503599627370496 - 1 = e + 1 := by omega
        rw [h5, pow_succ]
        have : (m + 1) * 2 ^ e = m * 2 ^ e + 2 ^ e := by ring
        omega
    have e3 : (2 * m + 1) * T ≤ (m * 2 ^ e + V (e * 4503599627370496 + m + 1)) * d := by
      have : (m * 2 ^ e + (m + 1) * 2 ^ e) * d ≤ (m * 2 ^ e + V (e * 4503599627370496 + m + 1)) * d := Nat.mul_le_mul_right _ (by omega)
      calc (2 * m + 1) * T = (m * 2 ^ e + (m + 1) * 2 ^ e) * d := by rw [← hD]; ring
        _ ≤ _ := this
    exact ⟨by omega, fun h => by have := hhi.2 h; omega⟩

/-- Smaller fractions have smaller nearest numbers. -/
theorem Near.mono {n d b n' d' b' : Nat} (hd : 0 < d) (hd' : 0 < d') (h : Near n d b) (h' : Near n' d' b') (hle : n * d' ≤ n' * d) : b ≤ b' := by
  by_contra hc
  obtain ⟨a, rfl⟩ : ∃ a, b = a + 1 := ⟨b - 1, by omega⟩
  have h1 := h.low a rfl
  have h2 := h'.high
  have hv1 : V b' ≤ V a := V_mono (by omega)
  have hv2 : V (b' + 1) ≤ V (a + 1) := V_mono (by omega)
  have h3 : (V a + V (a + 1)) * d * d' ≤ 2 * n * d' := Nat.mul_le_mul_right _ h1.1
  have h4 : 2 * n' * d ≤ (V b' + V (b' + 1)) * d' * d := Nat.mul_le_mul_right _ h2.1
  have h5 : (V b' + V (b' + 1)) * d' * d ≤ (V a + V (a + 1)) * d * d' := by
    calc (V b' + V (b' + 1)) * d' * d = (V b' + V (b' + 1)) * (d' * d) := by ring
      _ ≤ (V a + V (a + 1)) * (d' * d) := Nat.mul_le_mul_right _ (by omega)
      _ = _ := by ring
  have h6 : 2 * n * d' ≤ 2 * n' * d := by calc 2 * n * d' = 2 * (n * d') := by ring
      _ ≤ 2 * (n' * d) := by omega
      _ = _ := by ring
  have hab : a = b' := by
    by_contra hne
    have hv3 : V b' < V a := V_strictMono (by omega)
    have : (V b' + V (b' + 1)) * (d' * d) < (V a + V (a + 1)) * (d' * d) := Nat.mul_lt_mul_of_pos_right (by omega) (by positivity)
    have e1 : (V b' + V (b' + 1)) * (d' * d) = (V b' + V (b' + 1)) * d' * d := by ring
    have e2 : (V a + V (a + 1)) * (d' * d) = (V a + V (a + 1)) * d * d' := by ring
    omega
  subst hab
  rcases Nat.mod_two_eq_zero_or_one a with hp | hp
  · have := h1.2 (by omega)
    have : (V a + V (a + 1)) * d * d' < 2 * n * d' := Nat.mul_lt_mul_of_pos_right this hd'
    omega
  · have := h2.2 hp
    have : 2 * n' * d < (V a + V (a + 1)) * d' * d := Nat.mul_lt_mul_of_pos_right this hd
    omega

theorem Near.unique {n d b n' d' b' : Nat} (hd : 0 < d) (hd' : 0 < d') (h : Near n d b) (h' : Near n' d' b') (he : n * d' = n' * d) : b = b' :=
  Nat.le_antisymm (h.mono hd hd' h' (Nat.le_of_eq he)) (h'.mono hd' hd h (Nat.le_of_eq he.symm))

theorem nearest_eq {n d b : Nat} (hd : 0 < d) : nearest n d = b ↔ Near n d b :=
  ⟨fun h => h ▸ nearest_near n d hd, fun h => (nearest_near n d hd).unique hd hd h rfl⟩

theorem nearest_congr {n d n' d' : Nat} (hd : 0 < d) (hd' : 0 < d') (h : n * d' = n' * d) : nearest n d = nearest n' d' :=
  (nearest_near n d hd).unique hd hd' (nearest_near n' d' hd') h

theorem nearest_mono {n d n' d' : Nat} (hd : 0 < d) (hd' : 0 < d') (h : n * d' ≤ n' * d) : nearest n d ≤ nearest n' d' :=
  (nearest_near n d hd).mono hd hd' (nearest_near n' d' hd') h

/-- A number is the nearest to itself. -/
theorem nearest_self (b d : Nat) (hd : 0 < d) : nearest (V b * d) d = b := by
  rw [nearest_eq hd]
  constructor
  · intro a ha
    have : V a < V b := V_strictMono (by omega)
    have h : (V a + V b) * d < (V b + V b) * d := Nat.mul_lt_mul_of_pos_right (by omega) hd
    have e : (V b + V b) * d = 2 * (V b * d) := by ring
    exact ⟨by omega, fun _ => by omega⟩
  · have : V b < V (b + 1) := V_lt_succ b
    have h : (V b + V b) * d < (V b + V (b + 1)) * d := Nat.mul_lt_mul_of_pos_right (by omega) hd
    have e : (V b + V b) * d = 2 * (V b * d) := by ring
    exact ⟨by omega, fun _ => by omega⟩

/-! ## The nearest number -/

theorem near_iff (n d b : Nat) (hd : 0 < d) : Near n d b ↔ Nearest ((n : ℚ) / d) b := by
  have hdq : (0 : ℚ) < d := by exact_mod_cast hd
  have key : ∀ a c : Nat, (V a + V c) * d ≤ 2 * n ↔ ((V a : ℚ) + V c) ≤ 2 * ((n : ℚ) / d) := by
    intro a c
    rw [show (2 : ℚ) * ((n : ℚ) / d) = (2 * n) / d by ring, le_div_iff₀ hdq]
    exact_mod_cast Iff.rfl
  have key2 : ∀ a c : Nat, 2 * n ≤ (V a + V c) * d ↔ 2 * ((n : ℚ) / d) ≤ ((V a : ℚ) + V c) := by
    intro a c
    rw [show (2 : ℚ) * ((n : ℚ) / d) = (2 * n) / d by ring, div_le_iff₀ hdq]
    exact_mod_cast Iff.rfl
  have keyl : ∀ a c : Nat, (V a + V c) * d < 2 * n ↔ ((V a : ℚ) + V c) < 2 * ((n : ℚ) / d) := by
    intro a c
    rw [← not_le, ← not_le, key2]
  have keyl2 : ∀ a c : Nat, 2 * n < (V a + V c) * d ↔ 2 * ((n : ℚ) / d) < ((V a : ℚ) + V c) := by
    intro a c
    rw [← not_le, ← not_le, key]
  generalize (n : ℚ) / d = x at *
  constructor
  · intro h c
    rcases Nat.lt_trichotomy c b with hc | hc | hc
    · obtain ⟨a, rfl⟩ : ∃ a, b = a + 1 := ⟨b - 1, by omega⟩
      obtain ⟨h1, h2⟩ := h.low a rfl
      rw [key] at h1
      rw [keyl] at h2
      have hv1 : (V c : ℚ) ≤ V a := by exact_mod_cast V_mono (show c ≤ a by omega)
      have hv2 : (V a : ℚ) < V (a + 1) := by exact_mod_cast V_lt_succ a
      have hpos : 0 < x - V c := by linarith
      rw [abs_of_pos hpos]
      have hlt : |x - V (a + 1)| ≤ x - V c := by rw [abs_le]; constructor <;> linarith
      refine ⟨hlt, fun he => ?_⟩
      right
      by_contra hp
      have h3 := h2 (by omega)
      have : |x - V (a + 1)| < x - V c := by rw [abs_lt]; constructor <;> linarith
      linarith
    · subst hc; exact ⟨le_refl _, fun _ => .inl rfl⟩
    · obtain ⟨h1, h2⟩ := h.high
      rw [key2] at h1
      rw [keyl2] at h2
      have hv1 : (V (b + 1) : ℚ) ≤ V c := by exact_mod_cast V_mono (show b + 1 ≤ c by omega)
      have hv2 : (V b : ℚ) < V (b + 1) := by exact_mod_cast V_lt_succ b
      have hneg : x - V c < 0 := by linarith
      rw [abs_of_neg hneg]
      have hlt : |x - V b| ≤ -(x - V c) := by rw [abs_le]; constructor <;> linarith
      refine ⟨hlt, fun he => ?_⟩
      right
      by_contra hp
      have h3 := h2 (by omega)
      have : |x - V b| < -(x - V c) := by rw [abs_lt]; constructor <;> linarith
      linarith
  · intro h
    constructor
    · intro a ha
      subst ha
      obtain ⟨h1, h2⟩ := h a
      have hv2 : (V a : ℚ) < V (a + 1) := by exact_mod_cast V_lt_succ a
      rw [key, keyl]
      have hle : (V a : ℚ) + V (a + 1) ≤ 2 * x := by
        by_contra hc
        push Not at hc
        have : |x - V a| < |x - V (a + 1)| := by
          rw [abs_of_neg (show x - V (a + 1) < 0 by linarith), abs_lt]; constructor <;> linarith
        linarith
      refine ⟨hle, fun hp => ?_⟩
      by_contra hc
      have he : 2 * x = (V a : ℚ) + V (a + 1) := by linarith
      have : |x - V (a + 1)| = |x - V a| := by
        rw [abs_of_neg (show x - V (a + 1) < 0 by linarith), abs_of_pos (show 0 < x - V a by linarith)]; linarith
      rcases h2 this with h3 | h3 <;> omega
    · obtain ⟨h1, h2⟩ := h (b + 1)
      have hv2 : (V b : ℚ) < V (b + 1) := by exact_mod_cast V_lt_succ b
      rw [key2, keyl2]
      have hle : 2 * x ≤ (V b : ℚ) + V (b + 1) := by
        by_contra hc
        push Not at hc
        have : |x - V (b + 1)| < |x - V b| := by
          rw [abs_of_pos (show 0 < x - V b by linarith), abs_lt]; constructor <;> linarith
        linarith
      refine ⟨hle, fun hp => ?_⟩
      by_contra hc
      have he : 2 * x = (V b : ℚ) + V (b + 1) := by linarith
      have : |x - V b| = |x - V (b + 1)| := by
        rw [abs_of_pos (show 0 < x - V b by linarith), abs_of_neg (show x - V (b + 1) < 0 by linarith)]; linarith
      rcases h2 this with h3 | h3 <;> omega

/-- The computed number is the nearest. -/
theorem nearest_iff (n d b : Nat) (hd : 0 < d) : nearest n d = b ↔ Nearest ((n : ℚ) / d) b := by
  rw [nearest_eq hd, near_iff n d b hd]

end Gears.Strconv
