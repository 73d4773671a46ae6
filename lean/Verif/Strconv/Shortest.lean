import Verif.Strconv.ParseProps

/-
The shortest digits that read back as a given float64: `strconv.FormatFloat(f, fmt, -1, 64)` of Go 1.17 (ftoa.go, ftoaryu.go), before the layout.
-/

namespace Gears.Strconv

open Gears.Str (Bytes natDigits)

/-! ## Model

`ryuFtoaShortest` trims digits from the bounds of the interval that rounds to the float as long as an integer is left between them, with
128-bit approximations of powers of ten.  Here the same search goes upwards over the number of digits, with exact integers: the result is the
number with the fewest digits in the interval, the nearest one to the float if there are several, and the even one of two that are as near. -/

/-- The magnitude times 10^1074, which is an integer. -/
@[irreducible] def W (b : Nat) : Nat := V b * 5 ^ 1074

/-- The number of digits; the first argument is at least n. -/
def lenTo : Nat → Nat → Nat
  | 0, _ => 1
  | i + 1, n => if n < 10 then 1 else lenTo i (n / 10) + 1

def len (n : Nat) : Nat := lenTo n n

/-- n digits and the exponent of the last one, such that the number reads back as b. -/
@[irreducible] def pick (b n : Nat) : Option (Nat × Int) :=
  let k := len (W b) - n
  let j : Int := k - 1074
  let d := W b / 10 ^ k
  let r := W b % 10 ^ k
  if mag 10 d j = b then
    if mag 10 (d + 1) j = b ∧ (10 ^ k < 2 * r ∨ 10 ^ k = 2 * r ∧ d % 2 = 1) then some (d + 1, j) else some (d, j)
  else if mag 10 (d + 1) j = b then some (d + 1, j)
  else none

/-- The first n that has digits. -/
def search (b : Nat) : Nat → Nat → Nat × Int
  | 0, _ => (W b, -1074)
  | i + 1, n => (pick b n).getD (search b i (n + 1))

/-- Without zeros at the end; the first argument is at least d. -/
def stripTo : Nat → Nat → Int → Nat × Int
  | 0, d, j => (d, j)
  | i + 1, d, j => if d ≠ 0 ∧ d % 10 = 0 then stripTo i (d / 10) (j + 1) else (d, j)

def strip (d : Nat) (j : Int) : Nat × Int := stripTo d d j

/-- The shortest digits of the magnitude b > 0. -/
def shortest (b : Nat) : Nat × Int :=
  let r := search b (len (W b)) 1
  strip r.1 r.2

/-! ## Specification -/

/-- The number `d * 10^j` reads back as b. -/
def Back (b d : Nat) (j : Int) : Prop := Nearest (d * (10 : ℚ) ^ j * 2 ^ 1074) b

/-- The number with magnitude b. -/
def num (b : Nat) : ℚ := V b / 2 ^ 1074

/-- `d * 10^j` reads back as b, no number with fewer digits does, and none with at most as many digits that does is nearer to b; if another one is as
near, then d is even. -/
structure Shortest (b d : Nat) (j : Int) : Prop where
  back : Back b d j
  trim : d % 10 ≠ 0
  least : ∀ k d' j', Back b d' j' → d' < 10 ^ k → d < 10 ^ k
  near : ∀ k d' j', Back b d' j' → d' < 10 ^ k → 10 ^ k ≤ 10 * d → |d * (10 : ℚ) ^ j - num b| ≤ |d' * (10 : ℚ) ^ j' - num b|
  even : ∀ k d' j', Back b d' j' → d' < 10 ^ k → 10 ^ k ≤ 10 * d → |d * (10 : ℚ) ^ j - num b| = |d' * (10 : ℚ) ^ j' - num b| →
    d' * (10 : ℚ) ^ j' = d * (10 : ℚ) ^ j ∨ d % 2 = 0

/-! ## Proof -/

theorem Nearest.mono {x y : ℚ} {a c : Nat} (hx : 0 ≤ x) (hy : 0 ≤ y) (h : Nearest x a) (h' : Nearest y c) (hle : x ≤ y) : a ≤ c := by
  have e : ∀ x : ℚ, 0 ≤ x → ∃ n d : Nat, 0 < d ∧ x = (n : ℚ) / d := by
    intro x hx
    refine ⟨x.num.toNat, x.den, x.den_pos, ?_⟩
    have : ((x.num.toNat : Int) : ℚ) = x.num := by rw [Int.toNat_of_nonneg (Rat.num_nonneg.2 hx)]
    rw [show ((x.num.toNat : Nat) : ℚ) = ((x.num.toNat : Int) : ℚ) from rfl, this, Rat.num_div_den]
  obtain ⟨n, d, hd, rfl⟩ := e x hx
  obtain ⟨n', d', hd', rfl⟩ := e y hy
  rw [← (nearest_iff n d a hd).2 h, ← (nearest_iff n' d' c hd').2 h']
  apply nearest_mono hd hd'
  have h1 : (0 : ℚ) < d := by exact_mod_cast hd
  have h2 : (0 : ℚ) < d' := by exact_mod_cast hd'
  rw [div_le_div_iff₀ h1 h2] at hle
  exact_mod_cast hle

theorem nearest_num (b : Nat) : Nearest (num b * 2 ^ 1074) b := by
  have h := (nearest_iff (V b * 1) 1 b (by omega)).1 (nearest_self b 1 (by omega))
  have : num b * 2 ^ 1074 = ((V b * 1 : Nat) : ℚ) / ((1 : Nat) : ℚ) := by unfold num; push_cast; field_simp
  rw [this]; exact h

theorem two_pos : (0 : ℚ) < 2 ^ 1074 := pow_pos (by norm_num) _

theorem ten_pos (j : Int) : (0 : ℚ) < 10 ^ j := zpow_pos (by norm_num) _

theorem num_nonneg (b : Nat) : 0 ≤ num b := div_nonneg (Nat.cast_nonneg _) two_pos.le

theorem num_W (b : Nat) : num b = W b * (10 : ℚ) ^ (-1074 : Int) := by
  unfold num W
  rw [zpow_neg, show ((10 : ℚ) ^ (1074 : Int)) = 2 ^ 1074 * 5 ^ 1074 by rw [show (1074 : Int) = ((1074 : Nat) : Int) from rfl, zpow_natCast, ← mul_pow]; norm_num]
  push_cast
  field_simp


attribute [local irreducible] V mag

theorem back_mag (b d : Nat) (j : Int) : mag 10 d j = b ↔ Back b d j := mag_iff d 10 j b (by omega)

theorem q_nonneg (d : Nat) (j : Int) : 0 ≤ d * (10 : ℚ) ^ j := mul_nonneg (Nat.cast_nonneg _) (ten_pos j).le

/-- Between a number that reads back as b and b itself, everything does. -/
theorem back_between {b d d' : Nat} {j j' : Int} (h : Back b d' j') (hc : (d' * (10 : ℚ) ^ j' ≤ d * (10 : ℚ) ^ j ∧ d * (10 : ℚ) ^ j ≤ num b) ∨
    (num b ≤ d * (10 : ℚ) ^ j ∧ d * (10 : ℚ) ^ j ≤ d' * (10 : ℚ) ^ j')) : Back b d j := by
  have h0 := (back_mag (mag 10 d j) d j).1 rfl
  have hn := nearest_num b
  have p := two_pos
  have q1 := mul_nonneg (q_nonneg d j) p.le
  have q2 := mul_nonneg (q_nonneg d' j') p.le
  have q3 := mul_nonneg (num_nonneg b) p.le
  have key : mag 10 d j = b := by
    rcases hc with ⟨h1, h2⟩ | ⟨h1, h2⟩
    · have a1 := Nearest.mono q2 q1 h h0 (mul_le_mul_of_nonneg_right h1 p.le)
      have a2 := Nearest.mono q1 q3 h0 hn (mul_le_mul_of_nonneg_right h2 p.le)
      omega
    · have a1 := Nearest.mono q3 q1 hn h0 (mul_le_mul_of_nonneg_right h1 p.le)
      have a2 := Nearest.mono q1 q2 h0 h (mul_le_mul_of_nonneg_right h2 p.le)
      omega
  rw [key] at h0
  exact h0

theorem lenTo_spec : ∀ i n : Nat, n ≤ i → n < 10 ^ lenTo i n ∧ (n ≠ 0 → 10 ^ lenTo i n ≤ 10 * n) ∧ 0 < lenTo i n
  | 0, n, h => by simp [lenTo]; omega
  | i + 1, n, h => by
    rw [lenTo]
    split
    · simp; omega
    · obtain ⟨h1, h2, h3⟩ := lenTo_spec i (n / 10) (by omega)
      have h2 := h2 (by omega)
      rw [Nat.pow_succ]
      omega

theorem natDigits_len (n : Nat) : n < 10 ^ len n ∧ (n ≠ 0 → 10 ^ len n ≤ 10 * n) ∧ 0 < len n := lenTo_spec n n (Nat.le_refl n)

/-- d' with at most n digits is on one side of the n digits of b, or on the other. -/
theorem sides {b n d' : Nat} {j' : Int} (hb : W b ≠ 0) (hn : n ≤ len (W b)) (hn1 : 1 ≤ n) (hd : d' < 10 ^ n) :
    let k := len (W b) - n
    let j : Int := k - 1074
    let d := W b / 10 ^ k
    (d' * (10 : ℚ) ^ j' ≤ d * (10 : ℚ) ^ j ∧ d * (10 : ℚ) ^ j ≤ num b) ∨
      (num b ≤ (d + 1 : Nat) * (10 : ℚ) ^ j ∧ ((d + 1 : Nat) : ℚ) * (10 : ℚ) ^ j ≤ d' * (10 : ℚ) ^ j') := by
  intro k j d
  obtain ⟨l1, l2, -⟩ := natDigits_len (W b)
  have l2 := l2 hb
  have hL : len (W b) = k + n := by omega
  rw [hL] at l1 l2
  have hk : 0 < 10 ^ k := by positivity
  have hdm := Nat.div_add_mod (W b) (10 ^ k)
  have hml := Nat.mod_lt (W b) hk
  have hd10 : 10 ^ (n - 1) ≤ d := by
    show 10 ^ (n - 1) ≤ W b / 10 ^ k
    rw [Nat.le_div_iff_mul_le hk, ← Nat.pow_add]
    have : 10 ^ (k + n) = 10 * 10 ^ (n - 1 + k) := by rw [← Nat.pow_succ', show (n - 1 + k).succ = k + n by omega]
    omega
  have hu := ten_pos j
  have hj : (10 : ℚ) ^ j = 10 ^ k * (10 : ℚ) ^ (-1074 : Int) := by
    show (10 : ℚ) ^ ((k : Int) - 1074) = _
    rw [sub_eq_add_neg, zpow_add₀ (by norm_num), zpow_natCast]
  have hv1 : (d : ℚ) * (10 : ℚ) ^ j ≤ num b := by
    rw [num_W, hj, ← mul_assoc]
    apply mul_le_mul_of_nonneg_right _ (ten_pos (-1074)).le
    have : d * 10 ^ k ≤ W b := Nat.div_mul_le_self _ _
    exact_mod_cast this
  have hv2 : num b ≤ ((d + 1 : Nat) : ℚ) * (10 : ℚ) ^ j := by
    rw [num_W, hj, ← mul_assoc]
    apply mul_le_mul_of_nonneg_right _ (ten_pos (-1074)).le
    have : W b ≤ (d + 1) * 10 ^ k := by
      have : (d + 1) * 10 ^ k = 10 ^ k * (W b / 10 ^ k) + 10 ^ k := by show (W b / 10 ^ k + 1) * 10 ^ k = _; ring
      omega
    exact_mod_cast this
  by_cases hjj : j ≤ j'
  · have hx : (d' : ℚ) * (10 : ℚ) ^ j' = ((d' * 10 ^ (j' - j).toNat : Nat) : ℚ) * (10 : ℚ) ^ j := by
      push_cast
      rw [mul_assoc, ← zpow_natCast, ← zpow_add₀ (by norm_num), show (((j' - j).toNat : Nat) : Int) + j = j' by omega]
    rw [hx]
    by_cases hle : d' * 10 ^ (j' - j).toNat ≤ d
    · exact .inl ⟨mul_le_mul_of_nonneg_right (by exact_mod_cast hle) hu.le, hv1⟩
    · exact .inr ⟨hv2, mul_le_mul_of_nonneg_right (by exact_mod_cast (show d + 1 ≤ d' * 10 ^ (j' - j).toNat by omega)) hu.le⟩
  · refine .inl ⟨?_, hv1⟩
    have h1 : (d' : ℚ) * (10 : ℚ) ^ j' ≤ (10 : ℚ) ^ n * (10 : ℚ) ^ j' := mul_le_mul_of_nonneg_right (by exact_mod_cast hd.le) (ten_pos j').le
    have h2 : (10 : ℚ) ^ n * (10 : ℚ) ^ j' ≤ (10 : ℚ) ^ (n - 1) * (10 : ℚ) ^ j := by
      rw [← zpow_natCast, ← zpow_natCast, ← zpow_add₀ (by norm_num), ← zpow_add₀ (by norm_num)]
      apply zpow_le_zpow_right₀ (by norm_num)
      omega
    have h3 : (10 : ℚ) ^ (n - 1) * (10 : ℚ) ^ j ≤ d * (10 : ℚ) ^ j := mul_le_mul_of_nonneg_right (by exact_mod_cast hd10) hu.le
    exact h1.trans (h2.trans h3)

/-- If some number of at most n digits reads back, then n digits are found. -/
theorem pick_some {b n d' : Nat} {j' : Int} (hb : W b ≠ 0) (hn : n ≤ len (W b)) (hn1 : 1 ≤ n) (h : Back b d' j') (hd : d' < 10 ^ n) :
    pick b n ≠ none := by
  have hs := sides hb hn hn1 (j' := j') hd
  unfold pick
  simp only at hs ⊢
  rcases hs with hs | hs
  · rw [if_pos ((back_mag _ _ _).2 (back_between h (.inl hs)))]
    split <;> simp
  · split
    · split <;> simp
    · rw [if_pos ((back_mag _ _ _).2 (back_between h (.inr hs)))]
      simp

theorem pick_spec {b n d : Nat} {j : Int} (hb : W b ≠ 0) (hn : n ≤ len (W b)) (hn1 : 1 ≤ n) (h : pick b n = some (d, j)) :
    Back b d j ∧ 0 < d ∧ d ≤ 10 ^ n ∧ j = (len (W b) - n : Nat) - 1074 ∧
    (∀ d' j', Back b d' j' → d' < 10 ^ n → |d * (10 : ℚ) ^ j - num b| ≤ |d' * (10 : ℚ) ^ j' - num b|) ∧
    ((∀ d' j', Back b d' j' → d' < 10 ^ n → |d * (10 : ℚ) ^ j - num b| = |d' * (10 : ℚ) ^ j' - num b| → d' * (10 : ℚ) ^ j' = d * (10 : ℚ) ^ j) ∨
      d % 2 = 0 ∧ 2 * W b = (2 * (W b / 10 ^ (len (W b) - n)) + 1) * 10 ^ (len (W b) - n) ∧
        (d = W b / 10 ^ (len (W b) - n) ∨ d = W b / 10 ^ (len (W b) - n) + 1)) := by
  have hs := fun d' j' (hd : d' < 10 ^ n) => sides hb hn hn1 (j' := j') hd
  obtain ⟨l1, l2, -⟩ := natDigits_len (W b)
  have l2 := l2 hb
  unfold pick at h
  simp only at hs h
  generalize hk : len (W b) - n = k at *
  have hL : len (W b) = k + n := by omega
  rw [hL] at l1 l2
  have hkp : 0 < 10 ^ k := by positivity
  have hdm := Nat.div_add_mod (W b) (10 ^ k)
  have hml := Nat.mod_lt (W b) hkp
  have hdlt : W b / 10 ^ k < 10 ^ n := by
    rw [Nat.div_lt_iff_lt_mul hkp, ← Nat.pow_add, Nat.add_comm n k]; exact l1
  have hdpos : 0 < W b / 10 ^ k := by
    apply Nat.div_pos _ hkp
    have : 10 ^ (k + n) = 10 * 10 ^ (k + (n - 1)) := by rw [← Nat.pow_succ', show (k + (n - 1)).succ = k + n by omega]
    have h2 : 10 ^ k ≤ 10 ^ (k + (n - 1)) := Nat.pow_le_pow_right (by omega) (by omega)
    omega
  generalize hj : (k : Int) - 1074 = j0 at *
  have hu := ten_pos j0
  have hju : (10 : ℚ) ^ j0 = 10 ^ k * (10 : ℚ) ^ (-1074 : Int) := by
    rw [← hj, sub_eq_add_neg, zpow_add₀ (by norm_num), zpow_natCast]
  have hvr : num b = ((W b / 10 ^ k : Nat) : ℚ) * (10 : ℚ) ^ j0 + (W b % 10 ^ k : Nat) * (10 : ℚ) ^ (-1074 : Int) := by
    have : (W b : ℚ) = (W b / 10 ^ k : Nat) * 10 ^ k + (W b % 10 ^ k : Nat) := by
      have : W b = W b / 10 ^ k * 10 ^ k + W b % 10 ^ k := by rw [Nat.mul_comm]; exact hdm.symm
      exact_mod_cast this
    rw [num_W, hju, ← mul_assoc, ← add_mul, ← this]
  generalize W b / 10 ^ k = D at *
  generalize hR : W b % 10 ^ k = R at *
  have ht := ten_pos (-1074)
  -- the distances of both candidates
  have dl : |(D : ℚ) * (10 : ℚ) ^ j0 - num b| = R * (10 : ℚ) ^ (-1074 : Int) := by
    rw [hvr, abs_sub_comm, abs_of_nonneg] <;> [ring; skip]
    have := mul_nonneg (Nat.cast_nonneg R : (0 : ℚ) ≤ R) ht.le
    linarith
  have du : |((D + 1 : Nat) : ℚ) * (10 : ℚ) ^ j0 - num b| = (10 ^ k - R) * (10 : ℚ) ^ (-1074 : Int) := by
    have e : ((D + 1 : Nat) : ℚ) * (10 : ℚ) ^ j0 - num b = (10 ^ k - R) * (10 : ℚ) ^ (-1074 : Int) := by
      generalize (10 : ℚ) ^ (-1074 : Int) = ε at *
      rw [hvr]; push_cast; rw [hju]; ring
    rw [e, abs_of_nonneg]
    apply mul_nonneg _ ht.le
    have : (R : ℚ) ≤ 10 ^ k := by exact_mod_cast hml.le
    linarith
  have low' : ∀ {x : ℚ}, x ≤ (D : ℚ) * (10 : ℚ) ^ j0 → (D : ℚ) * (10 : ℚ) ^ j0 ≤ num b → |(D : ℚ) * (10 : ℚ) ^ j0 - num b| ≤ |x - num b| := by
    intro x h1 h2
    rw [abs_sub_comm, abs_sub_comm x, abs_of_nonneg (by linarith), abs_of_nonneg (by linarith)]; linarith
  have up' : ∀ {x : ℚ}, num b ≤ ((D + 1 : Nat) : ℚ) * (10 : ℚ) ^ j0 → ((D + 1 : Nat) : ℚ) * (10 : ℚ) ^ j0 ≤ x →
      |((D + 1 : Nat) : ℚ) * (10 : ℚ) ^ j0 - num b| ≤ |x - num b| := by
    intro x h1 h2
    rw [abs_of_nonneg (by linarith), abs_of_nonneg (by linarith)]; linarith
  have ltl : ∀ {x : ℚ}, x < (D : ℚ) * (10 : ℚ) ^ j0 → (D : ℚ) * (10 : ℚ) ^ j0 ≤ num b → |(D : ℚ) * (10 : ℚ) ^ j0 - num b| < |x - num b| := by
    intro x h1 h2
    rw [abs_sub_comm, abs_sub_comm x, abs_of_nonneg (by linarith), abs_of_nonneg (by linarith)]; linarith
  have ltu : ∀ {x : ℚ}, num b ≤ ((D + 1 : Nat) : ℚ) * (10 : ℚ) ^ j0 → ((D + 1 : Nat) : ℚ) * (10 : ℚ) ^ j0 < x →
      |((D + 1 : Nat) : ℚ) * (10 : ℚ) ^ j0 - num b| < |x - num b| := by
    intro x h1 h2
    rw [abs_of_nonneg (by linarith), abs_of_nonneg (by linarith)]; linarith
  have tie : 10 ^ k = 2 * R → 2 * W b = (2 * D + 1) * 10 ^ k := by
    intro ht
    rw [← hdm]
    have : (2 * D + 1) * 10 ^ k = 2 * (10 ^ k * D) + 10 ^ k := by ring
    omega
  by_cases ok : mag 10 D j0 = b
  · rw [if_pos ok] at h
    by_cases c : mag 10 (D + 1) j0 = b ∧ (10 ^ k < 2 * R ∨ 10 ^ k = 2 * R ∧ D % 2 = 1)
    · rw [if_pos c] at h
      simp only [Option.some.injEq, Prod.mk.injEq] at h
      obtain ⟨rfl, rfl⟩ := h
      refine ⟨(back_mag _ _ _).1 c.1, by omega, by omega, rfl, fun d' j' hb' hd' => ?_, ?_⟩
      rcases hs d' j' hd' with ⟨h1, h2⟩ | ⟨h1, h2⟩
      · refine le_trans ?_ (low' h1 h2)
        rw [dl, du]
        apply mul_le_mul_of_nonneg_right _ ht.le
        have : (10 : ℚ) ^ k ≤ 2 * R := by exact_mod_cast (show 10 ^ k ≤ 2 * R by omega)
        linarith
      · exact up' h1 h2
      · rcases c.2 with c2 | ⟨c2, c3⟩
        · refine .inl fun d' j' hb' hd' he => ?_
          rcases hs d' j' hd' with ⟨h1, h2⟩ | ⟨h1, h2⟩
          · exfalso
            have := low' h1 h2
            rw [← he, dl, du] at this
            have := le_of_mul_le_mul_right this ht
            have h3 : (10 : ℚ) ^ k < 2 * R := by exact_mod_cast c2
            linarith
          · by_contra hne
            exact absurd he (ltu h1 (lt_of_le_of_ne h2 (Ne.symm hne))).ne
        · exact .inr ⟨by omega, tie c2, .inr rfl⟩
    · rw [if_neg c] at h
      simp only [Option.some.injEq, Prod.mk.injEq] at h
      obtain ⟨rfl, rfl⟩ := h
      refine ⟨(back_mag _ _ _).1 ok, hdpos, by omega, rfl, fun d' j' hb' hd' => ?_, ?_⟩
      rcases hs d' j' hd' with ⟨h1, h2⟩ | ⟨h1, h2⟩
      · exact low' h1 h2
      · refine le_trans ?_ (up' h1 h2)
        have hu' := (back_mag _ _ _).2 (back_between hb' (.inr ⟨h1, h2⟩))
        rw [dl, du]
        apply mul_le_mul_of_nonneg_right _ ht.le
        have : ¬ 10 ^ k < 2 * R := fun hlt => c ⟨hu', .inl hlt⟩
        have : (2 : ℚ) * R ≤ 10 ^ k := by exact_mod_cast (show 2 * R ≤ 10 ^ k by omega)
        linarith
      · by_cases ht2 : 10 ^ k = 2 * R ∧ D % 2 = 0
        · exact .inr ⟨ht2.2, tie ht2.1, .inl rfl⟩
        · refine .inl fun d' j' hb' hd' he => ?_
          rcases hs d' j' hd' with ⟨h1, h2⟩ | ⟨h1, h2⟩
          · by_contra hne
            exact absurd he (ltl (lt_of_le_of_ne h1 hne) h2).ne
          · exfalso
            have hu' := (back_mag _ _ _).2 (back_between hb' (.inr ⟨h1, h2⟩))
            have h3 : 2 * R < 10 ^ k := by
              by_contra h3
              refine c ⟨hu', ?_⟩
              by_cases h4 : 10 ^ k < 2 * R
              · exact .inl h4
              · refine .inr ⟨by omega, ?_⟩
                have : ¬ D % 2 = 0 := fun h5 => ht2 ⟨by omega, h5⟩
                omega
            have := up' h1 h2
            rw [← he, dl, du] at this
            have := le_of_mul_le_mul_right this ht
            have h3 : (2 : ℚ) * R < 10 ^ k := by exact_mod_cast h3
            linarith
  · rw [if_neg ok] at h
    split at h
    · rename_i oku
      simp only [Option.some.injEq, Prod.mk.injEq] at h
      obtain ⟨rfl, rfl⟩ := h
      refine ⟨(back_mag _ _ _).1 oku, by omega, by omega, rfl, fun d' j' hb' hd' => ?_, .inl fun d' j' hb' hd' he => ?_⟩
      rcases hs d' j' hd' with ⟨h1, h2⟩ | ⟨h1, h2⟩
      · exact absurd ((back_mag _ _ _).2 (back_between hb' (.inl ⟨h1, h2⟩))) ok
      · exact up' h1 h2
      rcases hs d' j' hd' with ⟨h1, h2⟩ | ⟨h1, h2⟩
      · exact absurd ((back_mag _ _ _).2 (back_between hb' (.inl ⟨h1, h2⟩))) ok
      · by_contra hne
        exact absurd he (ltu h1 (lt_of_le_of_ne h2 (Ne.symm hne))).ne
    · simp at h

theorem pick_exact (b : Nat) : Back b (W b) (-1074) := by
  unfold Back
  rw [← num_W]
  exact nearest_num b

theorem search_spec {b l : Nat} (hb : W b ≠ 0) (hl : len (W b) = l) (i : Nat) : ∀ n : Nat, 1 ≤ n → n + i = l + 1 →
    (∀ m, 1 ≤ m → m < n → pick b m = none) →
    ∃ m, 1 ≤ m ∧ m ≤ l ∧ (∀ m', 1 ≤ m' → m' < m → pick b m' = none) ∧ pick b m = some (search b i n) := by
  induction i with
  | zero =>
    intro n h1 h2 h3
    obtain ⟨l1, -, l3⟩ := natDigits_len (W b)
    rw [hl] at l1 l3
    have h4 := pick_some hb (by rw [hl]) l3 (pick_exact b) l1
    exact absurd (h3 l l3 (by omega)) h4
  | succ i ih =>
    intro n h1 h2 h3
    cases hp : pick b n with
    | some r =>
      refine ⟨n, h1, by omega, h3, ?_⟩
      rw [search, hp, Option.getD_some]
    | none =>
      have hs : search b (i + 1) n = search b i (n + 1) := by rw [search, hp, Option.getD_none]
      rw [hs]
      apply ih (n + 1) (by omega) (by omega)
      intro m hm1 hm2
      by_cases h : m = n
      · rw [h]; exact hp
      · exact h3 m hm1 (by omega)

theorem stripTo_spec : ∀ (i d : Nat) (j : Int), d ≤ i → d ≠ 0 → (stripTo i d j).1 % 10 ≠ 0 ∧ (stripTo i d j).1 ≤ d ∧ j ≤ (stripTo i d j).2 ∧
    d = (stripTo i d j).1 * 10 ^ ((stripTo i d j).2 - j).toNat
  | 0, d, j, hi, hd => absurd (Nat.le_zero.1 hi) hd
  | i + 1, d, j, hi, hd => by
    rw [stripTo]
    split
    · rename_i h
      obtain ⟨h1, h2, h3, h4⟩ := stripTo_spec i (d / 10) (j + 1) (by omega) (by omega)
      refine ⟨h1, by omega, by omega, ?_⟩
      generalize stripTo i (d / 10) (j + 1) = r at *
      have : (r.2 - j).toNat = (r.2 - (j + 1)).toNat + 1 := by omega
      rw [this, Nat.pow_succ, ← Nat.mul_assoc, ← h4]
      omega
    · rename_i h
      simp only [ne_eq, hd, not_false_eq_true, true_and] at h
      exact ⟨h, by simp, by simp, by simp⟩

theorem strip_spec (d : Nat) (j : Int) (hd : d ≠ 0) : (strip d j).1 % 10 ≠ 0 ∧ (strip d j).1 ≤ d ∧ j ≤ (strip d j).2 ∧
    d = (strip d j).1 * 10 ^ ((strip d j).2 - j).toNat := stripTo_spec d d j (Nat.le_refl d) hd

theorem stripTo_pow (n : Nat) : ∀ (i : Nat) (j : Int), 10 ^ n ≤ i → stripTo i (10 ^ n) j = (1, j + n) := by
  induction n with
  | zero =>
    intro i j h
    cases i with
    | zero => simp at h
    | succ i => rw [stripTo]; simp
  | succ n ih =>
    intro i j h
    have hp : 0 < 10 ^ n := by positivity
    rw [Nat.pow_succ] at h
    cases i with
    | zero => omega
    | succ i =>
      rw [stripTo, if_pos ⟨by positivity, by rw [Nat.pow_succ]; omega⟩, Nat.pow_succ, Nat.mul_div_cancel _ (by omega), ih i _ (by omega)]
      simp; omega

theorem strip_pow (n : Nat) (j : Int) : strip (10 ^ n) j = (1, j + n) := stripTo_pow n _ j (Nat.le_refl _)

theorem mag_zero (j : Int) : mag 10 0 j = 0 := by
  have h := nearest_self 0 (10 ^ (-j).toNat) (by positivity)
  have h0 : V 0 = 0 := by unfold V; simp
  rw [h0, Nat.zero_mul] at h
  unfold mag
  rw [Nat.zero_mul, Nat.zero_mul]
  exact h

theorem back_zero {b : Nat} {j : Int} (h : Back b 0 j) : b = 0 := by
  rw [← (back_mag b 0 j).2 h, mag_zero]

theorem W_pos {b : Nat} (hb : b ≠ 0) : W b ≠ 0 := by
  have hV : V b ≠ 0 := by
    have : V 0 < V b := V_strictMono (by omega)
    omega
  unfold W
  exact Nat.mul_ne_zero hV (pow_pos (by omega) _).ne'

theorem strip_value (d : Nat) (j : Int) (hd : d ≠ 0) : ((strip d j).1 : ℚ) * (10 : ℚ) ^ (strip d j).2 = d * (10 : ℚ) ^ j := by
  obtain ⟨-, -, s3, s4⟩ := strip_spec d j hd
  have : (d : ℚ) = (strip d j).1 * 10 ^ ((strip d j).2 - j).toNat := by exact_mod_cast s4
  rw [this, mul_assoc, ← zpow_natCast, ← zpow_add₀ (by norm_num), show ((((strip d j).2 - j).toNat : Nat) : Int) + j = (strip d j).2 by omega]

theorem strip_lt {d n : Nat} {j : Int} (hd : d ≠ 0) (hn : 1 ≤ n) (h : d ≤ 10 ^ n) : (strip d j).1 < 10 ^ n := by
  obtain ⟨-, s2, -, -⟩ := strip_spec d j hd
  by_cases h : d = 10 ^ n
  · rw [h, strip_pow]
    exact Nat.one_lt_pow (by omega) (by omega)
  · omega

theorem V_19 {b : Nat} (h : 19 ≤ V b) : 19 * 2 ^ (b / 4503599627370496 - 1) ≤ V b := by
  unfold V at *
  by_cases h0 : b / 4503599627370496 = 0
  · rw [if_pos h0] at h ⊢
    have e : 2 ^ (b / 4503599627370496 - 1) = 1 := by rw [h0]; rfl
    rw [e] at h ⊢
    omega
  · rw [if_neg h0]
    exact Nat.mul_le_mul_right _ (by omega)

theorem dvd_19 {v f T : Nat} (hf : Nat.Coprime 19 f) (h : 2 * (v * f) = (2 * 9 + 1) * T) : 19 ∣ v := by
  have h1 : 19 ∣ 2 * (v * f) := ⟨T, h⟩
  have h2 : 19 ∣ v * f := Nat.Coprime.dvd_of_dvd_mul_left (by decide) h1
  exact Nat.Coprime.dvd_of_dvd_mul_right hf h2

theorem high_arith {X f t v v' : Nat} (hp : 0 < t) (h : 2 * (X * t) ≤ (v + v') * (f * t)) : 2 * X ≤ v * f + v' * f := by
  apply Nat.le_of_mul_le_mul_right _ hp
  calc 2 * X * t = 2 * (X * t) := by ring
    _ ≤ (v + v') * (f * t) := h
    _ = _ := by ring

theorem back_high {b X : Nat} (h : Back b X (-1074)) : 2 * X ≤ W b + W (b + 1) := by
  rw [← back_mag] at h
  have e : mag 10 X (-1074) = nearest (X * 2 ^ 1074) (10 ^ 1074) := by
    unfold mag
    simp only [Int.reduceNeg, Int.reduceToNat, Int.neg_neg, pow_zero, mul_one]
  have hten : (10 : Nat) ^ 1074 = 5 ^ 1074 * 2 ^ 1074 := by rw [← Nat.mul_pow]
  have hW : ∀ c, W c = V c * 5 ^ 1074 := by intro c; unfold W; rfl
  rw [e, nearest_eq (pow_pos (by omega) _), hten] at h
  rw [hW, hW]
  have hh := h.high.1
  have hp : 0 < 2 ^ 1074 := pow_pos (by omega) _
  clear h e hten hW
  generalize (2 : Nat) ^ 1074 = t at *
  generalize (5 : Nat) ^ 1074 = f at *
  exact high_arith hp hh

theorem nine_arith {v g f T : Nat} (hv : 19 ≤ v) (hf : 0 < f) (h : 2 * (v * f) = (2 * 9 + 1) * T) (hg : 19 * g ≤ v)
    (hu : 2 * (10 * T) ≤ v * f + (v + g) * f) : False := by
  have e1 : (v + g) * f = v * f + g * f := by ring
  have hgf : 19 * (g * f) ≤ v * f := by
    calc 19 * (g * f) = 19 * g * f := by ring
      _ ≤ _ := Nat.mul_le_mul_right f hg
  have : 0 < v * f := Nat.mul_pos (by omega) hf
  omega

theorem nine_back {b k : Nat} (h' : Back b 10 (k - 1074)) : Back b (10 * 10 ^ k) (-1074) := by
  unfold Back at *
  have e : ((10 : Nat) : ℚ) * 10 ^ ((k : Int) - 1074) = ((10 * 10 ^ k : Nat) : ℚ) * 10 ^ (-1074 : Int) := by
    rw [sub_eq_add_neg, zpow_add₀ (by norm_num), zpow_natCast]
    push_cast
    rw [mul_assoc]
  rw [← e]
  exact h'

/-- No float is 95 * 10^j such that both 9 * 10^(j+1) and 10^(j+2) read back as it. -/
theorem no_nine {b k : Nat} (hb : b ≠ 0) (h : 2 * W b = (2 * 9 + 1) * 10 ^ k) (h' : Back b 10 (k - 1074)) : False := by
  have hu := back_high (nine_back h')
  have hW : ∀ c, W c = V c * 5 ^ 1074 := by intro c; unfold W; rfl
  have hc : Nat.Coprime 19 (5 ^ 1074) := Nat.Coprime.pow_right 1074 (show Nat.Coprime 19 5 by decide)
  have hf : 0 < 5 ^ 1074 := pow_pos (by omega) _
  have hW0 := W_pos hb
  rw [hW] at h hW0
  rw [hW, hW, V_succ] at hu
  clear hW
  generalize (5 : Nat) ^ 1074 = f at *
  have hV0 : V b ≠ 0 := fun h0 => hW0 (by rw [h0, Nat.zero_mul])
  have h19' : 19 ≤ V b := Nat.le_of_dvd (Nat.pos_of_ne_zero hV0) (dvd_19 hc h)
  exact nine_arith h19' hf h (V_19 h19') hu

/-- The digits found are the shortest. -/
theorem shortest_spec {b : Nat} (hb : b ≠ 0) : Shortest b (shortest b).1 (shortest b).2 := by
  have hW := W_pos hb
  obtain ⟨n, h1, h2, h3, h4⟩ := search_spec hW rfl (len (W b)) 1 (by omega) (by omega) (by omega)
  have hsh : shortest b = strip (search b (len (W b)) 1).1 (search b (len (W b)) 1).2 := rfl
  rw [hsh]
  generalize search b (len (W b)) 1 = r at h4
  obtain ⟨d, j⟩ := r
  obtain ⟨p1, p2, p3, p4, p5, p6⟩ := pick_spec hW h2 h1 h4
  show Shortest b (strip d j).1 (strip d j).2
  have hd0 : d ≠ 0 := by omega
  have hval := strip_value d j hd0
  have hlt := strip_lt (j := j) hd0 h1 p3
  have hback : Back b (strip d j).1 (strip d j).2 := by
    unfold Back
    rw [hval]
    exact p1
  have hkn : ∀ {k}, 10 ^ k ≤ 10 * (strip d j).1 → k ≤ n := by
    intro k hk
    by_contra hlt'
    have : 10 ^ (n + 1) ≤ 10 ^ k := Nat.pow_le_pow_right (by omega) (by omega)
    rw [Nat.pow_succ] at this
    omega
  refine ⟨hback, (strip_spec d j hd0).1, fun k d' j' hB hd => ?_, fun k d' j' hB hd hk => ?_, fun k d' j' hB hd hk he => ?_⟩
  · have hk1 : 1 ≤ k := by
      rcases Nat.eq_zero_or_pos k with rfl | h
      · have : d' = 0 := by simpa using hd
        subst this
        exact absurd (back_zero hB) hb
      · exact h
    have hnk : n ≤ k := by
      by_contra hlt'
      exact pick_some hW (by omega) hk1 hB hd (h3 k hk1 (by omega))
    exact lt_of_lt_of_le hlt (Nat.pow_le_pow_right (by omega) hnk)
  · rw [hval]
    exact p5 d' j' hB (lt_of_lt_of_le hd (Nat.pow_le_pow_right (by omega) (hkn hk)))
  · rw [hval] at he ⊢
    rcases p6 with p6 | ⟨e1, e2, e3⟩
    · exact .inl (p6 d' j' hB (lt_of_lt_of_le hd (Nat.pow_le_pow_right (by omega) (hkn hk))) he)
    · right
      by_cases hd10 : d % 10 = 0
      · exfalso
        obtain ⟨s1, s2, s3, s4⟩ := strip_spec d j hd0
        have hs10 : (strip d j).1 ≤ d / 10 := by
          generalize strip d j = r at *
          obtain ⟨m, hm⟩ : ∃ m, (r.2 - j).toNat = m + 1 := by
            refine ⟨(r.2 - j).toNat - 1, ?_⟩
            by_contra h0
            have : (r.2 - j).toNat = 0 := by omega
            rw [this] at s4
            omega
          rw [hm, Nat.pow_succ, ← Nat.mul_assoc] at s4
          have : r.1 ≤ r.1 * 10 ^ m := Nat.le_mul_of_pos_right _ (by positivity)
          omega
        by_cases hn1 : n = 1
        · subst hn1
          have hd : d = 10 := by omega
          have hD : W b / 10 ^ (len (W b) - 1) < 10 := by
            rw [Nat.div_lt_iff_lt_mul (by positivity), ← Nat.pow_succ', show (len (W b) - 1).succ = len (W b) by omega]
            exact (natDigits_len (W b)).1
          have hD9 : W b / 10 ^ (len (W b) - 1) = 9 := by omega
          rw [hD9] at e2
          subst hd
          rw [p4] at p1
          exact no_nine hb e2 p1
        · refine pick_some hW (by omega) (by omega) hback ?_ (h3 (n - 1) (by omega) (by omega))
          by_cases hp : d = 10 ^ n
          · rw [hp, strip_pow]
            exact Nat.one_lt_pow (by omega) (by omega)
          · have : 10 ^ n = 10 * 10 ^ (n - 1) := by rw [← Nat.pow_succ', show (n - 1).succ = n by omega]
            omega
      · have : strip d j = (d, j) := by
          unfold strip
          cases d with
          | zero => rfl
          | succ d => rw [stripTo, if_neg (by omega)]
        rw [this]
        exact e1

end Gears.Strconv
