import Verif.Strconv.Shortest

/-
No float64 needs more than 17 digits.
-/

namespace Gears.Strconv

attribute [local irreducible] V mag

/-- The distance to the next number. -/
def gap (b : Nat) : Nat := 2 ^ (b / 4503599627370496 - 1)

theorem V_gap (b : Nat) : V b + gap b ≤ 9007199254740992 * gap b := by
  unfold V gap
  generalize hg : 2 ^ (b / 4503599627370496 - 1) = g
  by_cases h : b / 4503599627370496 = 0
  · rw [if_pos h]
    have : b % 4503599627370496 + 1 ≤ 9007199254740992 := by omega
    calc b % 4503599627370496 * g + g = (b % 4503599627370496 + 1) * g := by ring
      _ ≤ _ := Nat.mul_le_mul_right g this
  · rw [if_neg h]
    have : 4503599627370496 + b % 4503599627370496 + 1 ≤ 9007199254740992 := by omega
    calc (4503599627370496 + b % 4503599627370496) * g + g = (4503599627370496 + b % 4503599627370496 + 1) * g := by ring
      _ ≤ _ := Nat.mul_le_mul_right g this

theorem V_next (b : Nat) : V (b + 1) = V b + gap b := V_succ b

/-- An integer multiple of 10^-1074 reads back as b, if it is nearer to b than to the numbers before and after. -/
theorem back_W {b X : Nat} (h1 : ∀ a, b = a + 1 → W a + W b < 2 * X) (h2 : 2 * X < W b + W (b + 1)) : Back b X (-1074) := by
  rw [← back_mag]
  have e : mag 10 X (-1074) = nearest (X * 2 ^ 1074) (10 ^ 1074) := by
    unfold mag
    simp only [Int.reduceNeg, Int.reduceToNat, Int.neg_neg, pow_zero, mul_one]
  have hten : (10 : Nat) ^ 1074 = 5 ^ 1074 * 2 ^ 1074 := by rw [← Nat.mul_pow]
  have hW : ∀ c, W c = V c * 5 ^ 1074 := by intro c; unfold W; rfl
  rw [e, nearest_eq (pow_pos (by omega) _), hten]
  have hp : 0 < 2 ^ 1074 := pow_pos (by omega) _
  rw [hW, hW] at h2
  simp only [hW] at h1
  generalize (2 : Nat) ^ 1074 = t at *
  generalize (5 : Nat) ^ 1074 = f at *
  constructor
  · intro a ha
    have h := Nat.mul_lt_mul_of_pos_right (h1 a ha) hp
    have e1 : (V a * f + V b * f) * t = (V a + V b) * (f * t) := by ring
    have e2 : 2 * X * t = 2 * (X * t) := by ring
    rw [e1, e2] at h
    exact ⟨h.le, fun he => by omega⟩
  · have h := Nat.mul_lt_mul_of_pos_right h2 hp
    have e1 : (V b * f + V (b + 1) * f) * t = (V b + V (b + 1)) * (f * t) := by ring
    have e2 : 2 * X * t = 2 * (X * t) := by ring
    rw [e1, e2] at h
    exact ⟨h.le, fun he => by omega⟩

theorem back_shift {b d k : Nat} (h : Back b (d * 10 ^ k) (-1074)) : Back b d (k - 1074) := by
  unfold Back at *
  have e : (d : ℚ) * 10 ^ ((k : Int) - 1074) = ((d * 10 ^ k : Nat) : ℚ) * 10 ^ (-1074 : Int) := by
    rw [sub_eq_add_neg, zpow_add₀ (by norm_num), zpow_natCast]
    push_cast
    rw [mul_assoc]
  rw [e]
  exact h

/-- 17 digits are enough. -/
theorem shortest_17 {b d : Nat} {j : Int} (hb : b ≠ 0) (h : Shortest b d j) : d < 10 ^ 17 := by
  have hW := W_pos hb
  obtain ⟨l1, l2, -⟩ := natDigits_len (W b)
  have l2 := l2 hW
  by_cases hl : len (W b) ≤ 17
  · exact h.least 17 _ _ (pick_exact b) (lt_of_lt_of_le l1 (Nat.pow_le_pow_right (by omega) hl))
  · obtain ⟨k, hk⟩ : ∃ k, len (W b) = k + 17 := ⟨len (W b) - 17, by omega⟩
    rw [hk] at l1 l2
    obtain ⟨a, rfl⟩ : ∃ a, b = a + 1 := ⟨b - 1, by omega⟩
    have hf : 0 < 5 ^ 1074 := pow_pos (by omega) _
    have ga := V_gap a
    have gb := V_gap (a + 1)
    have na := V_next a
    have nb := V_next (a + 1)
    have eW : ∀ c, W c = V c * 5 ^ 1074 := by intro c; unfold W; rfl
    have hk10 : 0 < 10 ^ k := by positivity
    have p17 : 10 ^ (k + 17) = 100000000000000000 * 10 ^ k := by rw [Nat.pow_add]; ring
    rw [p17] at l1 l2
    have hdm := Nat.div_add_mod (W (a + 1)) (10 ^ k)
    have hml := Nat.mod_lt (W (a + 1)) hk10
    -- the gaps are larger than 10^k
    have wa : W (a + 1) = W a + gap a * 5 ^ 1074 := by rw [eW, eW, na]; ring
    have wb : W (a + 1 + 1) = W (a + 1) + gap (a + 1) * 5 ^ 1074 := by rw [eW, eW, nb]; ring
    have ba : W (a + 1) ≤ 9007199254740992 * (gap a * 5 ^ 1074) := by
      rw [eW, na, ← Nat.mul_assoc]; exact Nat.mul_le_mul_right _ ga
    have bb : W (a + 1) ≤ 9007199254740992 * (gap (a + 1) * 5 ^ 1074) := by
      rw [eW, ← Nat.mul_assoc]; exact Nat.mul_le_mul_right _ (by omega)
    generalize gap a * 5 ^ 1074 = A at *
    generalize gap (a + 1) * 5 ^ 1074 = B at *
    generalize hD : W (a + 1) / 10 ^ k = D at *
    generalize hR : W (a + 1) % 10 ^ k = R at *
    generalize hT : 10 ^ k = T at *
    have hdt : T * D = D * T := Nat.mul_comm _ _
    have hD17 : D < 100000000000000000 := by
      by_contra hge
      have := Nat.mul_le_mul_left T (show 100000000000000000 ≤ D by omega)
      rw [hdm.symm] at l1
      omega
    by_cases hr : 2 * R ≤ T
    · have : Back (a + 1) (D * T) (-1074) := by
        apply back_W
        · intro a' ha'
          have : a' = a := by omega
          subst this
          omega
        · omega
      rw [← hT] at this
      exact h.least 17 _ _ (back_shift this) (by norm_num; omega)
    · have e1 : (D + 1) * T = D * T + T := by ring
      have : Back (a + 1) ((D + 1) * T) (-1074) := by
        apply back_W
        · intro a' ha'
          have : a' = a := by omega
          subst this
          omega
        · omega
      by_cases h17 : D + 1 < 100000000000000000
      · rw [← hT] at this
        exact h.least 17 _ _ (back_shift this) (by norm_num; omega)
      · have hD' : D + 1 = 10 ^ 17 := by norm_num; omega
        have e2 : (D + 1) * T = 1 * 10 ^ (k + 17) := by rw [hD', ← hT, Nat.pow_add]; ring
        rw [e2] at this
        exact h.least 17 _ _ (back_shift this) (by norm_num)

end Gears.Strconv
