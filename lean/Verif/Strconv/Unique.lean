import Verif.Strconv.Format

/-
There is one text for each float64.
-/

namespace Gears.Strconv

open Gears.Str (Bytes natDigits)

attribute [local irreducible] V mag

theorem shift_val (d m : Nat) (j : Int) : (d : ℚ) * 10 ^ (j + m) = ((d * 10 ^ m : Nat) : ℚ) * 10 ^ j := by
  rw [zpow_add₀ (by norm_num), zpow_natCast]
  push_cast
  ring

/-- Numbers without zeros at the end are equal only if their digits are. -/
theorem trim_eq {d d' : Nat} {j j' : Int} (h : d % 10 ≠ 0) (h' : d' % 10 ≠ 0) (he : d * (10 : ℚ) ^ j = d' * (10 : ℚ) ^ j') : d = d' ∧ j = j' := by
  have key : ∀ {d d' : Nat} {j j' : Int}, d % 10 ≠ 0 → d' % 10 ≠ 0 → d * (10 : ℚ) ^ j = d' * (10 : ℚ) ^ j' → j ≤ j' → d = d' ∧ j = j' := by
    intro d d' j j' h h' he hle
    obtain ⟨m, rfl⟩ : ∃ m : Nat, j' = j + m := ⟨(j' - j).toNat, by omega⟩
    rw [shift_val] at he
    have he := mul_right_cancel₀ (ten_pos j).ne' he
    have he : d = d' * 10 ^ m := by exact_mod_cast he
    cases m with
    | zero => simpa using he
    | succ m => rw [Nat.pow_succ, ← Nat.mul_assoc] at he; omega
  rcases Int.le_total j j' with hle | hle
  · exact key h h' he hle
  · obtain ⟨h1, h2⟩ := key h' h he.symm hle
    exact ⟨h1.symm, h2.symm⟩

/-- The number of digits. -/
theorem digits_of (d : Nat) (h : d ≠ 0) : ∃ n, d < 10 ^ n ∧ 10 ^ n ≤ 10 * d := ⟨len d, (natDigits_len d).1, (natDigits_len d).2.1 h⟩

theorem Shortest.unique_lt {b d d' : Nat} {j j' : Int} (h : Shortest b d j) (h' : Shortest b d' j') (hlt : d * (10 : ℚ) ^ j < d' * (10 : ℚ) ^ j') : False := by
  obtain ⟨n, hn1, hn2⟩ := digits_of d (by have := h.trim; omega)
  have hd' : d' < 10 ^ n := h'.least n d j h.back hn1
  have hn2' : 10 ^ n ≤ 10 * d' := by
    by_contra hlt
    obtain ⟨m, hm1, hm2⟩ := digits_of d' (by have := h'.trim; omega)
    have hmn : m < n := by
      by_contra hge
      have := Nat.pow_le_pow_right (show 0 < 10 by omega) (show n ≤ m by omega)
      omega
    have h1 := h.least m d' j' h'.back hm1
    have h2 : 10 ^ (m + 1) ≤ 10 ^ n := Nat.pow_le_pow_right (by omega) (by omega)
    rw [Nat.pow_succ] at h2
    omega
  have a1 := h.near n d' j' h'.back hd' hn2
  have a2 := h'.near n d j h.back hn1 hn2'
  have ev := (h.even n d' j' h'.back hd' hn2 (le_antisymm a1 a2)).resolve_left hlt.ne'
  have he := le_antisymm a1 a2
  -- b is in the middle
  have hm : 2 * num b = d * (10 : ℚ) ^ j + d' * (10 : ℚ) ^ j' := by
    rcases abs_eq_abs.1 he with e | e
    · exact absurd (sub_left_inj.1 e) hlt.ne
    · linarith
  -- nothing is between
  have none : ∀ (c : Nat) (i : Int), c < 10 ^ n → d * (10 : ℚ) ^ j < c * (10 : ℚ) ^ i → c * (10 : ℚ) ^ i < d' * (10 : ℚ) ^ j' → False := by
    intro c i hc h1 h2
    have hB : Back b c i := by
      rcases le_total (c * (10 : ℚ) ^ i) (num b) with hle | hle
      · exact back_between h.back (.inl ⟨h1.le, hle⟩)
      · exact back_between h'.back (.inr ⟨hle, h2.le⟩)
    have hnear := h.near n c i hB hc hn2
    rw [abs_sub_comm, abs_of_nonneg (by linarith)] at hnear
    rcases le_abs.1 hnear with h3 | h3 <;> linarith
  have hu := ten_pos j
  have hjj : j ≤ j' := by
    by_contra hgt
    obtain ⟨m, hm⟩ : ∃ m : Nat, j = j' + (m + 1 : Nat) := ⟨(j - j' - 1).toNat, by omega⟩
    rw [hm, shift_val] at hlt
    have hlt := lt_of_mul_lt_mul_right hlt (ten_pos j').le
    have hlt : d * 10 ^ (m + 1) < d' := by exact_mod_cast hlt
    have : d * 10 ≤ d * 10 ^ (m + 1) := Nat.mul_le_mul_left d (by rw [Nat.pow_succ]; have : 0 < 10 ^ m := by positivity
                                                                  omega)
    omega
  obtain ⟨m, rfl⟩ : ∃ m : Nat, j' = j + m := ⟨(j' - j).toNat, by omega⟩
  rw [shift_val] at hlt none
  have hlt' : d < d' * 10 ^ m := by exact_mod_cast lt_of_mul_lt_mul_right hlt hu.le
  have hne : d + 1 ≠ d' * 10 ^ m := by
    intro e
    cases m with
    | zero =>
      have ev' := (h'.even n d j h.back hn1 hn2' he.symm).resolve_left (by rw [shift_val]; exact hlt.ne)
      simp at e
      omega
    | succ m => rw [Nat.pow_succ, ← Nat.mul_assoc] at e; omega
  have h1 : ((d : Nat) : ℚ) * 10 ^ j < ((d + 1 : Nat) : ℚ) * 10 ^ j := by
    apply mul_lt_mul_of_pos_right _ hu
    push_cast
    linarith
  have h2 : ((d + 1 : Nat) : ℚ) * 10 ^ j < ((d' * 10 ^ m : Nat) : ℚ) * 10 ^ j := by
    apply mul_lt_mul_of_pos_right _ hu
    exact_mod_cast (show d + 1 < d' * 10 ^ m by omega)
  by_cases hp : d + 1 < 10 ^ n
  · exact none (d + 1) j hp h1 h2
  · have hp : d + 1 = 1 * 10 ^ n := by omega
    rw [hp, ← shift_val] at h1 h2
    refine none 1 (j + n) ?_ h1 h2
    apply Nat.one_lt_pow _ (by omega)
    rintro rfl
    simp at hn1
    have := h.trim
    omega

theorem Shortest.unique {b d d' : Nat} {j j' : Int} (h : Shortest b d j) (h' : Shortest b d' j') : d = d' ∧ j = j' := by
  rcases lt_trichotomy (d * (10 : ℚ) ^ j) (d' * (10 : ℚ) ^ j') with hlt | he | hlt
  · exact (h.unique_lt h' hlt).elim
  · exact trim_eq h.trim h'.trim he
  · exact (h'.unique_lt h hlt).elim

theorem Plain.unique {d : Nat} {j : Int} {t t' : Bytes} (h : Plain d j t) (h' : Plain d j t') : t = t' := by
  have hl : 0 < (natDigits d).length := List.length_pos_iff.2 (natDigits_ne d)
  cases h with
  | @whole n h =>
    cases h' with
    | @whole n' h' => rw [show n = n' by omega]
    | point e ha hb h' => have := List.length_pos_iff.2 hb; omega
    | frac h' => omega
  | point e ha hb h =>
    have lb := List.length_pos_iff.2 hb
    have la := List.length_pos_iff.2 ha
    have le := congrArg List.length e
    rw [List.length_append] at le
    cases h' with
    | whole h' => omega
    | point e' ha' hb' h' =>
      rw [e] at e'
      obtain ⟨rfl, rfl⟩ := List.append_inj' e' (by omega)
      rfl
    | frac h' => omega
  | @frac n h =>
    cases h' with
    | whole h' => omega
    | point e ha hb h' =>
      have la := List.length_pos_iff.2 ha
      have le := congrArg List.length e
      rw [List.length_append] at le
      omega
    | @frac n' h' => rw [show n = n' by omega]

theorem Sci.unique {d : Nat} {j : Int} {t t' : Bytes} (h : Sci d j t) (h' : Sci d j t') : t = t' := by
  obtain @⟨c, r, e, x, e1, h1, h2⟩ := h
  obtain @⟨c', r', e', x', e1', h1', h2'⟩ := h'
  rw [e1] at e1'
  obtain ⟨rfl, rfl⟩ := List.cons.inj e1'
  have hx : x = x' := by omega
  subst hx
  have : e = e' := by
    rcases h2 with ⟨rfl, _⟩ | ⟨rfl, _⟩ <;> rcases h2' with ⟨rfl, _⟩ | ⟨rfl, _⟩ <;> first | rfl | omega
  rw [this]

theorem MagText.unique {b : Nat} {t t' : Bytes} (h : MagText b t) (h' : MagText b t') : t = t' := by
  rcases h with ⟨hb, rfl⟩ | ⟨hb, d, j, hs, hc⟩
  · rcases h' with ⟨-, rfl⟩ | ⟨hb', -⟩
    · rfl
    · exact absurd hb hb'
  · rcases h' with ⟨hb', -⟩ | ⟨-, d', j', hs', hc'⟩
    · exact absurd hb' hb
    · obtain ⟨rfl, rfl⟩ := hs.unique hs'
      rcases hc with ⟨hr, hc⟩ | ⟨hr, hc⟩ <;> rcases hc' with ⟨hr', hc'⟩ | ⟨hr', hc'⟩
      · exact hc.unique hc'
      · omega
      · omega
      · exact hc.unique hc'

end Gears.Strconv
