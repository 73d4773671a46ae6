import Verif.FixedWindow.Model

namespace Gears.FixedWindow

open Float64

/-! ### The float64 expression -/

/-- Distance bounds that pin the ceiling. -/
theorem ceil_of_close (x : ℚ) (d W k : ℤ) (hW : 0 < W) (err : ℚ) (hx : |x - d / W| ≤ err / W)
    (h1 : ((k - 1) * W + err : ℚ) < d) (h2 : (d + err : ℚ) ≤ k * W) : ⌈x⌉ = k := by
  have hWq : (0 : ℚ) < W := by exact_mod_cast hW
  rw [abs_le] at hx
  rw [Int.ceil_eq_iff]
  obtain ⟨ha, hb⟩ := hx
  constructor
  · have : (k - 1 : ℚ) < d / W - err / W := by
      rw [← sub_div, lt_div_iff₀ hWq]; linarith
    linarith
  · have : (d / W + err / W : ℚ) ≤ k := by
      rw [← add_div, div_le_iff₀ hWq]; linarith
    linarith

theorem goCeilDiv_small (d W k : ℤ) (hd : 0 < d) (hd2 : d < 2 ^ 53) (hW : 0 < W) (hW2 : W < 2 ^ 53)
    (h1 : (k - 1) * W < d) (h2 : d ≤ k * W) : goCeilDiv d W = k := by
  have hWq : (0 : ℚ) < W := by exact_mod_cast hW
  have hdq : (0 : ℚ) < d := by exact_mod_cast hd
  have hd2q : (d : ℚ) < 2 ^ 53 := by exact_mod_cast hd2
  unfold goCeilDiv ceilInt div ofInt
  rw [rnd_int_exact d (by rw [abs_of_pos hd]; exact hd2), rnd_int_exact W (by rw [abs_of_pos hW]; exact hW2)]
  rcases lt_or_eq_of_le h2 with hlt | heq
  · have herr := rnd_err ((d : ℚ) / W)
    have hq : (0 : ℚ) < (d : ℚ) / W := div_pos hdq hWq
    rw [abs_of_pos hq] at herr
    have h3 : (d : ℚ) / 2 ^ 53 < 1 := by rw [div_lt_one (by positivity)]; exact hd2q
    have h1' : ((k - 1) * W + 1 : ℚ) ≤ d := by exact_mod_cast h1
    have h2' : (d + 1 : ℚ) ≤ k * W := by exact_mod_cast hlt
    refine ceil_of_close _ d W k hW ((d : ℚ) / 2 ^ 53) ?_ ?_ ?_
    · calc _ ≤ _ := herr
        _ = _ := by field_simp
    · linarith
    · linarith
  · have hk0 : 0 < k := by
      rcases lt_trichotomy k 0 with h | h | h
      · nlinarith
      · subst h; omega
      · exact h
    have hkd : k ≤ d := by nlinarith
    have : (d : ℚ) / W = k := by rw [heq]; push_cast; field_simp
    rw [this, rnd_int_exact k (by rw [abs_of_pos hk0]; omega)]
    simp

theorem goCeilDiv_close (d W : ℤ) (hd : 0 < d) (hd2 : d < 2 ^ 63) (hW : 0 < W) (hW2 : W < 2 ^ 53) :
    |div (ofInt d) (ofInt W) - (d : ℚ) / W| ≤ 2049 / W - (1 / 2) / W := by
  have hWq : (0 : ℚ) < W := by exact_mod_cast hW
  have hdq : (0 : ℚ) < d := by exact_mod_cast hd
  have hd2q : (d : ℚ) < 2 ^ 63 := by exact_mod_cast hd2
  unfold div ofInt
  rw [rnd_int_exact W (by rw [abs_of_pos hW]; exact hW2)]
  have e1 := rnd_err (d : ℚ)
  rw [abs_of_pos hdq] at e1
  have e2 := rnd_err (rnd (d : ℚ) / W)
  have b1 : (d : ℚ) / 2 ^ 53 ≤ 1024 := by rw [div_le_iff₀ (by positivity)]; linarith
  have hr : |rnd (d : ℚ)| ≤ 2 ^ 63 + 1024 := by
    have := abs_sub_abs_le_abs_sub (rnd (d : ℚ)) d
    rw [abs_of_pos hdq] at this
    linarith
  have e2' : |rnd (d : ℚ) / W| / 2 ^ 53 ≤ (1024 + 1 / 2) / W := by
    rw [abs_div, abs_of_pos hWq, div_div, mul_comm, ← div_div]
    apply div_le_div_of_nonneg_right _ (le_of_lt hWq)
    rw [div_le_iff₀ (by positivity)]
    norm_num at hr ⊢
    linarith
  have e1' : |rnd (d : ℚ) / W - d / W| ≤ 1024 / W := by
    rw [← sub_div, abs_div, abs_of_pos hWq]
    exact div_le_div_of_nonneg_right (by linarith) (le_of_lt hWq)
  have tri : rnd (rnd (d : ℚ) / W) - (d : ℚ) / W
      = (rnd (rnd (d : ℚ) / W) - rnd (d : ℚ) / W) + (rnd (d : ℚ) / W - d / W) := by ring
  rw [tri]
  refine le_trans (abs_add_le _ _) ?_
  have : (2049 / W - (1 / 2) / W : ℚ) = (1024 + 1 / 2) / W + 1024 / W := by ring
  rw [this]
  linarith

theorem goCeilDiv_large (d W k : ℤ) (hd : 0 < d) (hd2 : d < 2 ^ 63) (hW : 0 < W) (hW2 : W < 2 ^ 53)
    (h1 : (k - 1) * W + 2049 ≤ d) (h2 : d + 2049 ≤ k * W) : goCeilDiv d W = k := by
  have h := goCeilDiv_close d W hd hd2 hW hW2
  have h1' : ((k - 1) * W + 2049 : ℚ) ≤ d := by exact_mod_cast h1
  have h2' : (d + 2049 : ℚ) ≤ k * W := by exact_mod_cast h2
  unfold goCeilDiv ceilInt
  refine ceil_of_close _ d W k hW (2049 - 1 / 2) ?_ ?_ ?_
  · rw [sub_div]; exact h
  · linarith
  · linarith

/-- The new end of the interval is never more than 2.049 microseconds before the request. -/
theorem goCeilDiv_under (d W : ℤ) (hd : 0 < d) (hd2 : d < 2 ^ 63) (hW : 0 < W) (hW2 : W < 2 ^ 53) :
    d ≤ goCeilDiv d W * W + 2049 := by
  have hWq : (0 : ℚ) < W := by exact_mod_cast hW
  have h := goCeilDiv_close d W hd hd2 hW hW2
  rw [abs_le] at h
  have hc := Int.le_ceil (div (ofInt d) (ofInt W))
  unfold goCeilDiv ceilInt
  have h3 : (d : ℚ) / W - 2049 / W ≤ ⌈div (ofInt d) (ofInt W)⌉ := by
    have : (0 : ℚ) < (1 / 2) / W := by positivity
    linarith [h.1]
  rw [← sub_div, div_le_iff₀ hWq] at h3
  have : (d : ℚ) ≤ ((⌈div (ofInt d) (ofInt W)⌉ * W + 2049 : ℤ) : ℚ) := by push_cast; linarith
  exact_mod_cast this

/-! ### Interval bookkeeping -/

/-- Number of admitted requests of a history in the `k`-th interval `((k-1)W, kW]`. -/
def admittedInInterval (h : History) (W k : Int) : Nat :=
  h.countP (fun e => e.2 && decide ((k - 1) * W < e.1) && decide (e.1 ≤ k * W))

theorem aii_append (a b : History) (W k : Int) :
    admittedInInterval (a ++ b) W k = admittedInInterval a W k + admittedInInterval b W k := by
  simp [admittedInInterval]

theorem aii_le_admitted (h : History) (W k : Int) : admittedInInterval h W k ≤ admitted h := by
  apply List.countP_mono_left
  intro e _ he
  simp at he ⊢; exact he.1.1

/-- The bookkeeping invariant; `b`/`j` are interval boundaries. With `ex` the current interval is exactly one window
long. -/
structure Inv (ex : Prop) (c W : Int) (old cur : History) (b j p : Int) (s : State) : Prop where
  hcap : s.capacity = c
  hwin : s.windowSize = W
  htill : s.till = j * W
  hcount : s.count = admitted cur
  hle  : s.count ≤ max c 0
  hold : ∀ e ∈ old, e.1 ≤ b * W
  hcur : ∀ e ∈ cur, b * W < e.1 ∧ e.1 ≤ j * W
  hbp  : b * W < p
  hpj  : p ≤ j * W
  hall : ∀ k, (admittedInInterval old W k : Int) ≤ max c 0
  hex  : ex → j = b + 1

theorem Inv.bound {ex : Prop} {c W : Int} {old cur : History} {b j p : Int} {s : State} (hW : 0 < W)
    (inv : Inv ex c W old cur b j p s) (k : Int) :
    (admittedInInterval (old ++ cur) W k : Int) ≤ max c 0 := by
  rw [aii_append]
  rcases Int.lt_or_le b k with hk | hk
  · -- nothing of `old` is in interval k
    have h0 : admittedInInterval old W k = 0 := by
      unfold admittedInInterval
      rw [List.countP_eq_zero]
      intro e he
      have h1 := inv.hold e he
      have h2 : b * W ≤ (k - 1) * W := Int.mul_le_mul_of_nonneg_right (by omega) (by omega)
      simp; omega
    have h1 := aii_le_admitted cur W k
    have h2 := inv.hcount
    have h3 := inv.hle
    omega
  · have h0 : admittedInInterval cur W k = 0 := by
      unfold admittedInInterval
      rw [List.countP_eq_zero]
      intro e he
      have h1 := (inv.hcur e he).1
      have h2 : k * W ≤ b * W := Int.mul_le_mul_of_nonneg_right hk (by omega)
      simp; omega
    have := inv.hall k
    omega

theorem admitted_snoc (h : History) (t : Int) (b : Bool) :
    (admitted (h ++ [(t, b)]) : Int) = admitted h + (if b then 1 else 0) := by
  cases b <;> simp [admitted]

/-- A request inside the current interval. -/
theorem acquire_in {ex : Prop} {c W : Int} {old cur : History} {b j p : Int} {s : State}
    (inv : Inv ex c W old cur b j p s) (t : Int) (hp : p ≤ t) (ht : t ≤ s.till) :
    Inv ex c W old (cur ++ [(t, (acquire s t).2)]) b j t (acquire s t).1 ∧
      ((acquire s t).2 = true ↔ (admitted cur : Int) < c) := by
  obtain ⟨hcap, hwin, htill, hcount, hle, hold, hcur, hbp, hpj, hall, hex⟩ := inv
  have hcont : contains s t := ht
  have hcur' : ∀ (x : Bool), ∀ e ∈ cur ++ [(t, x)], b * W < e.1 ∧ e.1 ≤ j * W := by
    intro x e he
    rcases List.mem_append.mp he with h | h
    · exact hcur e h
    · simp at h; subst h; simp only; omega
  unfold acquire
  simp only [hcont, not_true, if_false]
  split
  · rename_i hlt
    refine ⟨⟨hcap, hwin, htill, ?_, ?_, hold, hcur' _, by omega, by omega, hall, hex⟩, ?_⟩
    · rw [admitted_snoc]; simp; omega
    · simp only; omega
    · simp; omega
  · rename_i hlt
    refine ⟨⟨hcap, hwin, htill, ?_, hle, hold, hcur' _, by omega, by omega, hall, hex⟩, ?_⟩
    · rw [admitted_snoc]; simp; omega
    · simp; omega

/-- A request that opens a new interval. -/
theorem acquire_reset {ex : Prop} {c W : Int} (hW : 0 < W) {h : History} {j : Int} {s : State}
    (hcap : s.capacity = c) (hwin : s.windowSize = W) (htill : s.till = j * W)
    (hh : ∀ e ∈ h, e.1 ≤ j * W) (hall : ∀ k, (admittedInInterval h W k : Int) ≤ max c 0)
    (t : Int) (ht : s.till < t)
    (hgood : t ≤ s.till + goCeilDiv (t - s.till) W * W)
    (hexact : ex → s.till + (goCeilDiv (t - s.till) W - 1) * W < t) :
    Inv ex c W h [(t, (acquire s t).2)] ((t - 1) / W) (j + goCeilDiv (t - s.till) W) t (acquire s t).1 ∧
      ((acquire s t).2 = true ↔ 0 < c) := by
  have hcont : ¬ contains s t := by unfold contains; omega
  generalize hg : goCeilDiv (t - s.till) W = g at *
  have hb1 : (t - 1) / W * W < t := by have := Int.ediv_mul_le (t - 1) (by omega : W ≠ 0); omega
  have hb2 : t ≤ ((t - 1) / W + 1) * W := by
    have := Int.lt_ediv_add_one_mul_self (t - 1) hW; omega
  have hjb : j ≤ (t - 1) / W := by
    rw [Int.le_ediv_iff_mul_le hW]; omega
  have hmul : (j + g) * W = j * W + g * W := Int.add_mul j g W
  have hex' : ex → j + g = (t - 1) / W + 1 := by
    intro hx
    have h1 := hexact hx
    have h2 : (j + g - 1) * W < t := by
      have : (j + g - 1) * W = j * W + (g - 1) * W := by rw [← Int.add_mul]; congr 1; omega
      omega
    have a1 : (j + g - 1) * W < ((t - 1) / W + 1) * W := by omega
    have a2 : (t - 1) / W * W < (j + g) * W := by omega
    have c1 := Int.lt_of_mul_lt_mul_right a1 (by omega)
    have c2 := Int.lt_of_mul_lt_mul_right a2 (by omega)
    omega
  have hold : ∀ e ∈ h, e.1 ≤ (t - 1) / W * W := by
    intro e he
    have h1 := hh e he
    have h2 : j * W ≤ (t - 1) / W * W := Int.mul_le_mul_of_nonneg_right hjb (by omega)
    omega
  have hcur : ∀ (x : Bool), ∀ e ∈ [(t, x)], (t - 1) / W * W < e.1 ∧ e.1 ≤ (j + g) * W := by
    intro x e he
    simp at he; subst he; simp only; omega
  unfold acquire
  simp only [hcont, not_false_eq_true, if_true, reset, if_false, hwin, hg, hcap]
  split
  · refine ⟨⟨rfl, rfl, ?_, ?_, ?_, hold, hcur _, hb1, by omega, hall, hex'⟩, ?_⟩
    · simp only; omega
    · simp [admitted]
    · simp only; omega
    · simp; omega
  · refine ⟨⟨rfl, rfl, ?_, ?_, ?_, hold, hcur _, hb1, by omega, hall, hex'⟩, ?_⟩
    · simp only; omega
    · simp [admitted]
    · simp only; omega
    · simp; omega

/-! ### Whole histories -/

/-- Clock readings from `p` on: non-decreasing, and consecutive readings are less than 2^52 ns (52 days) apart. -/
def Steady : Int → List Int → Prop
  | _, [] => True
  | p, t :: ts => p ≤ t ∧ t - p < 2 ^ 52 ∧ Steady t ts

instance : ∀ (p : Int) (ts : List Int), Decidable (Steady p ts)
  | _, [] => isTrue trivial
  | p, t :: ts =>
    have := instDecidableSteady t ts
    by unfold Steady; infer_instance

/-- The exact ceiling exists. -/
theorem exists_ceil (d W : Int) (hW : 0 < W) : ∃ k, (k - 1) * W < d ∧ d ≤ k * W := by
  refine ⟨(d - 1) / W + 1, ?_, ?_⟩
  · have := Int.ediv_mul_le (d - 1) (by omega : W ≠ 0)
    rw [Int.add_sub_cancel]; omega
  · have := Int.lt_ediv_add_one_mul_self (d - 1) hW; omega

/-- One request after an interval end that is at most 2^53 ns in the past. -/
theorem reset_small (s : State) (W t : Int) (hW : 0 < W) (hW2 : W < 2 ^ 53)
    (ht : s.till < t) (hd : t - s.till < 2 ^ 53) :
    t ≤ s.till + goCeilDiv (t - s.till) W * W ∧ s.till + (goCeilDiv (t - s.till) W - 1) * W < t := by
  obtain ⟨k, hk1, hk2⟩ := exists_ceil (t - s.till) W hW
  rw [goCeilDiv_small (t - s.till) W k (by omega) hd hW hW2 hk1 hk2]
  omega

theorem run_inv {ex : Prop} {c W : Int} (hW : 0 < W) (hW2 : W < 2 ^ 53) (ts : List Int) :
    ∀ (old cur : History) (b j p : Int) (s : State), Inv ex c W old cur b j p s → Steady p ts →
      ∃ old' cur' b' j' p', Inv ex c W old' cur' b' j' p' (run s ts).1 ∧
        old' ++ cur' = (old ++ cur) ++ (run s ts).2 ∧ ∀ t, Steady p (ts ++ [t]) → p' ≤ t ∧ t - p' < 2 ^ 52 := by
  induction ts with
  | nil =>
    intro old cur b j p s inv _
    exact ⟨old, cur, b, j, p, inv, by simp [run], fun t h => ⟨h.1, h.2.1⟩⟩
  | cons t ts ih =>
    intro old cur b j p s inv hst
    obtain ⟨hpt, hgap, hst'⟩ := hst
    by_cases hin : t ≤ s.till
    · obtain ⟨inv1, _⟩ := acquire_in inv t hpt hin
      obtain ⟨o, c', b', j', p', i', he, hl⟩ := ih _ _ _ _ _ _ inv1 hst'
      refine ⟨o, c', b', j', p', i', ?_, fun u hu => hl u hu.2.2⟩
      rw [he]; simp [run]
    · have hpj := inv.hpj
      have hti := inv.htill
      obtain ⟨g1, g2⟩ := reset_small s W t hW hW2 (by omega) (by omega)
      obtain ⟨inv1, _⟩ := acquire_reset (ex := ex) (h := old ++ cur) hW inv.hcap inv.hwin inv.htill
        (by
          intro e he
          rcases List.mem_append.mp he with h | h
          · have h1 := inv.hold e h
            have h2 := inv.hbp
            omega
          · exact (inv.hcur e h).2)
        (inv.bound hW) t (by omega) g1 (fun _ => g2)
      obtain ⟨o, c', b', j', p', i', he, hl⟩ := ih _ _ _ _ _ _ inv1 hst'
      refine ⟨o, c', b', j', p', i', ?_, fun u hu => hl u hu.2.2⟩
      rw [he]; simp [run]

end Gears.FixedWindow
