import Verif.FixedWindow.Props

/-
C12 and C13 without the condition on the first clock reading: what is false (`C12_violated`, `C13_violated`), and what
remains true whatever the first reading is (`C12_burst_bound_any_start`, `C13_reject_any_start`).
-/

namespace Gears.FixedWindow

open Float64

/-! ### The full claims -/

/-- C12's bound for every non-decreasing clock. -/
def C12Claim : Prop :=
  ∀ (c W : Int) (ts : List Int) (lo hi : Int), 0 < W → NonDecreasing ts → (∀ t ∈ ts, 0 < t ∧ t < 2 ^ 63) →
    hi - lo < W → (admittedIn (run (new c W) ts).2 lo hi : Int) ≤ 2 * max c 0

/-- C13 for every non-decreasing clock. -/
def C13Claim : Prop :=
  ∀ (c W : Int) (ts : List Int) (t k : Int), 0 < W → NonDecreasing (ts ++ [t]) →
    (∀ u ∈ ts ++ [t], 0 < u ∧ u < 2 ^ 63) → (k - 1) * W < t → t ≤ k * W →
    (acquire (run (new c W) ts).1 t).2 = false →
    (admittedInInterval (run (new c W) ts).2 W k : Int) = max c 0

/-! ### Two float64 evaluations -/

/-- 2 ns after a full second the quotient rounds down to the second. -/
theorem goCeilDiv_sample2 : goCeilDiv 1700000000000000002 1000000000 = 1700000000 := by
  have e1 : rnd (1700000000000000002 : ℚ) = 1700000000000000000 := by
    rw [rnd_eq 1700000000000000002 60 6640625000000000 (by norm_num) (by norm_num)
      (by norm_num [abs_lt])]
    norm_num
  have e2 : rnd (1000000000 : ℚ) = 1000000000 := by
    have := rnd_int_exact 1000000000 (by norm_num)
    simpa using this
  have e3 : rnd (1700000000 : ℚ) = 1700000000 := by
    have := rnd_int_exact 1700000000 (by norm_num)
    simpa using this
  unfold goCeilDiv ceilInt div ofInt
  push_cast
  rw [e1, e2]
  norm_num [e3]

/-- With a window of `time.Second / 9`, 1 ns before an interval end the quotient rounds up past that end. -/
theorem goCeilDiv_sample3 : goCeilDiv 1700000000522222219 111111111 = 15300000021 := by
  have e1 : rnd (1700000000522222219 : ℚ) = 1700000000522222336 := by
    rw [rnd_eq 1700000000522222219 60 6640625002039931 (by norm_num) (by norm_num)
      (by norm_num [abs_lt])]
    norm_num
  have e2 : rnd (111111111 : ℚ) = 111111111 := by
    have := rnd_int_exact 111111111 (by norm_num)
    simpa using this
  have e3 : rnd (1700000000522222336 / 111111111 : ℚ) = 8021606410485761 / 524288 := by
    rw [rnd_eq (1700000000522222336 / 111111111) 33 8021606410485761 (by norm_num) (by norm_num)
      (by norm_num [abs_lt])]
    norm_num
  unfold goCeilDiv ceilInt div ofInt
  push_cast
  rw [e1, e2, e3, Int.ceil_eq_iff]
  norm_num

/-! ### The violations -/

/-- **C12 is violated**: with capacity 1 and a window of one second, requests 2 ns after a full second, at the next
full second, and 1 ns later are all admitted, although the three instants lie within less than one window. -/
theorem C12_violated : ¬ C12Claim := by
  intro h
  have h1 := h 1 1000000000 [1700000000000000002, 1700000001000000000, 1700000001000000001]
    1700000000000000002 1700000001000000001 (by norm_num) (by decide) (by simp) (by norm_num)
  have g1 : goCeilDiv 1000000000 1000000000 = 1 :=
    goCeilDiv_small 1000000000 1000000000 1 (by norm_num) (by norm_num) (by norm_num) (by norm_num) (by norm_num)
      (by norm_num)
  have g2 : goCeilDiv 1 1000000000 = 1 :=
    goCeilDiv_small 1 1000000000 1 (by norm_num) (by norm_num) (by norm_num) (by norm_num) (by norm_num) (by norm_num)
  simp [run, acquire, new, contains, reset, goCeilDiv_sample2, g1, g2, admittedIn] at h1

/-- **C13 is violated**: with capacity 1 and a window of a ninth of a second, one request 1 ns before an interval end
is admitted and takes the place of the following interval, so that a request at the beginning of that interval is
rejected although none was admitted in it. -/
theorem C13_violated : ¬ C13Claim := by
  intro h
  have h1 := h 1 111111111 [1700000000522222219] 1700000000522222221 15300000021 (by norm_num) (by decide) (by simp)
    (by norm_num) (by norm_num)
  simp [run, acquire, new, contains, reset, goCeilDiv_sample3, admittedInInterval] at h1

/-! ### What holds for every first reading -/

/-- An interval shorter than a window meets at most two of the limiter's intervals. -/
theorem admittedIn_split (W lo hi k : Int) (hk1 : (k - 1) * W < lo) (hk2 : lo ≤ k * W) (hlen : hi - lo < W)
    (h : History) : admittedIn h lo hi ≤ admittedInInterval h W k + admittedInInterval h W (k + 1) := by
  induction h with
  | nil => simp [admittedIn]
  | cons e h ih =>
    simp only [admittedIn, admittedInInterval, List.countP_cons] at ih ⊢
    have e1 : (k + 1) * W = k * W + W := by rw [Int.add_mul]; omega
    have e2 : k + 1 - 1 = k := by omega
    have : (if (e.2 && decide (lo ≤ e.1) && decide (e.1 ≤ hi)) = true then 1 else 0) ≤
        (if (e.2 && decide ((k - 1) * W < e.1) && decide (e.1 ≤ k * W)) = true then 1 else 0) +
        (if (e.2 && decide ((k + 1 - 1) * W < e.1) && decide (e.1 ≤ (k + 1) * W)) = true then 1 else 0) := by
      rw [e1, e2]
      cases e.2 <;> simp
      split <;> rename_i h1
      · rcases Int.lt_or_le (k * W) e.1 with h2 | h2
        · rw [if_neg (by omega), if_pos (by omega)]
        · rw [if_pos (by omega)]; omega
      · omega
    omega

/-- The state after the first request of a fresh limiter. -/
theorem first_state (c W t1 : Int) (h0 : 0 < t1) :
    (acquire (new c W) t1).1.till = goCeilDiv t1 W * W ∧
      (acquire (new c W) t1).1.capacity = c ∧ (acquire (new c W) t1).1.windowSize = W := by
  have hc : ¬ contains (new c W) t1 := by simp [contains, new]; omega
  unfold acquire
  simp only [hc, not_false_eq_true, if_true, reset, if_false]
  split <;> simp [new]

/-- The history of a run splits into the first request and a rest that respects the bound per interval; when the
computed end of the first interval is not before the first request, the whole history respects it. -/
theorem interval_bound_rest (c W : Int) (hW : 0 < W) (hW2 : W < 2 ^ 53) (t1 : Int) (ts : List Int)
    (h0 : 0 < t1) (h63 : t1 < 2 ^ 63) (hst : Steady t1 ts) :
    (∀ k, (admittedInInterval (run (new c W) (t1 :: ts)).2 W k : Int) ≤ max c 0) ∨
      ∀ k, (admittedInInterval (run (acquire (new c W) t1).1 ts).2 W k : Int) ≤ max c 0 := by
  by_cases hgood : t1 ≤ goCeilDiv t1 W * W
  · left
    intro k
    obtain ⟨inv, _⟩ := acquire_reset (ex := False) (c := c) (h := []) (j := 0) (s := new c W) hW rfl rfl
      (by simp [new]) (by simp) (by intro k; simp [admittedInInterval]) t1 (by simpa [new] using h0)
      (by simpa [new] using hgood) (by simp)
    obtain ⟨o, cu, b, j, p, i, he, _⟩ := run_inv hW hW2 ts _ _ _ _ _ _ inv hst
    have hb := i.bound hW k
    have : o ++ cu = (run (new c W) (t1 :: ts)).2 := by rw [he]; simp [run]
    rwa [this] at hb
  · right
    intro k
    have hunder := goCeilDiv_under t1 W h0 h63 hW hW2
    obtain ⟨htill, hcap, hwin⟩ := first_state c W t1 h0
    generalize (acquire (new c W) t1).1 = s1 at *
    cases ts with
    | nil => simp [run, admittedInInterval]
    | cons t2 ts =>
      obtain ⟨h12, hgap, hst'⟩ := hst
      obtain ⟨g1, g2⟩ := reset_small s1 W t2 hW hW2 (by omega) (by omega)
      obtain ⟨inv, _⟩ := acquire_reset (ex := False) (c := c) (h := []) (j := goCeilDiv t1 W) hW hcap hwin htill
        (by simp) (by intro k; simp [admittedInInterval]) t2 (by omega) g1 (by simp)
      obtain ⟨o, cu, b, j, p, i, he, _⟩ := run_inv hW hW2 ts _ _ _ _ _ _ inv hst'
      have hb := i.bound hW k
      have : o ++ cu = (run s1 (t2 :: ts)).2 := by rw [he]; simp [run]
      rwa [this] at hb

/-- **C12**, any starting instant of the int64 range: an interval shorter than `W` contains at most
`2 * max(c,0) + 1` admitted requests, so the excess of `C12_violated` is the largest possible. -/
theorem C12_burst_bound_any_start (c W : Int) (hW : 0 < W) (hW2 : W < 2 ^ 53) (t1 : Int) (ts : List Int)
    (h0 : 0 < t1) (h63 : t1 < 2 ^ 63) (hst : Steady t1 ts) (lo hi : Int) (hlen : hi - lo < W) :
    (admittedIn (run (new c W) (t1 :: ts)).2 lo hi : Int) ≤ 2 * max c 0 + 1 := by
  obtain ⟨k, hk1, hk2⟩ := exists_ceil lo W hW
  rcases interval_bound_rest c W hW hW2 t1 ts h0 h63 hst with h | h
  · have h1 := admittedIn_split W lo hi k hk1 hk2 hlen (run (new c W) (t1 :: ts)).2
    have h2 := h k
    have h3 := h (k + 1)
    omega
  · have h1 := admittedIn_split W lo hi k hk1 hk2 hlen (run (acquire (new c W) t1).1 ts).2
    have h2 := h k
    have h3 := h (k + 1)
    have h4 : admittedIn (run (new c W) (t1 :: ts)).2 lo hi ≤
        1 + admittedIn (run (acquire (new c W) t1).1 ts).2 lo hi := by
      simp only [run, admittedIn, List.countP_cons]
      split <;> omega
    omega

/-- Non-vacuity of `C12_burst_bound_any_start`: the history of `C12_violated` attains the bound. -/
example : (0 : Int) < 1700000000000000002 ∧ (1700000000000000002 : Int) < 2 ^ 63 ∧
    Steady 1700000000000000002 [1700000001000000000, 1700000001000000001] := by decide

/-- The new end of the interval is at most one window too late, for windows of at least 2.049 microseconds. -/
theorem goCeilDiv_over (d W k : ℤ) (hd : 0 < d) (hd2 : d < 2 ^ 63) (hW : 2049 ≤ W) (hW2 : W < 2 ^ 53)
    (h2 : d ≤ k * W) : goCeilDiv d W ≤ k + 1 := by
  have hWq : (0 : ℚ) < W := by have : (0 : ℤ) < W := by omega
                               exact_mod_cast this
  have h := goCeilDiv_close d W hd hd2 (by omega) hW2
  rw [abs_le] at h
  unfold goCeilDiv ceilInt
  rw [Int.ceil_le]
  have a1 : (d : ℚ) / W ≤ k := by
    rw [div_le_iff₀ hWq]
    exact_mod_cast h2
  have a2 : (2049 : ℚ) / W ≤ 1 := by
    rw [div_le_one hWq]
    exact_mod_cast hW
  have a3 : (0 : ℚ) < (1 / 2) / W := by positivity
  push_cast
  linarith [h.2]

/-- The invariant of a run after any first reading: `Inv`, a current interval of at most two windows, and no request
of it after the last reading `p`. -/
structure Inv2 (c W : Int) (old cur : History) (b j p : Int) (s : State) : Prop where
  inv  : Inv False c W old cur b j p s
  htwo : j ≤ b + 2
  hpast : ∀ e ∈ cur, e.1 ≤ p

/-- A request that opens a new interval less than 2^53 ns after the end of the last one. -/
theorem acquire_reset_two {c W : Int} (hW : 0 < W) (hW2 : W < 2 ^ 53) {h : History} {j : Int} {s : State}
    (hcap : s.capacity = c) (hwin : s.windowSize = W) (htill : s.till = j * W)
    (hh : ∀ e ∈ h, e.1 ≤ j * W) (hall : ∀ k, (admittedInInterval h W k : Int) ≤ max c 0)
    (t : Int) (ht : s.till < t) (hgap : t - s.till < 2 ^ 53) :
    Inv2 c W h [(t, (acquire s t).2)] ((t - 1) / W) (j + goCeilDiv (t - s.till) W) t (acquire s t).1 ∧
      ((acquire s t).2 = true ↔ 0 < c) := by
  obtain ⟨g1, g2⟩ := reset_small s W t hW hW2 ht hgap
  obtain ⟨inv1, hiff⟩ := acquire_reset (ex := True) (h := h) hW hcap hwin htill hh hall t ht g1 (fun _ => g2)
  have hj1 := inv1.hex trivial
  exact ⟨⟨{ inv1 with hex := fun h => h.elim }, by omega, by simp⟩, hiff⟩

theorem Inv2.all_le {c W : Int} {old cur : History} {b j p : Int} {s : State} (i : Inv2 c W old cur b j p s) :
    ∀ e ∈ old ++ cur, e.1 ≤ j * W := by
  intro e he
  have h2 := i.inv.hbp
  have h3 := i.inv.hpj
  rcases List.mem_append.mp he with h | h
  · have h1 := i.inv.hold e h
    omega
  · exact (i.inv.hcur e h).2

/-- `Inv2` is kept by every run. -/
theorem run_inv_two {c W : Int} (hW : 0 < W) (hW2 : W < 2 ^ 53) (ts : List Int) :
    ∀ (old cur : History) (b j p : Int) (s : State), Inv2 c W old cur b j p s → Steady p ts →
      ∃ old' cur' b' j' p', Inv2 c W old' cur' b' j' p' (run s ts).1 ∧
        old' ++ cur' = (old ++ cur) ++ (run s ts).2 ∧ ∀ t, Steady p (ts ++ [t]) → p' ≤ t ∧ t - p' < 2 ^ 52 := by
  induction ts with
  | nil =>
    intro old cur b j p s i _
    exact ⟨old, cur, b, j, p, i, by simp [run], fun t h => ⟨h.1, h.2.1⟩⟩
  | cons t ts ih =>
    intro old cur b j p s i hst
    obtain ⟨hpt, hgap, hst'⟩ := hst
    by_cases hin : t ≤ s.till
    · obtain ⟨inv1, _⟩ := acquire_in i.inv t hpt hin
      have i1 : Inv2 c W old (cur ++ [(t, (acquire s t).2)]) b j t (acquire s t).1 := by
        refine ⟨inv1, i.htwo, ?_⟩
        intro e he
        rcases List.mem_append.mp he with h | h
        · have := i.hpast e h
          omega
        · simp at h; subst h; exact Int.le_refl _
      obtain ⟨o, c', b', j', p', i', he, hl⟩ := ih _ _ _ _ _ _ i1 hst'
      refine ⟨o, c', b', j', p', i', ?_, fun u hu => hl u hu.2.2⟩
      rw [he]; simp [run]
    · have hpj := i.inv.hpj
      have hti := i.inv.htill
      obtain ⟨i1, _⟩ := acquire_reset_two hW hW2 i.inv.hcap i.inv.hwin i.inv.htill i.all_le
        (i.inv.bound hW) t (by omega) (by omega)
      obtain ⟨o, c', b', j', p', i', he, hl⟩ := ih _ _ _ _ _ _ i1 hst'
      refine ⟨o, c', b', j', p', i', ?_, fun u hu => hl u hu.2.2⟩
      rw [he]; simp [run]

/-- Requests in `(bW, t]`, with `t` in one of the next two intervals, lie in the interval of `t` or in the one before. -/
theorem admitted_two (W b t k : Int) (hW : 0 < W) (hkb : k ≤ b + 2) (hk2 : t ≤ k * W) (h : History)
    (hh : ∀ e ∈ h, b * W < e.1 ∧ e.1 ≤ t) :
    admitted h ≤ admittedInInterval h W (k - 1) + admittedInInterval h W k := by
  have hb : (k - 1 - 1) * W ≤ b * W := Int.mul_le_mul_of_nonneg_right (by omega) (by omega)
  induction h with
  | nil => simp [admitted]
  | cons e h ih =>
    have ih' := ih (fun x hx => hh x (List.mem_cons_of_mem _ hx))
    have h1 := hh e List.mem_cons_self
    simp only [admitted, admittedInInterval, List.countP_cons] at ih' ⊢
    have h3 : (k - 1 - 1) * W < e.1 := by omega
    have h4 : e.1 ≤ k * W := by omega
    have : (if e.2 = true then 1 else 0) ≤
      (if (e.2 && decide ((k - 1 - 1) * W < e.1) && decide (e.1 ≤ (k - 1) * W)) = true then 1 else 0) +
      (if (e.2 && decide ((k - 1) * W < e.1) && decide (e.1 ≤ k * W)) = true then 1 else 0) := by
      cases e.2
      · simp
      · rcases Int.lt_or_le ((k - 1) * W) e.1 with h2 | h2
        · simp [h4, h2]
        · simp [h3, h2]
    omega

/-- A rejection in a state that satisfies `Inv2`. -/
theorem reject_two {c W : Int} (hW : 0 < W) (hW2 : W < 2 ^ 53) {o cu : History} {b j p : Int} {s : State}
    (i : Inv2 c W o cu b j p s) (t k : Int) (hp : p ≤ t) (hgap : t - p < 2 ^ 52)
    (hk1 : (k - 1) * W < t) (hk2 : t ≤ k * W) (hrej : (acquire s t).2 = false) :
    max c 0 ≤ (admittedInInterval (o ++ cu) W (k - 1) : Int) + admittedInInterval (o ++ cu) W k := by
  have htill := i.inv.htill
  have hpj := i.inv.hpj
  have hrej' : ¬ ((acquire s t).2 = true) := by simp [hrej]
  by_cases hin : t ≤ s.till
  · obtain ⟨_, hiff⟩ := acquire_in i.inv t hp hin
    rw [hiff] at hrej'
    have a1 : (k - 1) * W < j * W := by omega
    have b1 := Int.lt_of_mul_lt_mul_right a1 (by omega)
    have htwo := i.htwo
    have h := admitted_two W b t k hW (by omega) hk2 cu (by
      intro e he
      have h1 := i.inv.hcur e he
      have h2 := i.hpast e he
      omega)
    rw [aii_append, aii_append]
    omega
  · obtain ⟨_, hiff⟩ := acquire_reset_two hW hW2 i.inv.hcap i.inv.hwin i.inv.htill i.all_le
      (i.inv.bound hW) t (by omega) (by omega)
    rw [hiff] at hrej'
    omega

theorem steady_init (t : Int) : ∀ (us : List Int) (p : Int), Steady p (us ++ [t]) → Steady p us
  | [], _, _ => trivial
  | u :: us, _, h => ⟨h.1, h.2.1, steady_init t us u h.2.2⟩

/-- **C13**, any starting instant of the int64 range, for windows of at least 2.049 microseconds: a request in interval
`k` is rejected only if at least `max(c,0)` requests have been admitted in the intervals `k - 1` and `k` together. -/
theorem C13_reject_any_start (c W : Int) (hW : 2049 ≤ W) (hW2 : W < 2 ^ 53) (t1 : Int) (ts : List Int) (t k : Int)
    (h0 : 0 < t1) (h63 : t1 < 2 ^ 63) (hst : Steady t1 (ts ++ [t])) (hk1 : (k - 1) * W < t) (hk2 : t ≤ k * W)
    (hrej : (acquire (run (new c W) (t1 :: ts)).1 t).2 = false) :
    max c 0 ≤ (admittedInInterval (run (new c W) (t1 :: ts)).2 W (k - 1) : Int) +
      admittedInInterval (run (new c W) (t1 :: ts)).2 W k := by
  have hW0 : 0 < W := by omega
  by_cases hgood : t1 ≤ goCeilDiv t1 W * W
  · obtain ⟨k1, hk11, hk12⟩ := exists_ceil t1 W hW0
    have hover := goCeilDiv_over t1 W k1 h0 h63 hW hW2 hk12
    obtain ⟨inv, _⟩ := acquire_reset (ex := False) (c := c) (h := []) (j := 0) (s := new c W) hW0 rfl rfl
      (by simp [new]) (by simp) (by intro k; simp [admittedInInterval]) t1 (by simpa [new] using h0)
      (by simpa [new] using hgood) (by simp)
    have hb : (t1 - 1) / W = k1 - 1 := by
      have a1 : (t1 - 1) / W < k1 := by
        rw [Int.ediv_lt_iff_lt_mul hW0]; omega
      have a2 : k1 - 1 ≤ (t1 - 1) / W := by
        rw [Int.le_ediv_iff_mul_le hW0]; omega
      omega
    have i : Inv2 c W [] [(t1, (acquire (new c W) t1).2)] ((t1 - 1) / W) (0 + goCeilDiv (t1 - (new c W).till) W) t1
        (acquire (new c W) t1).1 := by
      refine ⟨inv, ?_, by simp⟩
      rw [hb]
      simp only [new, Int.sub_zero, Int.zero_add]
      omega
    obtain ⟨o, cu, b, j, p, i', he, hl⟩ := run_inv_two hW0 hW2 ts _ _ _ _ _ _ i (steady_init t ts t1 hst)
    obtain ⟨hp, hgap⟩ := hl t hst
    have := reject_two hW0 hW2 i' t k hp hgap hk1 hk2 (by simpa [run] using hrej)
    have e : o ++ cu = (run (new c W) (t1 :: ts)).2 := by rw [he]; simp [run]
    rwa [e] at this
  · have hunder := goCeilDiv_under t1 W h0 h63 hW0 hW2
    obtain ⟨htill, hcap, hwin⟩ := first_state c W t1 h0
    have hmono : ∀ k', admittedInInterval (run (acquire (new c W) t1).1 ts).2 W k' ≤
        admittedInInterval (run (new c W) (t1 :: ts)).2 W k' := by
      intro k'
      simp only [run, admittedInInterval, List.countP_cons]
      omega
    have m1 := hmono (k - 1)
    have m2 := hmono k
    have hrej2 : (acquire (run (acquire (new c W) t1).1 ts).1 t).2 = false := by simpa [run] using hrej
    clear hrej hmono
    generalize (acquire (new c W) t1).1 = s1 at *
    cases ts with
    | nil =>
      obtain ⟨h12, hgap, _⟩ := hst
      obtain ⟨_, hiff⟩ := acquire_reset_two hW0 hW2 (h := []) hcap hwin htill (by simp)
        (by intro k; simp [admittedInInterval]) t (by omega) (by omega)
      have hr : ¬ ((acquire s1 t).2 = true) := by simpa [run] using hrej2
      rw [hiff] at hr
      omega
    | cons t2 ts =>
      obtain ⟨h12, hgap, hst'⟩ := hst
      obtain ⟨i, _⟩ := acquire_reset_two hW0 hW2 (h := []) hcap hwin htill (by simp)
        (by intro k; simp [admittedInInterval]) t2 (by omega) (by omega)
      obtain ⟨o, cu, b, j, p, i', he, hl⟩ := run_inv_two hW0 hW2 ts _ _ _ _ _ _ i (steady_init t ts t2 hst')
      obtain ⟨hp, hgap'⟩ := hl t hst'
      have := reject_two hW0 hW2 i' t k hp hgap' hk1 hk2 (by simpa [run] using hrej2)
      have e : o ++ cu = (run s1 (t2 :: ts)).2 := by rw [he]; simp [run]
      rw [e] at this
      omega

/-- Non-vacuity of `C13_reject_any_start`: the rejection of `C13_violated`. -/
example : (2049 : Int) ≤ 111111111 ∧ Steady 1700000000522222219 ([] ++ [1700000000522222221]) ∧
    (acquire (run (new 1 111111111) [1700000000522222219]).1 1700000000522222221).2 = false := by
  refine ⟨by decide, by decide, ?_⟩
  simp [run, acquire, new, contains, reset, goCeilDiv_sample3]

end Gears.FixedWindow
