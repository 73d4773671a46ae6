import Verif.FixedWindow.Lemmas

/-
Property theorems for SyncFixedWindow (C11-C14).  `(run (new c W) ts).2` is the history of a fresh limiter called at
the clock readings `ts` (ns since 1970).  `admittedInInterval h W k` counts the admitted requests of `h` in
`((k-1)W, kW]`.
-/

namespace Gears.FixedWindow

open Float64

/-- The float64 computation is exact for the first clock reading `t`: it is below 2^53, or it is an int64 that lies
at least 2.049 microseconds away from both ends of its interval. -/
def FirstOk (W t : Int) : Prop := t < 2 ^ 53 ∨ (t < 2 ^ 63 ∧ 2049 ≤ t % W ∧ t % W + 2049 ≤ W)

/-- The clock readings for which exact behaviour is claimed: positive, non-decreasing, less than 52 days apart, and
the first one `FirstOk`. -/
def ClockOk (W : Int) : List Int → Prop
  | [] => True
  | t :: ts => 0 < t ∧ FirstOk W t ∧ Steady t ts

theorem first_exact (W t k : Int) (hW : 0 < W) (hW2 : W < 2 ^ 53) (ht : 0 < t) (hf : FirstOk W t)
    (h1 : (k - 1) * W < t) (h2 : t ≤ k * W) : goCeilDiv t W = k := by
  rcases hf with h | ⟨h, h3, h4⟩
  · exact goCeilDiv_small t W k ht h hW hW2 h1 h2
  · have hd := Int.mul_ediv_add_emod t W
    have hq : t / W = k - 1 := by
      have a1 : (t / W) * W < k * W := by rw [Int.mul_comm]; omega
      have a2 : (k - 1) * W < (t / W + 1) * W := by rw [Int.add_mul, Int.mul_comm (t / W)]; omega
      have b1 := Int.lt_of_mul_lt_mul_right a1 (by omega)
      have b2 := Int.lt_of_mul_lt_mul_right a2 (by omega)
      omega
    rw [hq] at hd
    have e : (k - 1) * W = W * (k - 1) := Int.mul_comm _ _
    have e2 : k * W = W * (k - 1) + W := by rw [Int.mul_comm k, Int.mul_sub]; omega
    exact goCeilDiv_large t W k ht h hW hW2 (by omega) (by omega)

/-- The invariant after a non-empty run of good clock readings. -/
theorem clockOk_inv (c W : Int) (hW : 0 < W) (hW2 : W < 2 ^ 53) (t1 : Int) (ts : List Int)
    (hok : ClockOk W (t1 :: ts)) :
    ∃ old cur b j p, Inv True c W old cur b j p (run (new c W) (t1 :: ts)).1 ∧
      old ++ cur = (run (new c W) (t1 :: ts)).2 ∧
      ∀ t, ClockOk W (t1 :: ts ++ [t]) → p ≤ t ∧ t - p < 2 ^ 52 := by
  obtain ⟨h0, hf, hst⟩ := hok
  obtain ⟨k, hk1, hk2⟩ := exists_ceil t1 W hW
  have hg := first_exact W t1 k hW hW2 h0 hf hk1 hk2
  obtain ⟨inv, _⟩ := acquire_reset (ex := True) (c := c) (h := []) (j := 0) (s := new c W) hW rfl rfl
    (by simp [new]) (by simp) (by intro k; simp [admittedInInterval]) t1 (by simpa [new] using h0)
    (by simp [new, hg]; omega) (by intro _; simp [new, hg]; omega)
  obtain ⟨o, cu, b, j, p, i, he, hl⟩ := run_inv hW hW2 ts _ _ _ _ _ _ inv hst
  exact ⟨o, cu, b, j, p, i, by rw [he]; simp [run], fun t ht => hl t ht.2.2⟩

/-- **C11, partial.** Each interval `((k-1)W, kW]` contains at most `max(c,0)` admitted requests.  With respect to the
full claim the clock readings are restricted by `ClockOk`; the restriction on the first reading cannot be dropped
(`C11_interval_bound_violated`), without it the bound is exceeded by at most one (`C11_interval_bound_any_start`). -/
theorem C11_interval_bound_partial (c W : Int) (hW : 0 < W) (hW2 : W < 2 ^ 53) (ts : List Int)
    (hok : ClockOk W ts) (k : Int) :
    (admittedInInterval (run (new c W) ts).2 W k : Int) ≤ max c 0 := by
  cases ts with
  | nil => simp [run, admittedInInterval]
  | cons t1 ts =>
    obtain ⟨o, cu, b, j, p, i, he, _⟩ := clockOk_inv c W hW hW2 t1 ts hok
    rw [← he]
    exact i.bound hW k

/-- **C11**, any starting instant of the int64 range: at most `max(c,0) + 1` per interval. -/
theorem C11_interval_bound_any_start (c W : Int) (hW : 0 < W) (hW2 : W < 2 ^ 53) (t1 : Int) (ts : List Int)
    (h0 : 0 < t1) (h63 : t1 < 2 ^ 63) (hst : Steady t1 ts) (k : Int) :
    (admittedInInterval (run (new c W) (t1 :: ts)).2 W k : Int) ≤ max c 0 + 1 := by
  by_cases hgood : t1 ≤ goCeilDiv t1 W * W
  · obtain ⟨inv, _⟩ := acquire_reset (ex := False) (c := c) (h := []) (j := 0) (s := new c W) hW rfl rfl
      (by simp [new]) (by simp) (by intro k; simp [admittedInInterval]) t1 (by simpa [new] using h0)
      (by simpa [new] using hgood) (by simp)
    obtain ⟨o, cu, b, j, p, i, he, _⟩ := run_inv hW hW2 ts _ _ _ _ _ _ inv hst
    have hb := i.bound hW k
    have : o ++ cu = (run (new c W) (t1 :: ts)).2 := by rw [he]; simp [run]
    rw [this] at hb; omega
  · have hunder := goCeilDiv_under t1 W h0 h63 hW hW2
    have hsplit : (admittedInInterval (run (new c W) (t1 :: ts)).2 W k : Int)
        ≤ 1 + admittedInInterval (run (acquire (new c W) t1).1 ts).2 W k := by
      simp only [run, admittedInInterval, List.countP_cons]
      split <;> omega
    refine Int.le_trans hsplit ?_
    -- the rest starts below its first reading
    have hs1 : (acquire (new c W) t1).1.till = goCeilDiv t1 W * W ∧
        (acquire (new c W) t1).1.capacity = c ∧ (acquire (new c W) t1).1.windowSize = W := by
      have hc : ¬ contains (new c W) t1 := by simp [contains, new]; omega
      unfold acquire
      simp only [hc, not_false_eq_true, if_true, reset, if_false]
      split <;> simp [new]
    obtain ⟨htill, hcap, hwin⟩ := hs1
    generalize (acquire (new c W) t1).1 = s1 at *
    cases ts with
    | nil => simp [run, admittedInInterval]
    | cons t2 ts =>
      obtain ⟨h12, hgap, hst'⟩ := hst
      obtain ⟨g1, g2⟩ := reset_small s1 W t2 hW hW2 (by omega) (by omega)
      obtain ⟨inv, _⟩ := acquire_reset (ex := False) (c := c) (h := []) (j := goCeilDiv t1 W) hW hcap hwin htill
        (by simp) (by intro k; simp [admittedInInterval]) t2 (by omega) g1 (by simp)
      obtain ⟨o, cu, b, j, p, i, he, _⟩ := run_inv hW hW2 ts _ _ _ _ _ _ inv hst'
      have hb := i.bound hW k
      have : o ++ cu = (run s1 (t2 :: ts)).2 := by rw [he]; simp [run]
      rw [this] at hb; omega

/-- float64 evaluation of one realistic timestamp: 1 ns after a full second, in November 2023. -/
theorem goCeilDiv_sample : goCeilDiv 1700000000000000001 1000000000 = 1700000000 := by
  have e1 : rnd (1700000000000000001 : ℚ) = 1700000000000000000 := by
    rw [rnd_eq 1700000000000000001 60 6640625000000000 (by norm_num) (by norm_num)
      (by norm_num [abs_lt])]
    norm_num
  have e2 : rnd (1000000000 : ℚ) = 1000000000 := by
    have := rnd_int_exact 1000000000 (by norm_num)
    simpa using this
  have e3 : rnd (1700000000 : ℚ) = 1700000000 := by
    have := rnd_int_exact 1700000000 (by norm_num)
    simpa using this
  unfold goCeilDiv ceilInt div ofInt
  push_cast
  rw [e1, e2]
  norm_num [e3]

/-- **C11 is violated** when the very first request falls just after a window boundary: with capacity 1 and a window
of one second, two requests at the same instant 1700000000000000001 ns (2023-11-14, 1 ns after a full second) are both
admitted, because float64 rounds the first computed interval end down to a point before the request. -/
theorem C11_interval_bound_violated :
    ∃ (c W : Int) (ts : List Int) (k : Int), 0 < W ∧ NonDecreasing ts ∧ (∀ t ∈ ts, 0 < t ∧ t < 2 ^ 63) ∧
      ¬ (admittedInInterval (run (new c W) ts).2 W k : Int) ≤ max c 0 := by
  refine ⟨1, 1000000000, [1700000000000000001, 1700000000000000001], 1700000001, by norm_num,
    by decide, by simp, ?_⟩
  have g1 : goCeilDiv 1 1000000000 = 1 :=
    goCeilDiv_small 1 1000000000 1 (by norm_num) (by norm_num) (by norm_num) (by norm_num) (by norm_num) (by norm_num)
  simp [run, acquire, new, contains, reset, goCeilDiv_sample, g1, admittedInInterval]

/-- **C12, partial.** (Same restriction on the clock as C11.) Any closed time interval shorter than `W` contains at
most `2 * max(c,0)` admitted requests. -/
theorem C12_burst_bound_partial (c W : Int) (hW : 0 < W) (hW2 : W < 2 ^ 53) (ts : List Int) (hok : ClockOk W ts)
    (lo hi : Int) (hlen : hi - lo < W) :
    (admittedIn (run (new c W) ts).2 lo hi : Int) ≤ 2 * max c 0 := by
  obtain ⟨k, hk1, hk2⟩ := exists_ceil lo W hW
  have hsplit : ∀ h : History, admittedIn h lo hi ≤ admittedInInterval h W k + admittedInInterval h W (k + 1) := by
    intro h
    induction h with
    | nil => simp [admittedIn]
    | cons e h ih =>
      simp only [admittedIn, admittedInInterval, List.countP_cons] at ih ⊢
      have e1 : (k + 1) * W = k * W + W := by rw [Int.add_mul]; omega
      have e2 : k + 1 - 1 = k := by omega
      have : (if (e.2 && decide (lo ≤ e.1) && decide (e.1 ≤ hi)) = true then 1 else 0) ≤
          (if (e.2 && decide ((k - 1) * W < e.1) && decide (e.1 ≤ k * W)) = true then 1 else 0) +
          (if (e.2 && decide ((k + 1 - 1) * W < e.1) && decide (e.1 ≤ (k + 1) * W)) = true then 1 else 0) := by
        rw [e1, e2]
        cases e.2 <;> simp
        split <;> rename_i h1
        · rcases Int.lt_or_le (k * W) e.1 with h2 | h2
          · rw [if_neg (by omega), if_pos (by omega)]
          · rw [if_pos (by omega)]; omega
        · omega
      omega
  have h1 := hsplit (run (new c W) ts).2
  have h2 := C11_interval_bound_partial c W hW hW2 ts hok k
  have h3 := C11_interval_bound_partial c W hW hW2 ts hok (k + 1)
  omega

theorem run_append (s : State) (as bs : List Int) :
    (run s (as ++ bs)).2 = (run s as).2 ++ (run (run s as).1 bs).2 := by
  induction as generalizing s with
  | nil => simp [run]
  | cons a as ih => simp [run, ih]

theorem run_fill (n : Nat) (t : Int) : ∀ s : State, t ≤ s.till → s.count + n ≤ s.capacity →
    run s (List.replicate n t) = ({ s with count := s.count + n }, List.replicate n (t, true)) := by
  induction n with
  | zero => intro s _ _; simp [run]
  | succ n ih =>
    intro s ht hc
    have hcont : contains s t := ht
    have hlt : s.count < s.capacity := by push_cast at hc; omega
    have ha : acquire s t = ({ s with count := s.count + 1 }, true) := by simp [acquire, hcont, hlt]
    simp only [List.replicate_succ, run, ha]
    rw [ih { s with count := s.count + 1 } ht (by push_cast at hc ⊢; omega)]
    simp; omega

/-- **C12**, the bound is attained: for every capacity and window there is a (good) history in which `2c` requests are
admitted within 1 ns. -/
theorem C12_burst_attained (c : Nat) (hc : 0 < c) (W : Int) (hW : 1 < W) (hW2 : W < 2 ^ 52) :
    ∃ ts, ClockOk W ts ∧ admittedIn (run (new c W) ts).2 W (W + 1) = 2 * c := by
  obtain ⟨n, rfl⟩ := Nat.exists_eq_succ_of_ne_zero (Nat.pos_iff_ne_zero.mp hc)
  have steady_rep : ∀ (m : Nat) (p : Int), Steady p (List.replicate m p) := by
    intro m
    induction m with
    | zero => intro p; trivial
    | succ m ih => intro p; exact ⟨by omega, by omega, ih p⟩
  have steady_app : ∀ (m : Nat) (p : Int) (ts : List Int), Steady p ts → Steady p (List.replicate m p ++ ts) := by
    intro m
    induction m with
    | zero => intro p ts h; simpa using h
    | succ m ih => intro p ts h; exact ⟨by omega, by omega, ih p ts h⟩
  refine ⟨List.replicate (n + 1) W ++ List.replicate (n + 1) (W + 1), ?_, ?_⟩
  · refine ⟨by omega, Or.inl (by omega), ?_⟩
    apply steady_app
    exact ⟨by omega, by omega, steady_rep n (W + 1)⟩
  · have g1 : goCeilDiv W W = 1 := goCeilDiv_small W W 1 (by omega) (by omega) (by omega) (by omega) (by omega) (by omega)
    have g2 : goCeilDiv 1 W = 1 := goCeilDiv_small 1 W 1 (by omega) (by omega) (by omega) (by omega) (by omega) (by omega)
    have a1 : acquire (new (n + 1 : Nat) W) W = (⟨(n + 1 : Nat), W, W, 1⟩, true) := by
      have hc : ¬ contains (new (n + 1 : Nat) W) W := by simp [contains, new]; omega
      simp only [acquire, hc, not_false_eq_true, if_true, reset, if_false]
      simp [new, g1]
    have r1 : run (new (n + 1 : Nat) W) (List.replicate (n + 1) W) =
        (⟨(n + 1 : Nat), W, W, n + 1⟩, List.replicate (n + 1) (W, true)) := by
      simp only [List.replicate_succ, run, a1]
      rw [run_fill n W _ (Int.le_refl _) (by push_cast; omega)]
      simp; omega
    have a2 : acquire ⟨(n + 1 : Nat), W, W, n + 1⟩ (W + 1) = (⟨(n + 1 : Nat), W, W + W, 1⟩, true) := by
      have hc : ¬ contains (⟨(n + 1 : Nat), W, W, n + 1⟩ : State) (W + 1) := by simp [contains]
      simp only [acquire, hc, not_false_eq_true, if_true, reset, if_false]
      have : W + 1 - W = 1 := by omega
      rw [this, g2]
      simp
    have r2 : (run ⟨(n + 1 : Nat), W, W, n + 1⟩ (List.replicate (n + 1) (W + 1))).2 =
        List.replicate (n + 1) (W + 1, true) := by
      simp only [List.replicate_succ, run, a2]
      rw [run_fill n (W + 1) _ (by show W + 1 ≤ W + W; omega) (by push_cast; omega)]
    have hcount : ∀ (m : Nat) (t : Int), W ≤ t → t ≤ W + 1 →
        (List.replicate m (t, true)).countP (fun e => e.2 && decide (W ≤ e.1) && decide (e.1 ≤ W + 1)) = m := by
      intro m t h1 h2
      rw [List.countP_replicate]; simp [h1, h2]
    rw [run_append, r1, r2, admittedIn, List.countP_append, hcount _ _ (by omega) (by omega),
      hcount _ _ (by omega) (by omega)]
    omega

/-- **C13, partial** (clock restricted by `ClockOk`): after the calls at `ts`, a call at `t` in interval `k` is
admitted iff fewer than `c` requests have been admitted in that interval; hence it is rejected only if (at least, so by
C11 exactly) `max(c,0)` have. -/
theorem C13_reject_iff_used_up_partial (c W : Int) (hW : 0 < W) (hW2 : W < 2 ^ 53) (ts : List Int) (t k : Int)
    (hok : ClockOk W (ts ++ [t])) (hk1 : (k - 1) * W < t) (hk2 : t ≤ k * W) :
    (acquire (run (new c W) ts).1 t).2 = false ↔
      (admittedInInterval (run (new c W) ts).2 W k : Int) = max c 0 := by
  cases ts with
  | nil =>
    obtain ⟨h0, hf, _⟩ := hok
    have hg := first_exact W t k hW hW2 h0 hf hk1 hk2
    obtain ⟨_, hiff⟩ := acquire_reset (ex := True) (c := c) (h := []) (j := 0) (s := new c W) hW rfl rfl
      (by simp [new]) (by simp) (by intro k; simp [admittedInInterval]) t (by simpa [new] using h0)
      (by simp [new, hg]; omega) (by intro _; simp [new, hg]; omega)
    simp only [run, admittedInInterval, List.countP_nil]
    rw [← Bool.not_eq_true, hiff]; omega
  | cons t1 ts =>
    have hok1 : ClockOk W (t1 :: ts) := by
      obtain ⟨h0, hf, hst⟩ := hok
      refine ⟨h0, hf, ?_⟩
      have : ∀ (p : Int) (us : List Int), Steady p (us ++ [t]) → Steady p us := by
        intro p us
        induction us generalizing p with
        | nil => intro _; trivial
        | cons u us ih => intro h; exact ⟨h.1, h.2.1, ih u h.2.2⟩
      exact this _ _ hst
    obtain ⟨o, cu, b, j, p, i, he, hl⟩ := clockOk_inv c W hW hW2 t1 ts hok1
    obtain ⟨hp, hgap⟩ := hl t hok
    have hcnt : ∀ k', b < k' → admittedInInterval o W k' = 0 := by
      intro k' hk'
      unfold admittedInInterval
      rw [List.countP_eq_zero]
      intro e hmem
      have h1 := i.hold e hmem
      have h2 : b * W ≤ (k' - 1) * W := Int.mul_le_mul_of_nonneg_right (by omega) (by omega)
      simp; omega
    have hj := i.hex trivial
    have htill := i.htill
    have hpj := i.hpj
    have hbp := i.hbp
    have hcl := i.hcount
    have hlem := i.hle
    rw [← he, aii_append]
    by_cases hin : t ≤ (run (new c W) (t1 :: ts)).1.till
    · obtain ⟨_, hiff⟩ := acquire_in i t hp hin
      have hkj : k = j := by
        have a1 : (k - 1) * W < j * W := by omega
        have a2 : b * W < k * W := by omega
        have b1 := Int.lt_of_mul_lt_mul_right a1 (by omega)
        have b2 := Int.lt_of_mul_lt_mul_right a2 (by omega)
        omega
      have hcu : admittedInInterval cu W k = admitted cu := by
        unfold admittedInInterval admitted
        apply List.countP_congr
        intro e hmem
        have h1 := i.hcur e hmem
        have hb : k - 1 = b := by omega
        rw [hb, hkj]
        simp [h1.1, h1.2]
      rw [← Bool.not_eq_true, hiff, hcnt k (by omega), hcu]
      omega
    · obtain ⟨g1, g2⟩ := reset_small (run (new c W) (t1 :: ts)).1 W t hW hW2 (by omega) (by omega)
      obtain ⟨_, hiff⟩ := acquire_reset (ex := True) (h := o ++ cu) hW i.hcap i.hwin i.htill
        (by
          intro e hmem
          rcases List.mem_append.mp hmem with h | h
          · have h1 := i.hold e h
            omega
          · exact (i.hcur e h).2)
        (i.bound hW) t (by omega) g1 (fun _ => g2)
      have hjk : j < k := by
        have a1 : j * W < k * W := by omega
        exact Int.lt_of_mul_lt_mul_right a1 (by omega)
      have hcu : admittedInInterval cu W k = 0 := by
        unfold admittedInInterval
        rw [List.countP_eq_zero]
        intro e hmem
        have h1 := (i.hcur e hmem).2
        have h2 : j * W ≤ (k - 1) * W := Int.mul_le_mul_of_nonneg_right (by omega) (by omega)
        simp; omega
      rw [← Bool.not_eq_true, hiff, hcnt k (by omega), hcu]
      omega

/-- **C14, partial**: the float64 computation of the interval end is the exact ceiling for elapsed times below 2^53 ns
(104 days) and windows below 2^53 ns.  (The full claim, for all int64 operands, is false: `C14_float_exact_violated`.) -/
theorem C14_float_exact_partial (d W : Int) (hd : 0 < d) (hd2 : d < 2 ^ 53) (hW : 0 < W) (hW2 : W < 2 ^ 53) :
    (goCeilDiv d W - 1) * W < d ∧ d ≤ goCeilDiv d W * W := by
  obtain ⟨k, h1, h2⟩ := exists_ceil d W hW
  rw [goCeilDiv_small d W k hd hd2 hW hW2 h1 h2]
  exact ⟨h1, h2⟩

/-- **C14, partial**: for elapsed times of the whole int64 range it is exact at least 2.049 microseconds away from the
interval ends. -/
theorem C14_float_exact_large_partial (d W k : Int) (hd : 0 < d) (hd2 : d < 2 ^ 63) (hW : 0 < W) (hW2 : W < 2 ^ 53)
    (h1 : (k - 1) * W + 2049 ≤ d) (h2 : d + 2049 ≤ k * W) : goCeilDiv d W = k :=
  goCeilDiv_large d W k hd hd2 hW hW2 h1 h2

/-- **C14, partial**, for `reset` itself: when the request lies beyond the current interval by less than 2^53 ns, the new
interval contains the request, is on the same grid, and starts empty; the capacity and window stay. -/
theorem C14_reset_partial (s : State) (ts : Int) (hts : s.till < ts) (hd2 : ts - s.till < 2 ^ 53)
    (hW : 0 < s.windowSize) (hW2 : s.windowSize < 2 ^ 53) :
    (reset s ts).till - s.windowSize < ts ∧ ts ≤ (reset s ts).till ∧ s.windowSize ∣ (reset s ts).till - s.till ∧
    (reset s ts).count = 0 ∧ (reset s ts).capacity = s.capacity ∧ (reset s ts).windowSize = s.windowSize := by
  obtain ⟨h1, h2⟩ := C14_float_exact_partial (ts - s.till) s.windowSize (by omega) hd2 hW hW2
  have hc : ¬ contains s ts := by unfold contains; omega
  unfold reset
  rw [if_neg hc]
  rw [Int.sub_mul, Int.one_mul] at h1
  refine ⟨?_, ?_, ⟨goCeilDiv (ts - s.till) s.windowSize, ?_⟩, rfl, rfl, rfl⟩
  · show s.till + _ - _ < _
    omega
  · show _ ≤ s.till + _
    omega
  · show s.till + _ - s.till = _
    rw [Int.mul_comm]; omega

/-- **C14 is violated** for a realistic first request: the new interval does not contain the request that opened it. -/
theorem C14_float_exact_violated :
    ∃ d W : Int, 0 < d ∧ d < 2 ^ 63 ∧ 0 < W ∧ W < 2 ^ 53 ∧ ¬ d ≤ goCeilDiv d W * W :=
  ⟨1700000000000000001, 1000000000, by norm_num, by norm_num, by norm_num, by norm_num, by
    rw [goCeilDiv_sample]; norm_num⟩

/-- Non-vacuity of `ClockOk`: real timestamps (2023, window 1 s), two intervals. -/
example : ClockOk 1000000000 [1700000000500000000, 1700000000999999999, 1700000001000000000, 1700000001000000001] := by
  refine ⟨by norm_num, Or.inr (by norm_num), ?_⟩
  simp [Steady]

end Gears.FixedWindow
