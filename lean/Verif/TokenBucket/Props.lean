import Verif.TokenBucket.Lemmas

/-
Property theorems for SyncTokenBucket (C01-C04).  `run (new c r t0) ts` is the observable history of a fresh
bucket on which `Acquire` is called with clock readings `ts`.
-/

namespace Gears.TokenBucket

/-- **C01.** Total admissions up to any time `t` are at most `c + r·⌊(t-t0)/1s⌋`. -/
theorem C01_total_bound (c r t0 : Int) (hc : 0 ≤ c) (hr : 0 ≤ r) (ts : List Int)
    (hm : NonDecreasing (t0 :: ts)) (t : Int) (ht0 : t0 ≤ t) (ht : ∀ x ∈ ts, x ≤ t) :
    (admitted (run (new c r t0) ts).2 : Int) ≤ c + r * ((t - t0) / 1000000000) :=
  run_admitted_le (new c r t0) ts (new_wf hc hr) hm t ht0 ht

-- The bound is met with equality by a bucket of capacity 2 and rate 3 after one second.
example : NonDecreasing ((0 : Int) :: [0, 0, 1000000000, 1000000000, 1000000000]) ∧
    admitted (run (new 2 3 0) [0, 0, 1000000000, 1000000000, 1000000000]).2 = 4 ∧
    (∀ x ∈ [(0 : Int), 0, 1000000000, 1000000000, 1000000000], x ≤ 1000000000) := by decide

/-- **C02.** Among consecutive calls `mid` (after any earlier calls `pre`) whose readings lie within `w` of each
other, at most `c + 1 + r·(⌊w/1s⌋+1)` are admitted. -/
theorem C02_burst_bound (c r t0 : Int) (hc : 0 ≤ c) (hr : 0 ≤ r) (pre mid : List Int)
    (hm : NonDecreasing (t0 :: (pre ++ mid))) (a w : Int) (hw : 0 ≤ w)
    (hin : ∀ t ∈ mid, a ≤ t ∧ t ≤ a + w) :
    (admitted ((run (new c r t0) (pre ++ mid)).2.drop pre.length) : Int)
      ≤ c + 1 + r * (w / 1000000000 + 1) := by
  rw [run_append]
  simp only
  rw [List.drop_append_of_le_length (by simp [run_length]),
    List.drop_of_length_le (by simp [run_length]), List.nil_append]
  have hpre : NonDecreasing (t0 :: pre) := by
    have := List.pairwise_append.1 (show List.Pairwise (· ≤ ·) ((t0 :: pre) ++ mid) from hm)
    exact this.1
  cases mid with
  | nil =>
    have : 0 ≤ r * (w / 1000000000 + 1) := Int.mul_nonneg hr (by omega)
    simp [run, admitted_nil]; omega
  | cons m0 mid =>
    have hpm := List.pairwise_append.1 (show List.Pairwise (· ≤ ·) ((t0 :: pre) ++ (m0 :: mid)) from hm)
    obtain ⟨w1, cap1, rate1, _, l2, _, _⟩ := run_bound (new c r t0) pre (new_wf hc hr) hpre m0
      (hpm.2.2 t0 (by simp) m0 (by simp)) (fun x hx => hpm.2.2 x (by simp [hx]) m0 (by simp))
    have hm' : NonDecreasing ((run (new c r t0) pre).1.last :: m0 :: mid) := by
      refine List.pairwise_cons.2 ⟨fun x hx => ?_, hpm.2.1⟩
      rcases List.mem_cons.1 hx with rfl | hx
      · exact l2
      · exact Int.le_trans l2 ((List.pairwise_cons.1 hpm.2.1).1 x hx)
    have := run_window (run (new c r t0) pre).1 (m0 :: mid) w1 hm' a w hw hin
    rw [cap1, rate1] at this
    exact this

-- The "+1" is real: a full bucket of capacity 2, idle for a second, admits 3 requests at one instant.
example : NonDecreasing ((0 : Int) :: ([] ++ [1000000000, 1000000000, 1000000000])) ∧
    admitted ((run (new 2 1 0) ([] ++ [1000000000, 1000000000, 1000000000])).2.drop 0) = 3 := by decide

/-- The naive burst bound (at most `c` in one instant) is false of the code. -/
theorem C02_naive_burst_bound_violated :
    ¬ ∀ (c r t0 : Int), 0 ≤ c → 0 ≤ r → ∀ (pre mid : List Int), NonDecreasing (t0 :: (pre ++ mid)) →
      ∀ a, (∀ t ∈ mid, t = a) →
        (admitted ((run (new c r t0) (pre ++ mid)).2.drop pre.length) : Int) ≤ c := by
  intro h
  have := h 2 1 0 (by decide) (by decide) [] [1000000000, 1000000000, 1000000000] (by decide)
    1000000000 (by decide)
  revert this
  decide

/-- **C03.** A rejected call is preceded by at least `c` admitted ones. -/
theorem C03_reject_needs_capacity_spent (c r t0 : Int) (hc : 0 ≤ c) (hr : 0 ≤ r) (ts : List Int) (t : Int)
    (hm : NonDecreasing (t0 :: (ts ++ [t])))
    (hrej : (run (new c r t0) (ts ++ [t])).2.getLast? = some (t, false)) :
    c ≤ (admitted (run (new c r t0) ts).2 : Int) := by
  have hpm := List.pairwise_append.1 (show List.Pairwise (· ≤ ·) ((t0 :: ts) ++ [t]) from hm)
  obtain ⟨w1, cap1, _, _, l2, _, lb⟩ := run_bound (new c r t0) ts (new_wf hc hr) hpm.1 t
    (hpm.2.2 t0 (by simp) t (by simp)) (fun x hx => hpm.2.2 x (by simp [hx]) t (by simp))
  rw [run_append] at hrej
  simp [run] at hrej
  obtain ⟨_, _, _, _, _, _, alb, az⟩ := acquire_spec (run (new c r t0) ts).1 t w1 l2
  have hz := az hrej
  rw [hrej, hz] at alb
  have hn : (new c r t0).tokens = c := rfl
  rw [hn] at lb
  simp at alb
  have := w1.lo
  omega

example : NonDecreasing ((0 : Int) :: ([0, 0] ++ [5])) ∧
    (run (new 2 1 0) ([0, 0] ++ [5])).2.getLast? = some (5, false) := by decide

/-- **C03 (first calls).** The first `c` calls of a fresh bucket all succeed. -/
theorem C03_first_calls_succeed (c r t0 : Int) (hc : 0 ≤ c) (hr : 0 ≤ r) (ts : List Int)
    (hm : NonDecreasing (t0 :: ts)) (hlen : (ts.length : Int) ≤ c) :
    ∀ e ∈ (run (new c r t0) ts).2, e.2 = true := by
  have gen : ∀ (ts : List Int) (s : State), WF s → NonDecreasing (s.last :: ts) →
      (ts.length : Int) ≤ s.tokens → ∀ e ∈ (run s ts).2, e.2 = true := by
    intro ts
    induction ts with
    | nil => intro s _ _ _ e he; simp [run] at he
    | cons t ts ih =>
      intro s wf hm hlen e he
      have hl : s.last ≤ t := (List.pairwise_cons.1 hm).1 t (by simp)
      obtain ⟨awf, _, _, _, al2, _, alb, az⟩ := acquire_spec s t wf hl
      have hacq : (acquire s t).2 = true := by
        cases hb : (acquire s t).2 with
        | true => rfl
        | false =>
          have := az hb
          rw [hb, this] at alb
          simp at alb hlen; omega
      have h2 := List.pairwise_cons.1 (List.pairwise_cons.1 hm).2
      have hm' : NonDecreasing ((acquire s t).1.last :: ts) :=
        List.pairwise_cons.2 ⟨fun x hx => Int.le_trans al2 (h2.1 x hx), h2.2⟩
      rw [hacq] at alb
      simp at alb hlen
      simp only [run, List.mem_cons] at he
      rcases he with rfl | he
      · exact hacq
      · exact ih _ awf hm' (by omega) e he
  exact gen ts (new c r t0) (new_wf hc hr) hm (by simpa [new] using hlen)

example : NonDecreasing ((0 : Int) :: [3, 3, 9]) ∧ (([3, 3, 9] : List Int).length : Int) ≤ 3 := by decide

/-- **C04.** After a rejection at `t`, the next call at `t' ≥ t + 1s` is admitted. -/
theorem C04_recovers (c r t0 : Int) (hc : 1 ≤ c) (hr : 1 ≤ r) (ts : List Int) (t t' : Int)
    (hm : NonDecreasing (t0 :: (ts ++ [t])))
    (hrej : (run (new c r t0) (ts ++ [t])).2.getLast? = some (t, false))
    (ht' : t + 1000000000 ≤ t') :
    (run (new c r t0) (ts ++ [t, t'])).2.getLast? = some (t', true) := by
  have hpm := List.pairwise_append.1 (show List.Pairwise (· ≤ ·) ((t0 :: ts) ++ [t]) from hm)
  obtain ⟨w1, cap1, rate1, _, l2, _, lb⟩ := run_bound (new c r t0) ts (new_wf (by omega) (by omega))
    hpm.1 t (hpm.2.2 t0 (by simp) t (by simp)) (fun x hx => hpm.2.2 x (by simp [hx]) t (by simp))
  rw [run_append] at hrej
  simp [run] at hrej
  obtain ⟨awf, acap, arate, _, al2, _, _, az⟩ := acquire_spec (run (new c r t0) ts).1 t w1 l2
  have hz := az hrej
  rw [run_append]
  simp only [run, List.getLast?_append]
  simp only [List.getLast?_cons_cons, List.getLast?_singleton, Option.some_or]
  have : (acquire (acquire (run (new c r t0) ts).1 t).1 t').2 = true := by
    generalize (acquire (run (new c r t0) ts).1 t).1 = s at *
    have hcap : s.capacity = c := by rw [acap, cap1]; rfl
    have hrate : s.rate = r := by rw [arate, rate1]; rfl
    rcases issue_cases s t' (by omega) (by omega) awf.hi with ⟨_, h | h⟩ | ⟨k, h, _, h2, _⟩
    · omega
    · have h1 : 1 ≤ (t' - s.last) / second := by unfold second; omega
      have : 0 < (t' - s.last) / second * s.rate := Int.mul_pos (by omega) (by omega)
      omega
    · have hk : k > 0 := by omega
      unfold acquire; rw [h]; simp [hk]
  rw [this]

example : NonDecreasing ((0 : Int) :: ([0] ++ [5])) ∧
    (run (new 1 1 0) ([0] ++ [5])).2.getLast? = some (5, false) ∧
    (run (new 1 1 0) ([0] ++ [5, 1000000005])).2.getLast? = some (1000000005, true) := by decide

end Gears.TokenBucket
