import Verif.TokenBucket.Model
import Verif.Common.History
import Mathlib.Tactic.Linarith
import Mathlib.Tactic.Ring

namespace Gears.TokenBucket

theorem run_append (s : State) (as bs : List Int) :
    run s (as ++ bs) = ((run (run s as).1 bs).1, (run s as).2 ++ (run (run s as).1 bs).2) := by
  induction as generalizing s with
  | nil => simp [run]
  | cons a as ih => simp [run, ih]

theorem run_length (s : State) (ts : List Int) : (run s ts).2.length = ts.length := by
  induction ts generalizing s with
  | nil => simp [run]
  | cons t ts ih => simp [run, ih]

theorem floor_add_le (a b : Int) : a / second + b / second ≤ (a + b) / second := by
  unfold second; omega

/-- What one issue does, for a clock that did not go backwards. -/
theorem issue_cases (s : State) (now : Int) (hl : s.last ≤ now) (hr : 0 ≤ s.rate)
    (ht : s.tokens ≤ s.capacity) :
    (issueIfNecessary s now = s ∧
      (s.tokens = s.capacity ∨ (now - s.last) / second * s.rate = 0)) ∨
    (∃ t, issueIfNecessary s now = { s with tokens := t, last := now } ∧
      s.tokens < s.capacity ∧ s.tokens < t ∧ t ≤ s.capacity ∧
      t = min s.capacity (s.tokens + (now - s.last) / second * s.rate)) := by
  have hd : Int.tdiv (now - s.last) second = (now - s.last) / second :=
    Int.tdiv_eq_ediv_of_nonneg (by omega)
  unfold issueIfNecessary
  dsimp only
  rw [hd]
  have hq : 0 ≤ (now - s.last) / second := Int.ediv_nonneg (by omega) (by decide)
  have hnn : 0 ≤ (now - s.last) / second * s.rate := Int.mul_nonneg hq hr
  by_cases h1 : s.tokens ≥ s.capacity
  · left
    rw [if_pos h1]
    exact ⟨rfl, Or.inl (by omega)⟩
  · by_cases h2 : (now - s.last) / second * s.rate = 0
    · left
      simp [h1, h2]
    · right
      simp only [h1, h2, if_false]
      by_cases h3 : s.tokens + (now - s.last) / second * s.rate > s.capacity
      · refine ⟨s.capacity, ?_, by omega, by omega, by omega, by omega⟩
        simp [h3]
      · refine ⟨s.tokens + (now - s.last) / second * s.rate, ?_, by omega, by omega, by omega, by omega⟩
        simp [h3]

theorem admitted_cons (t : Int) (b : Bool) (h : History) :
    admitted ((t, b) :: h) = admitted h + (if b then 1 else 0) := by
  unfold admitted
  cases b <;> simp

theorem admitted_nil : admitted [] = 0 := rfl

theorem admitted_append (a b : History) : admitted (a ++ b) = admitted a + admitted b := by
  unfold admitted; simp

/-- Well-formed bucket. -/
structure WF (s : State) : Prop where
  cap  : 0 ≤ s.capacity
  rate : 0 ≤ s.rate
  lo   : 0 ≤ s.tokens
  hi   : s.tokens ≤ s.capacity

theorem new_wf {cap rate t0 : Int} (hc : 0 ≤ cap) (hr : 0 ≤ rate) : WF (new cap rate t0) :=
  ⟨hc, hr, hc, Int.le_refl _⟩

/-- Summary of one `Acquire`. -/
theorem acquire_spec (s : State) (now : Int) (wf : WF s) (hl : s.last ≤ now) :
    WF (acquire s now).1 ∧ (acquire s now).1.capacity = s.capacity ∧
    (acquire s now).1.rate = s.rate ∧ s.last ≤ (acquire s now).1.last ∧
    (acquire s now).1.last ≤ now ∧
    ((acquire s now).1.tokens + (if (acquire s now).2 then 1 else 0)
      ≤ s.tokens + s.rate * (((acquire s now).1.last - s.last) / second)) ∧
    ((acquire s now).1.tokens + (if (acquire s now).2 then 1 else 0) ≥ s.tokens) ∧
    ((acquire s now).2 = false → (acquire s now).1.tokens = 0) := by
  have hc := wf.cap; have hr := wf.rate; have hlo := wf.lo; have hhi := wf.hi
  rcases issue_cases s now hl hr hhi with ⟨h, _⟩ | ⟨t, h, h1, h2, h3, h4⟩
  · unfold acquire
    rw [h]
    by_cases hp : s.tokens > 0
    · simp only [hp, if_true]
      refine ⟨⟨hc, hr, ?_, ?_⟩, by simp, by simp, by simp, hl, ?_, ?_, ?_⟩ <;> simp <;> omega
    · simp only [hp, if_false]
      refine ⟨wf, by simp, by simp, by simp, hl, ?_, ?_, ?_⟩ <;> simp <;> omega
  · unfold acquire
    rw [h]
    have hcomm : s.rate * ((now - s.last) / second) = (now - s.last) / second * s.rate :=
      Int.mul_comm _ _
    have hp : t > 0 := by omega
    simp only [hp, if_true]
    refine ⟨⟨hc, hr, ?_, ?_⟩, by simp, by simp, hl, by simp, ?_, ?_, ?_⟩ <;> simp <;> omega

/-- Main accounting lemma, from an arbitrary well-formed state. -/
theorem run_bound (s : State) (ts : List Int) (wf : WF s) (hm : NonDecreasing (s.last :: ts)) (T : Int)
    (hT0 : s.last ≤ T) (hT : ∀ t ∈ ts, t ≤ T) :
    WF (run s ts).1 ∧ (run s ts).1.capacity = s.capacity ∧ (run s ts).1.rate = s.rate ∧
    s.last ≤ (run s ts).1.last ∧ (run s ts).1.last ≤ T ∧
    ((admitted (run s ts).2 : Int) + (run s ts).1.tokens
      ≤ s.tokens + s.rate * (((run s ts).1.last - s.last) / second)) ∧
    ((admitted (run s ts).2 : Int) + (run s ts).1.tokens ≥ s.tokens) := by
  induction ts generalizing s with
  | nil => simp [run, admitted_nil, wf, hT0]
  | cons t ts ih =>
    have hl : s.last ≤ t := by
      have := List.pairwise_cons.1 hm
      exact this.1 t (by simp)
    obtain ⟨awf, acap, arate, al1, al2, aub, alb, _⟩ := acquire_spec s t wf hl
    have hm' : NonDecreasing ((acquire s t).1.last :: ts) := by
      have h1 := List.pairwise_cons.1 hm
      have h2 := List.pairwise_cons.1 h1.2
      refine List.pairwise_cons.2 ⟨fun x hx => ?_, h2.2⟩
      exact Int.le_trans al2 (h2.1 x hx)
    have htT : t ≤ T := hT t (by simp)
    obtain ⟨w, c, r, l1, l2, ub, lb⟩ := ih (acquire s t).1 awf hm' (by omega)
      (fun x hx => hT x (by simp [hx]))
    simp only [run, admitted_cons]
    refine ⟨w, by omega, by omega, by omega, l2, ?_, ?_⟩
    · have hfl := floor_add_le ((acquire s t).1.last - s.last)
        ((run (acquire s t).1 ts).1.last - (acquire s t).1.last)
      have hmul := Int.mul_le_mul_of_nonneg_left hfl wf.rate
      rw [Int.mul_add] at hmul
      rw [arate] at ub
      have he : (acquire s t).1.last - s.last +
        ((run (acquire s t).1 ts).1.last - (acquire s t).1.last)
          = (run (acquire s t).1 ts).1.last - s.last := by omega
      rw [he] at hmul
      push_cast
      split <;> rename_i hb <;> simp [hb] at aub ⊢ <;> omega
    · push_cast
      split <;> rename_i hb <;> simp [hb] at alb ⊢ <;> omega

/-- Bound on admissions from a well-formed state up to time `T`. -/
theorem run_admitted_le (s : State) (ts : List Int) (wf : WF s) (hm : NonDecreasing (s.last :: ts))
    (T : Int) (hT0 : s.last ≤ T) (hT : ∀ t ∈ ts, t ≤ T) :
    (admitted (run s ts).2 : Int) ≤ s.tokens + s.rate * ((T - s.last) / second) := by
  obtain ⟨w, _, _, _, l2, ub, _⟩ := run_bound s ts wf hm T hT0 hT
  have hlo := w.lo
  have hd : ((run s ts).1.last - s.last) / second ≤ (T - s.last) / second := by
    unfold second; omega
  have := Int.mul_le_mul_of_nonneg_left hd wf.rate
  omega

theorem nonDecreasing_tail {a b : Int} {ts : List Int} (h : NonDecreasing (a :: b :: ts)) :
    NonDecreasing (a :: ts) := by
  have h1 := List.pairwise_cons.1 h
  have h2 := List.pairwise_cons.1 h1.2
  exact List.pairwise_cons.2 ⟨fun x hx => h1.1 x (by simp [hx]), h2.2⟩

theorem nonDecreasing_append_right {a : Int} {ps ms : List Int}
    (h : NonDecreasing (a :: (ps ++ ms))) : NonDecreasing (a :: ms) := by
  induction ps with
  | nil => simpa using h
  | cons p ps ih => exact ih (nonDecreasing_tail h)

/-- Window lemma for a bucket that is not full. -/
theorem run_window_notfull (s : State) (ts : List Int) (wf : WF s)
    (hm : NonDecreasing (s.last :: ts)) (a w : Int) (hw : 0 ≤ w)
    (hin : ∀ t ∈ ts, a ≤ t ∧ t ≤ a + w) (hnf : s.tokens < s.capacity) :
    (admitted (run s ts).2 : Int) ≤ s.capacity + s.rate * (w / second + 1) := by
  have hr := wf.rate
  cases ts with
  | nil =>
    have : 0 ≤ s.rate * (w / second + 1) :=
      Int.mul_nonneg hr (by have := Int.ediv_nonneg hw (show (0 : Int) ≤ second by decide); omega)
    have hc := wf.cap
    simp [run, admitted_nil]; omega
  | cons t ts =>
    have hl : s.last ≤ t := (List.pairwise_cons.1 hm).1 t (by simp)
    have hta := hin t (by simp)
    have hT : ∀ x ∈ t :: ts, x ≤ a + w := fun x hx => (hin x hx).2
    rcases issue_cases s t hl hr wf.hi with ⟨_, h | h⟩ | ⟨k, h, h1, h2, h3, h4⟩
    · omega
    · -- delta = 0
      rcases Int.mul_eq_zero.1 h with h0 | h0
      · -- less than a second since the last issue
        have := run_admitted_le s (t :: ts) wf hm (a + w) (by omega) hT
        have hlt : t - s.last < second := by
          have h0' : (t - s.last) / 1000000000 = 0 := h0
          unfold second; omega
        have hd : (a + w - s.last) / second ≤ w / second + 1 := by
          have h0' : t - s.last < 1000000000 := hlt
          unfold second; omega
        have := Int.mul_le_mul_of_nonneg_left hd hr
        omega
      · have := run_admitted_le s (t :: ts) wf hm (a + w) (by omega) hT
        rw [h0] at this ⊢
        have hhi := wf.hi
        omega
    · -- an issue happens at t
      -- rephrase the run as a run from the issued state
      have key : run s (t :: ts) = run { s with tokens := k, last := t } (t :: ts) := by
        have e1 : issueIfNecessary { s with tokens := k, last := t } t
            = { s with tokens := k, last := t } := by
          unfold issueIfNecessary
          split
          · rfl
          · simp [second]
        have e2 : acquire s t = acquire { s with tokens := k, last := t } t := by
          unfold acquire; rw [h, e1]
        simp only [run, e2]
      have hm' : NonDecreasing (t :: t :: ts) := by
        have h1 := List.pairwise_cons.1 hm
        refine List.pairwise_cons.2 ⟨?_, h1.2⟩
        intro x hx
        rcases List.mem_cons.1 hx with rfl | hx
        · exact Int.le_refl _
        · exact (List.pairwise_cons.1 h1.2).1 x hx
      have hlo := wf.lo
      have := run_admitted_le { s with tokens := k, last := t } (t :: ts)
        ⟨wf.cap, hr, by show 0 ≤ k; omega, h3⟩ hm' (a + w) (by show t ≤ a + w; omega) hT
      rw [key]
      simp only at this
      have hd : (a + w - t) / second ≤ w / second + 1 := by unfold second; omega
      have := Int.mul_le_mul_of_nonneg_left hd hr
      omega

/-- Window lemma for any well-formed bucket. -/
theorem run_window (s : State) (ts : List Int) (wf : WF s)
    (hm : NonDecreasing (s.last :: ts)) (a w : Int) (hw : 0 ≤ w)
    (hin : ∀ t ∈ ts, a ≤ t ∧ t ≤ a + w) :
    (admitted (run s ts).2 : Int) ≤ s.capacity + 1 + s.rate * (w / second + 1) := by
  have hr := wf.rate
  by_cases hnf : s.tokens < s.capacity
  · have := run_window_notfull s ts wf hm a w hw hin hnf
    omega
  · have hnn : 0 ≤ s.rate * (w / second + 1) :=
      Int.mul_nonneg hr (by have := Int.ediv_nonneg hw (show (0 : Int) ≤ second by decide); omega)
    cases ts with
    | nil => have hc := wf.cap; simp [run, admitted_nil]; omega
    | cons t ts =>
      have e1 : issueIfNecessary s t = s := by
        unfold issueIfNecessary; simp at hnf; simp [hnf]
      have hl : s.last ≤ t := (List.pairwise_cons.1 hm).1 t (by simp)
      have e2 : (acquire s t).1.last = s.last ∧ (acquire s t).1.capacity = s.capacity ∧
          (acquire s t).1.rate = s.rate ∧ WF (acquire s t).1 ∧
          ((acquire s t).1.tokens < s.capacity ∨ s.capacity = 0) := by
        obtain ⟨awf, _⟩ := acquire_spec s t wf hl
        have hlo := wf.lo; have hhi := wf.hi; have hc := wf.cap
        refine ⟨?_, ?_, ?_, awf, ?_⟩ <;> (unfold acquire; rw [e1]; dsimp only; split <;> simp) <;> omega
      obtain ⟨q1, q2, q3, q4, q5⟩ := e2
      simp only [run, admitted_cons]
      have hm' : NonDecreasing ((acquire s t).1.last :: ts) := by
        rw [q1]; exact nonDecreasing_tail hm
      have hb : (((if (acquire s t).2 then 1 else 0 : Nat)) : Int) ≤ 1 := by split <;> simp
      rcases q5 with q5 | q5
      · have := run_window_notfull (acquire s t).1 ts q4 hm' a w hw
          (fun x hx => hin x (by simp [hx])) (by omega)
        rw [q2, q3] at this
        push_cast at hb ⊢
        omega
      · -- capacity 0: nothing is ever admitted
        have hz : ∀ (ts : List Int) (s : State), s.capacity = 0 → s.tokens = 0 →
            admitted (run s ts).2 = 0 := by
          intro ts
          induction ts with
          | nil => intro s _ _; simp [run, admitted_nil]
          | cons t ts ih =>
            intro s h1 h2
            have ha : acquire s t = (s, false) := by
              unfold acquire issueIfNecessary; simp [h1, h2]
            simp [run, ha, admitted_cons, ih s h1 h2]
        have hlo := q4.lo; have hhi := q4.hi
        have := hz ts (acquire s t).1 (by omega) (by omega)
        rw [this]
        push_cast at hb ⊢
        omega

end Gears.TokenBucket
