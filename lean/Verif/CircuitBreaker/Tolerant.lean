import Verif.CircuitBreaker.Model
import Verif.Common.Exec
import Verif.Common.History

/-
Breakers that are more or less tolerant (C177): /repo/circuitbreaker/circuitbreaker.go:46-134, the models of Model.lean.  Two
breakers are compared on the same calls with the same tasks: one with a higher threshold or a shorter timeout, and one with a
lower threshold or a longer timeout.
-/

namespace Gears.CircuitBreaker.Tolerant

open Gears

/-! ### Specification -/

def isRefuse : Ev → Bool
  | .refuse _ _ => true
  | _ => false

def isStart : Ev → Bool
  | .start _ _ => true
  | _ => false

/-- Calls that are refused. -/
def refusals (es : List Ev) : Nat := es.countP isRefuse

/-- Tasks that are started. -/
def starts (es : List Ev) : Nat := es.countP isStart

/-- `(th', tm')` is at least as tolerant as `(th, tm)`. -/
def AsTolerant (th tm th' tm' : Int) : Prop := th ≤ th' ∧ tm' ≤ tm

/-- A call refused by the more tolerant breaker is refused by the other. -/
def C177Claim : Prop := ∀ (th tm th' tm' : Int), 1 ≤ th → 0 ≤ tm' → AsTolerant th tm th' tm' →
  ∀ (cs : List (Int × Outcome × Int)) (i : Nat) (now : Int),
    .refuse i now ∈ ((new th' tm').runSeq 0 cs).2 → .refuse i now ∈ ((new th tm).runSeq 0 cs).2

/-- The more tolerant breaker refuses at most as many calls. -/
def C177Count : Prop := ∀ (th tm th' tm' : Int), 1 ≤ th → 0 ≤ tm' → AsTolerant th tm th' tm' →
  ∀ (cs : List (Int × Outcome × Int)), refusals ((new th' tm').runSeq 0 cs).2 ≤ refusals ((new th tm).runSeq 0 cs).2

/-! ### Until the first refusal -/

/-- Same counters, other parameters. -/
def Alike (s s' : State) : Prop :=
  s'.b.failures = s.b.failures ∧ s'.b.lastTs = s.b.lastTs ∧ AsTolerant s.b.threshold s.b.timeout s'.b.threshold s'.b.timeout ∧
    s'.pcs = s.pcs ∧ s'.log = s.log

theorem mode_alike (b b' : Breaker) (hf : b'.failures = b.failures) (hl : b'.lastTs = b.lastTs)
    (ht : AsTolerant b.threshold b.timeout b'.threshold b'.timeout) (now : Int) (hm : b.mode now ≠ .opened) :
    b'.mode now ≠ .opened := by
  obtain ⟨h1, h2⟩ := ht
  unfold Breaker.mode at hm ⊢
  rw [hf, hl]
  by_cases ha : b.failures ≥ b'.threshold
  · have hb : b.failures ≥ b.threshold := by omega
    by_cases hc : now - b.lastTs > b.timeout
    · have : now - b.lastTs > b'.timeout := by omega
      simp [ha, this]
    · simp [hb, hc] at hm
  · simp [ha]

theorem log_grows (s s1 : State) (a : Action) (h : step s a = some s1) : ∃ es, s1.log = s.log ++ es := by
  cases a <;> simp only [step] at h <;> (repeat' split at h) <;> first | cases h | skip
  all_goals first | exact ⟨_, rfl⟩ | exact ⟨[], by simp⟩ | exact ⟨[], (List.append_nil _).symm⟩

theorem log_grows_exec (as : List Action) : ∀ s s1, exec step s as = some s1 → ∃ es, s1.log = s.log ++ es := by
  induction as with
  | nil => intro s s1 h; cases h; exact ⟨[], by simp⟩
  | cons a as ih =>
    intro s s1 h
    simp only [exec] at h
    cases hs : step s a with
    | none => rw [hs] at h; simp at h
    | some s2 =>
      rw [hs] at h
      obtain ⟨e1, h1⟩ := log_grows s s2 a hs
      obtain ⟨e2, h2⟩ := ih s2 s1 (by simpa using h)
      exact ⟨e1 ++ e2, by rw [h2, h1, List.append_assoc]⟩

theorem alike_step (s s' s1 : State) (a : Action) (hal : Alike s s') (h : step s a = some s1)
    (hn : ∀ e ∈ s1.log, isRefuse e = false) : ∃ s1', step s' a = some s1' ∧ Alike s1 s1' := by
  obtain ⟨⟨th, tm, f, l⟩, pcs, log⟩ := s
  obtain ⟨⟨th', tm', f', l'⟩, pcs', log'⟩ := s'
  obtain ⟨e1, e2, ht, e3, e4⟩ := hal
  simp only at e1 e2 e3 e4
  subst e1 e2 e3 e4
  cases a with
  | decide i =>
    simp only [step] at h ⊢
    split at h
    · next now hp =>
      have hmo := mode_alike ⟨th, tm, f', l'⟩ ⟨th', tm', f', l'⟩ rfl rfl ht now
      have hno : Breaker.mode ⟨th, tm, f', l'⟩ now ≠ .opened := by
        intro hm
        rw [hm] at h
        simp only [Option.some.injEq] at h
        subst h
        have := hn (.refuse i now) (by simp [State.upd])
        simp [isRefuse] at this
      have hno' := hmo hno
      refine ⟨State.upd ⟨⟨th', tm', f', l'⟩, pcs', log'⟩ ⟨th', tm', f', l'⟩ i .running [.start i now], ?_, ?_⟩
      · cases hm : Breaker.mode ⟨th', tm', f', l'⟩ now with
        | opened => exact absurd hm hno'
        | closed => rfl
        | halfOpen => rfl
      · cases hm : Breaker.mode ⟨th, tm, f', l'⟩ now with
        | opened => exact absurd hm hno
        | closed => rw [hm] at h; cases h; exact ⟨rfl, rfl, ht, rfl, rfl⟩
        | halfOpen => rw [hm] at h; cases h; exact ⟨rfl, rfl, ht, rfl, rfl⟩
    · cases h
  | _ =>
    simp only [step] at h ⊢
    (repeat' split at h) <;> first | cases h | skip
    all_goals exact ⟨_, rfl, rfl, rfl, ht, rfl, rfl⟩

/-- **C177**, partial, for concurrent calls: until the other breaker has refused a call, the more tolerant one does exactly the
same; so the first refusal of the more tolerant one is not earlier. -/
theorem C177_first_partial (th tm th' tm' : Int) (ht : AsTolerant th tm th' tm') (as : List Action) (s : State)
    (h : exec step (init th tm) as = some s) (hn : ∀ e ∈ s.log, isRefuse e = false) :
    ∃ s', exec step (init th' tm') as = some s' ∧ s'.log = s.log := by
  have key : ∀ (as : List Action) (s0 s0' s : State), Alike s0 s0' → exec step s0 as = some s →
      (∀ e ∈ s.log, isRefuse e = false) → ∃ s', exec step s0' as = some s' ∧ s'.log = s.log := by
    intro as
    induction as with
    | nil => intro s0 s0' s hal h _; cases h; exact ⟨s0', rfl, hal.2.2.2.2⟩
    | cons a as ih =>
      intro s0 s0' s hal h hn
      simp only [exec] at h ⊢
      cases hs : step s0 a with
      | none => rw [hs] at h; simp at h
      | some s2 =>
        rw [hs] at h
        have h2 : exec step s2 as = some s := by simpa using h
        obtain ⟨es, hes⟩ := log_grows_exec as s2 s h2
        obtain ⟨s2', hs', hal'⟩ := alike_step s0 s0' s2 a hal hs (fun e he => hn e (by rw [hes]; simp [he]))
        rw [hs']
        simpa using ih s2 s2' s hal' h2 hn
  exact key as (init th tm) (init th' tm') s ⟨rfl, rfl, ht, rfl, rfl⟩ h hn

/-- Non-vacuity: two calls that overlap, both tasks fail. -/
example : ((exec step (init 2 10) [.call 1, .call 2, .decide 0, .decide 1, .taskEnd 0 (.err 0), .taskEnd 1 (.err 0), .record 0 3,
    .record 1 3]).map fun s => s.log.all fun e => !isRefuse e) = some true := by decide

/-! ### In an outage -/

/-- Every task fails, and the clock does not go back. -/
def Outage : Int → List (Int × Outcome × Int) → Prop
  | _, [] => True
  | t, (now, o, now2) :: cs => t ≤ now ∧ now ≤ now2 ∧ (∃ e, o = .err e) ∧ Outage now2 cs

/-- A call whose task fails: refused, or started and recorded. -/
theorem fail_step (b : Breaker) (i : Nat) (now : Int) (e : Nat) (now2 : Int) :
    ((b.failures ≥ b.threshold ∧ now - b.lastTs ≤ b.timeout) ∧ b.doSeq i now (.err e) now2 = (b, [.refuse i now, .onOpen i])) ∨
    ((b.failures < b.threshold ∨ now - b.lastTs > b.timeout) ∧ b.doSeq i now (.err e) now2 =
      (b.recordFailure now2, [.start i now, .finish i (.err e), .recFail i now2, .onError i e])) := by
  simp only [Breaker.doSeq, Breaker.mode]
  by_cases h1 : b.failures ≥ b.threshold
  · by_cases h2 : now - b.lastTs > b.timeout
    · right; simp [h1, h2]
    · left
      have h3 : now - b.lastTs ≤ b.timeout := by omega
      simp [h1, h2, h3]
  · right
    have h3 : b.failures < b.threshold := by omega
    simp [h1, h3]

theorem outage_ahead (cs : List (Int × Outcome × Int)) : ∀ (t : Int) (b b' : Breaker) (i : Nat),
    Outage t cs → AsTolerant b.threshold b.timeout b'.threshold b'.timeout → b.lastTs ≤ t → b'.lastTs ≤ t →
    b.failures ≤ b'.failures → (b.failures = b'.failures → b'.lastTs ≤ b.lastTs) →
    b.failures + starts (b.runSeq i cs).2 ≤ b'.failures + starts (b'.runSeq i cs).2 := by
  induction cs with
  | nil => intro t b b' i _ _ _ _ h _; simpa [Breaker.runSeq, starts] using h
  | cons c cs ih =>
    intro t b b' i ho ht hl hl' hf hq
    obtain ⟨now, o, now2⟩ := c
    obtain ⟨h1, h2, ⟨e, rfl⟩, ho⟩ := ho
    obtain ⟨ht1, ht2⟩ := ht
    rcases fail_step b i now e now2 with ⟨m1, x1⟩ | ⟨m1, x1⟩ <;> rcases fail_step b' i now e now2 with ⟨m2, x2⟩ | ⟨m2, x2⟩
    · have := ih now2 b b' (i + 1) ho ⟨ht1, ht2⟩ (by omega) (by omega) hf hq
      simp only [Breaker.runSeq, x1, x2]
      simpa [starts, isStart] using this
    · have := ih now2 b (b'.recordFailure now2) (i + 1) ho ⟨ht1, ht2⟩ (by omega) (Int.le_refl _)
        (by simp only [Breaker.recordFailure]; omega) (by simp only [Breaker.recordFailure]; omega)
      simp only [Breaker.runSeq, x1, x2]
      simp only [starts, isStart, List.countP_append, List.countP_cons, List.countP_nil, Breaker.recordFailure] at this ⊢
      simp only [Bool.false_eq_true, if_false, if_true]
      omega
    · have hlt : b.failures < b'.failures := by
        rcases Int.lt_or_eq_of_le hf with h | h
        · exact h
        · have := hq h
          omega
      have := ih now2 (b.recordFailure now2) b' (i + 1) ho ⟨ht1, ht2⟩ (Int.le_refl _) (by omega)
        (by simp only [Breaker.recordFailure]; omega) (by simp only [Breaker.recordFailure]; omega)
      simp only [Breaker.runSeq, x1, x2]
      simp only [starts, isStart, List.countP_append, List.countP_cons, List.countP_nil, Breaker.recordFailure] at this ⊢
      simp only [Bool.false_eq_true, if_false, if_true]
      omega
    · have := ih now2 (b.recordFailure now2) (b'.recordFailure now2) (i + 1) ho ⟨ht1, ht2⟩ (Int.le_refl _) (Int.le_refl _)
        (by simp only [Breaker.recordFailure]; omega) (fun _ => Int.le_refl _)
      simp only [Breaker.runSeq, x1, x2]
      simp only [starts, isStart, List.countP_append, List.countP_cons, List.countP_nil, Breaker.recordFailure] at this ⊢
      simp only [Bool.false_eq_true, if_false, if_true]
      omega

theorem starts_refusals (cs : List (Int × Outcome × Int)) : ∀ (b : Breaker) (i : Nat),
    starts (b.runSeq i cs).2 + refusals (b.runSeq i cs).2 = cs.length := by
  induction cs with
  | nil => intro b i; rfl
  | cons c cs ih =>
    intro b i
    obtain ⟨now, o, now2⟩ := c
    have h1 := ih (b.doSeq i now o now2).1 (i + 1)
    have h2 : starts (b.doSeq i now o now2).2 + refusals (b.doSeq i now o now2).2 = 1 := by
      simp only [Breaker.doSeq]
      cases b.mode now <;> cases o <;> rfl
    simp only [Breaker.runSeq, starts, refusals, List.countP_append, List.length_cons] at h1 h2 ⊢
    omega

/-- **C177**, partial: in an outage the more tolerant breaker refuses at most as many calls, up to every moment. -/
theorem C177_outage_partial (th tm th' tm' : Int) (ht : AsTolerant th tm th' tm') (t : Int) (h0 : 0 ≤ t)
    (cs : List (Int × Outcome × Int)) (ho : Outage t cs) :
    refusals ((new th' tm').runSeq 0 cs).2 ≤ refusals ((new th tm).runSeq 0 cs).2 := by
  have h1 := outage_ahead cs t (new th tm) (new th' tm') 0 ho ht h0 h0 (Int.le_refl _) (fun _ => Int.le_refl _)
  have h2 := starts_refusals cs (new th tm) 0
  have h3 := starts_refusals cs (new th' tm') 0
  simp only [new] at h1 h2 h3 ⊢
  omega

/-- Non-vacuity: calls at 1, 2, 14 and 30, all failing. -/
example : Outage 0 [(1, .err 0, 1), (2, .err 0, 3), (14, .err 0, 14), (30, .err 0, 30)] ∧
    refusals ((new 2 10).runSeq 0 [(1, .err 0, 1), (2, .err 0, 3), (14, .err 0, 14), (30, .err 0, 30)]).2 = 0 ∧
    refusals ((new 1 15).runSeq 0 [(1, .err 0, 1), (2, .err 0, 3), (14, .err 0, 14), (30, .err 0, 30)]).2 = 2 := by
  refine ⟨?_, by decide, by decide⟩
  simp [Outage]

/-! ### After an outage -/

/-- Calls at 0, 5 and then `n` calls at 12; tasks fail until 6. -/
def calls (n : Nat) : List (Int × Outcome × Int) :=
  [(0, .err 0, 0), (5, .err 0, 5)] ++ List.replicate n (12, .ok, 12)

/-- **C177**, violated: with threshold 1 the call at 5 is refused and those at 12 are not; with threshold 2 the task at 5 fails,
so the breaker is open until 15. -/
theorem C177_violated : ¬ C177Claim := by
  intro h
  have := h 1 10 2 10 (by omega) (by omega) ⟨by omega, by omega⟩ (calls 1) 2 12
  revert this
  decide

/-- **C177**, violated for the timeout: a probe at 11 fails and the shorter timeout refuses the call at 16. -/
theorem C177_timeout_violated : ∃ (cs : List (Int × Outcome × Int)) (i : Nat) (now : Int),
    .refuse i now ∈ ((new 1 10).runSeq 0 cs).2 ∧ .refuse i now ∉ ((new 1 15).runSeq 0 cs).2 :=
  ⟨[(0, .err 0, 0), (11, .err 0, 11), (16, .ok, 16)], 2, 16, by decide, by decide⟩

/-- **C177**, violated for the number of refused calls. -/
theorem C177_count_violated : ¬ C177Count := by
  intro h
  have := h 1 10 2 10 (by omega) (by omega) ⟨by omega, by omega⟩ (calls 2)
  revert this
  decide

/-- As many as one likes: one refused call with the lower threshold, `n` with the higher. -/
theorem C177_many_violated (n : Nat) : refusals ((new 1 10).runSeq 0 (calls n)).2 = 1 ∧ refusals ((new 2 10).runSeq 0 (calls n)).2 = n := by
  have h1 : ∀ (n i : Nat), refusals ((new 1 10).runSeq i (List.replicate n (12, .ok, 12))).2 = 0 := by
    intro n
    induction n with
    | zero => intro i; rfl
    | succ n ih =>
      intro i
      have hd : (new 1 10).doSeq i 12 .ok 12 = (new 1 10, [.start i 12, .finish i .ok, .recOk i]) := rfl
      simp only [List.replicate_succ, Breaker.runSeq, hd]
      simpa [refusals, isRefuse] using ih (i + 1)
  have h2 : ∀ (n i : Nat), refusals (Breaker.runSeq ⟨2, 10, 2, 5⟩ i (List.replicate n (12, .ok, 12))).2 = n := by
    intro n
    induction n with
    | zero => intro i; rfl
    | succ n ih =>
      intro i
      have hd : Breaker.doSeq ⟨2, 10, 2, 5⟩ i 12 .ok 12 = (⟨2, 10, 2, 5⟩, [.refuse i 12, .onOpen i]) := rfl
      have := ih (i + 1)
      simp only [List.replicate_succ, Breaker.runSeq, hd]
      simp only [refusals, isRefuse, List.countP_append, List.countP_cons, List.countP_nil] at this ⊢
      simp only [Bool.false_eq_true, if_false, if_true]
      omega
  constructor
  · cases n with
    | zero => decide
    | succ n =>
      have hd : ∀ i, Breaker.doSeq ⟨1, 10, 1, 0⟩ i 12 .ok 12 = (new 1 10, [.start i 12, .finish i .ok, .recOk i]) := fun _ => rfl
      have ha : (new 1 10).doSeq 0 0 (.err 0) 0 = (⟨1, 10, 1, 0⟩, [.start 0 0, .finish 0 (.err 0), .recFail 0 0, .onError 0 0]) := rfl
      have hb : Breaker.doSeq ⟨1, 10, 1, 0⟩ (0 + 1) 5 (.err 0) 5 = (⟨1, 10, 1, 0⟩, [.refuse 1 5, .onOpen 1]) := rfl
      have := h1 n (0 + 1 + 1 + 1)
      simp only [calls, List.replicate_succ, List.cons_append, List.nil_append, Breaker.runSeq, ha, hb, hd]
      simp only [refusals, isRefuse, List.countP_cons] at this ⊢
      simp only [Bool.false_eq_true, if_false, if_true]
      omega
  · have ha : (new 2 10).doSeq 0 0 (.err 0) 0 = (⟨2, 10, 1, 0⟩, [.start 0 0, .finish 0 (.err 0), .recFail 0 0, .onError 0 0]) := rfl
    have hb : Breaker.doSeq ⟨2, 10, 1, 0⟩ (0 + 1) 5 (.err 0) 5 =
      (⟨2, 10, 2, 5⟩, [.start 1 5, .finish 1 (.err 0), .recFail 1 5, .onError 1 0]) := rfl
    have := h2 n (0 + 1 + 1)
    simp only [calls, List.cons_append, List.nil_append, Breaker.runSeq, ha, hb]
    simp only [refusals, isRefuse, List.countP_cons] at this ⊢
    simp only [Bool.false_eq_true, if_false]
    omega

end Gears.CircuitBreaker.Tolerant
