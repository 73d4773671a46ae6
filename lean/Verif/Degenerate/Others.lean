import Verif.CircuitBreaker.Model
import Verif.Sema.Model

/-
The circuit breaker (circuitbreaker/circuitbreaker.go:58-119) and the semaphores (concurrent/sema.go:37-122) with
parameters that are zero or negative.
-/

namespace Gears.Degenerate

/-! ### Circuit breaker -/

open CircuitBreaker in
/-- The same breaker with threshold 1. -/
def one (b : Breaker) : Breaker := { b with threshold := 1 }

open CircuitBreaker in
structure BInv (th timeout : Int) (b : Breaker) : Prop where
  th   : b.threshold = th
  to   : b.timeout = timeout
  nn   : 0 ≤ b.failures
  zero : b.failures = 0 → b.lastTs = 0

open CircuitBreaker in
/-- Whether a call runs its task. -/
theorem mode_one (th timeout : Int) (hth : th ≤ 0) (b : Breaker) (h : BInv th timeout b) (now : Int) (hn : timeout < now) :
    b.mode now = .opened ↔ (one b).mode now = .opened := by
  obtain ⟨h1, h2, h3, h4⟩ := h
  obtain ⟨a, t, f, l⟩ := b
  simp only at h1 h2 h3 h4
  subst h1 h2
  unfold Breaker.mode one
  simp only
  by_cases hf : f = 0
  · have := h4 hf
    subst hf this
    rw [if_pos (by omega), if_neg (by omega), if_neg (by omega)]
    simp
  · have e1 : f ≥ a := by omega
    have e2 : f ≥ 1 := by omega
    simp only [e1, e2, true_and]

open CircuitBreaker in
/-- The readings of the clock by calls of `Do` are after `timeout`. -/
def After (timeout : Int) : Action → Prop
  | .call now => timeout < now
  | _ => True

open CircuitBreaker in
/-- The same state, of a breaker with threshold 1. -/
def sone (s : State) : State := { s with b := one s.b }

open CircuitBreaker in
structure SInv (th timeout : Int) (s : State) : Prop where
  b   : BInv th timeout s.b
  pcs : ∀ now, PC.deciding now ∈ s.pcs → timeout < now

open CircuitBreaker in
theorem mem_set {pcs : List PC} {i : Nat} {p : PC} {timeout : Int} (hp : ∀ now, PC.deciding now ∈ pcs → timeout < now) (hne : ∀ now, p ≠ .deciding now) :
    ∀ now, PC.deciding now ∈ pcs.set i p → timeout < now := by
  intro now h
  rcases List.mem_or_eq_of_mem_set h with h | h
  · exact hp now h
  · exact absurd h.symm (hne now)

open CircuitBreaker in
theorem step_one (th timeout : Int) (hth : th ≤ 0) (s : State) (h : SInv th timeout s) (a : Action) (ha : After timeout a) :
    step (sone s) a = (step s a).map sone ∧ ∀ s', step s a = some s' → SInv th timeout s' := by
  obtain ⟨hb, hp⟩ := h
  cases a with
  | call now =>
    refine ⟨rfl, ?_⟩
    intro s' hs
    simp only [step, Option.some.injEq] at hs
    subst hs
    refine ⟨hb, ?_⟩
    intro n hn
    simp only [List.mem_append, List.mem_singleton, PC.deciding.injEq] at hn
    rcases hn with hn | rfl
    · exact hp n hn
    · exact ha
  | decide i =>
    simp only [step, sone]
    cases hpc : s.pcs[i]? with
    | none => simp
    | some p =>
      cases p with
      | deciding now =>
        have hn := hp now (List.mem_of_getElem? hpc)
        have hm := mode_one th timeout hth s.b hb now hn
        simp only
        have fin : ∀ (q : PC) (ev : List Ev), (∀ n, q ≠ .deciding n) → SInv th timeout (s.upd s.b i q ev) :=
          fun q ev hq => ⟨hb, mem_set hp hq⟩
        cases h1 : s.b.mode now with
        | opened =>
          rw [hm.1 h1]
          refine ⟨rfl, ?_⟩
          rintro s' hs
          simp only [Option.some.injEq] at hs
          subst hs
          exact fin _ _ (by simp)
        | closed =>
          have h2 : (one s.b).mode now ≠ .opened := fun e => by rw [hm.2 e] at h1; cases h1
          refine ⟨?_, ?_⟩
          · cases h3 : (one s.b).mode now with
            | opened => exact absurd h3 h2
            | closed => rfl
            | halfOpen => rfl
          · rintro s' hs
            simp only [Option.some.injEq] at hs
            subst hs
            exact fin _ _ (by simp)
        | halfOpen =>
          have h2 : (one s.b).mode now ≠ .opened := fun e => by rw [hm.2 e] at h1; cases h1
          refine ⟨?_, ?_⟩
          · cases h3 : (one s.b).mode now with
            | opened => exact absurd h3 h2
            | closed => rfl
            | halfOpen => rfl
          · rintro s' hs
            simp only [Option.some.injEq] at hs
            subst hs
            exact fin _ _ (by simp)
      | _ => simp
  | openCb i =>
    simp only [step, sone]
    cases hpc : s.pcs[i]? with
    | none => simp
    | some p =>
      cases p <;> simp only [Option.map_none, Option.map_some, true_and, reduceCtorEq, false_implies, implies_true]
      refine ⟨rfl, ?_⟩
      rintro s' hs
      simp only [Option.some.injEq] at hs
      subst hs
      exact ⟨hb, mem_set hp (by simp)⟩
  | taskEnd i o =>
    simp only [step, sone]
    cases hpc : s.pcs[i]? with
    | none => simp
    | some p =>
      cases p <;> simp only [Option.map_none, Option.map_some, true_and, reduceCtorEq, false_implies, implies_true]
      cases o <;>
      · refine ⟨rfl, ?_⟩
        rintro s' hs
        simp only [Option.some.injEq] at hs
        subst hs
        exact ⟨hb, mem_set hp (by simp)⟩
  | record i now =>
    simp only [step, sone]
    cases hpc : s.pcs[i]? with
    | none => simp
    | some p =>
      cases p <;> simp only [Option.map_none, Option.map_some, true_and, reduceCtorEq, false_implies, implies_true]
      refine ⟨rfl, ?_⟩
      rintro s' hs
      simp only [Option.some.injEq] at hs
      subst hs
      refine ⟨⟨hb.th, hb.to, ?_, ?_⟩, mem_set hp (by simp)⟩
      · have := hb.nn
        simp only [State.upd, Breaker.recordFailure]
        omega
      · have := hb.nn
        simp only [State.upd, Breaker.recordFailure]
        omega
  | errCb i =>
    simp only [step, sone]
    cases hpc : s.pcs[i]? with
    | none => simp
    | some p =>
      cases p <;> simp only [Option.map_none, Option.map_some, true_and, reduceCtorEq, false_implies, implies_true]
      refine ⟨rfl, ?_⟩
      rintro s' hs
      simp only [Option.some.injEq] at hs
      subst hs
      exact ⟨hb, mem_set hp (by simp)⟩
  | reset i =>
    simp only [step, sone]
    cases hpc : s.pcs[i]? with
    | none => simp
    | some p =>
      cases p <;> simp only [Option.map_none, Option.map_some, true_and, reduceCtorEq, false_implies, implies_true]
      refine ⟨rfl, ?_⟩
      rintro s' hs
      simp only [Option.some.injEq] at hs
      subst hs
      exact ⟨⟨hb.th, hb.to, Int.le_refl _, fun _ => rfl⟩, mem_set hp (by simp)⟩

open CircuitBreaker in
/-- A breaker with a threshold of zero or less does the same as one with threshold 1, under every interleaving of any number of
calls, when the readings of the clock are after `timeout` (the clock counts from 1970). -/
theorem C148_breaker_threshold (th timeout : Int) (hth : th ≤ 0) (as : List Action) (ha : ∀ a ∈ as, After timeout a) :
    (exec step (init th timeout) as).map (·.log) = (exec step (init 1 timeout) as).map (·.log) := by
  have gen : ∀ (as : List Action) (s : State), (∀ a ∈ as, After timeout a) → SInv th timeout s →
      exec step (sone s) as = (exec step s as).map sone := by
    intro as
    induction as with
    | nil => intro s _ _; rfl
    | cons a as ih =>
      intro s ha hs
      have h1 := step_one th timeout hth s hs a (ha a List.mem_cons_self)
      simp only [exec, h1.1]
      cases h2 : step s a with
      | none => rfl
      | some s1 => exact ih s1 (fun b hb => ha b (List.mem_cons_of_mem _ hb)) (h1.2 s1 h2)
  have := gen as (init th timeout) ha ⟨⟨rfl, rfl, Int.le_refl _, fun _ => rfl⟩, by simp [init]⟩
  rw [show init 1 timeout = sone (init th timeout) from rfl, this]
  cases exec step (init th timeout) as <;> rfl

open CircuitBreaker in
/-- With a threshold of zero or less and a reading not after `timeout`, a new breaker refuses its very first call. -/
theorem C148_breaker_early (th timeout now : Int) (hth : th ≤ 0) (hn : now ≤ timeout) :
    (exec step (init th timeout) [.call now, .decide 0]).map (·.log) = some [.refuse 0 now] := by
  have : (new th timeout).mode now = .opened := by
    have e2 : (0 : Int) ≥ th := hth
    simp [Breaker.mode, new, e2]
    omega
  simp [exec, step, init, this, State.upd]

open CircuitBreaker in
/-- A breaker with a negative timeout refuses no call that reads the clock at the time of the last failure or later. -/
theorem C148_breaker_timeout (b : Breaker) (ht : b.timeout < 0) (now : Int) (hn : b.lastTs ≤ now) : b.mode now ≠ .opened := by
  unfold Breaker.mode
  by_cases hf : b.failures ≥ b.threshold
  · rw [if_pos ⟨hf, by omega⟩]; simp
  · rw [if_neg (by omega), if_neg hf]; simp

open CircuitBreaker in
example : (exec step (init (-2) 10) [.call 11, .decide 0, .taskEnd 0 (.err 3), .record 0 12, .call 20, .decide 1, .call 23, .decide 2]).map (·.log) =
    some [.start 0 11, .finish 0 (.err 3), .recFail 0 12, .refuse 1 20, .start 2 23] := by decide

/-! ### Semaphores -/

open Sema

/-- A call got a permit. -/
def Got : Ev → Prop
  | .acquired _ => True
  | .tried b => b = true
  | _ => False

/-- **C148**, the claim for the semaphores: with no permits, or a negative number, they are made without panic, and no call gets a
permit. -/
def C148SemaClaim : Prop :=
  ∀ (p : Int), p ≤ 0 →
    (∃ c0, Chan.new p = some c0 ∧ ∀ as c, exec Chan.step c0 as = some c → ∀ e ∈ c.log, ¬ Got e) ∧
    (∀ as l, exec Lock.step (Lock.new p) as = some l → ∀ e ∈ l.log, ¬ Got e)

/-- **C148, partial**: the claim holds for the LockSemaphore. -/
theorem C148_lock_partial (p : Int) (hp : p ≤ 0) (as : List Lock.Action) (l : Lock.State) (h : exec Lock.step (Lock.new p) as = some l) :
    ∀ e ∈ l.log, ¬ Got e := by
  let I : Lock.State → Prop := fun l => l.permits = p ∧ l.count = 0 ∧ ∀ e ∈ l.log, ¬ Got e
  refine (exec_inv (I := I) ?_ as _ l ⟨rfl, rfl, by simp [Lock.new]⟩ h).2.2
  rintro l a l' ⟨h1, h2, h3⟩ hs
  have hf : l.isFull := by unfold Lock.State.isFull; omega
  have happ : ∀ e, ¬ Got e → ∀ x ∈ l.log ++ [e], ¬ Got x := by
    intro e he x hx
    rcases List.mem_append.1 hx with hx | hx
    · exact h3 x hx
    · rw [List.mem_singleton.1 hx]; exact he
  cases a with
  | acquire =>
    simp only [Lock.step, if_pos hf, Option.some.injEq] at hs
    subst hs
    exact ⟨h1, h2, happ _ (by simp [Got])⟩
  | tryAcquire =>
    simp only [Lock.step, if_pos hf, Option.some.injEq] at hs
    subst hs
    exact ⟨h1, h2, happ _ (by simp [Got])⟩
  | release =>
    rw [Lock.step, if_pos (by omega), Option.some.injEq] at hs
    subst hs
    exact ⟨h1, h2, happ _ (by simp [Got])⟩
  | run i =>
    simp only [Lock.step, if_pos hf] at hs
    split at hs
    · simp only [Option.some.injEq] at hs
      subst hs
      exact ⟨h1, h2, h3⟩
    · simp at hs

/-- **C148 is violated**: a negative number of permits makes NewChanSemaphore panic (NewLockSemaphore does not). -/
theorem C148_chan_new_violated (p : Int) (hp : p < 0) : Chan.new p = none := by
  unfold Chan.new
  rw [if_pos hp]

/-- **C148 is violated**: with no permits, an unbuffered channel hands over what a blocked `Acquire` sends to a `Release` by
anybody, and `Acquire` returns. -/
theorem C148_chan_zero_violated : ∃ c, exec Chan.step ⟨0, 0, [], 0, []⟩ [.acquire, .release] = some c ∧
    c.log = [.blocked 0, .released true, .acquired 0] := ⟨_, rfl, rfl⟩

/-- **C148, partial**: with no permits, `TryAcquire` never succeeds, and every `Acquire` that returns does so in a `Release`. -/
theorem C148_chan_zero_partial (as : List Chan.Action) (c : Chan.State) (h : exec Chan.step ⟨0, 0, [], 0, []⟩ as = some c) :
    (∀ b, Ev.tried b ∈ c.log → b = false) ∧
      c.log.countP (fun e => match e with | .acquired _ => true | _ => false) = c.log.countP (fun e => e == .released true) := by
  let I : Chan.State → Prop := fun c => c.permits = 0 ∧ c.n = 0 ∧ (∀ b, Ev.tried b ∈ c.log → b = false) ∧
      c.log.countP (fun e => match e with | .acquired _ => true | _ => false) = c.log.countP (fun e => e == .released true)
  refine (exec_inv (I := I) ?_ as _ c ⟨rfl, rfl, by simp, rfl⟩ h).2.2
  rintro c a c' ⟨h1, h2, h3, h4⟩ hs
  have hf : ¬ c.n < c.permits := by omega
  cases a with
  | acquire =>
    simp only [Chan.step, if_neg hf, Option.some.injEq] at hs
    subst hs
    refine ⟨h1, h2, ?_, ?_⟩
    · simpa using h3
    · simpa [List.countP_append] using h4
  | tryAcquire =>
    simp only [Chan.step, if_neg hf, Option.some.injEq] at hs
    subst hs
    refine ⟨h1, h2, ?_, ?_⟩
    · intro b hb
      simp only [List.mem_append, List.mem_singleton, Ev.tried.injEq] at hb
      rcases hb with hb | hb
      · exact h3 b hb
      · exact hb
    · simpa [List.countP_append] using h4
  | release =>
    simp only [Chan.step] at hs
    split at hs
    · simp only [Option.some.injEq] at hs
      subst hs
      refine ⟨h1, h2, ?_, ?_⟩
      · simpa using h3
      · simp [List.countP_append, List.countP_cons, h4]
    · rw [if_neg (by omega), Option.some.injEq] at hs
      subst hs
      refine ⟨h1, h2, ?_, ?_⟩
      · simpa using h3
      · simpa [List.countP_append] using h4

/-- The claim for the semaphores does not hold. -/
theorem C148_sema_violated : ¬ C148SemaClaim := by
  intro h
  obtain ⟨c0, h1, _⟩ := (h (-1) (by decide)).1
  simp [Chan.new] at h1

end Gears.Degenerate
