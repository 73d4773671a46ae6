import Verif.Common.Exec

/-
C130: what the log says about a job.

One call of `runJob` (/repo/schedule/task.go:98-139) with its two goroutines, step by step: here the return of the job function, `close(fin)` and the reading of
`timeoutCtx.Err()` are separate, since the goroutine that waits can run in between.

* Time is a number that only grows; the timer of the context fires at its deadline or any time later.
* A line of the log is written in one step.  Of a line, what follows the name and number of the job is kept; the lines of the two loggers are in one list.
-/

namespace Gears.Schedule.JobLog

/-- `timeoutCtx.Err()` -/
inductive CtxErr where
  | canceled | deadline
deriving Repr, DecidableEq

/-- The lines of 99, 116, 120, 122, 124. -/
inductive Line where
  | start
  | error (e : String)
  | byStop (elapse : Nat)
  | byTimeout (elapse : Nat)
  | finished (elapse : Nat)
deriving Repr, DecidableEq

/-- The goroutine that called `runJob`: at the select of 129, at `<-fin` (131, 134), at the deferred `cancel()` (101), returned. -/
inductive Main where
  | sel | waitFin | leave | ret
deriving Repr, DecidableEq

/-- The goroutine of the job: before 106, in the job function, before 113, before 115, before 119, returned. -/
inductive Fn where
  | ready
  | running (startAt : Nat)
  | returned (elapse : Nat) (err : Option String)
  | closed (elapse : Nat) (err : Option String)
  | reading (elapse : Nat)
  | over
deriving Repr, DecidableEq

structure State where
  now     : Nat
  due     : Nat
  stopSig : Bool
  ctx     : Option CtxErr
  main    : Main
  fn      : Fn
  log     : List Line
  /-- for the statements: the running time of the job, its error, and `timeoutCtx.Err()` when it returned -/
  ended   : Option (Nat × Option String × Option CtxErr)
  /-- for the statements: when the job returned, and whether `Stop` had been called by then -/
  endedAt : Nat
  stopped : Bool
deriving Repr, DecidableEq

/-- 99-105, at time `now`; the task may have been stopped already. -/
def init (now timeout : Nat) (stopSig : Bool) : State := ⟨now, now + timeout, stopSig, none, .sel, .ready, [.start], none, 0, false⟩

inductive Action where
  | pass (d : Nat)
  /-- somebody calls `Stop` -/
  | stop
  /-- the timer of the context -/
  | fire
  /-- the cases of the select -/
  | caseDone | caseStop | caseFin
  /-- `<-fin` -/
  | fin
  /-- the deferred `cancel()` -/
  | cancel
  | jobStart
  | jobReturn (err : Option String)
  | closeFin
  /-- 115-117 -/
  | logError
  /-- 119-125 -/
  | logEnd
deriving Repr, DecidableEq

def finClosed : Fn → Bool
  | .closed _ _ | .reading _ | .over => true
  | _ => false

/-- `cancel()`: the first error stays. -/
def cancelled (c : Option CtxErr) : Option CtxErr :=
  match c with
  | none => some .canceled
  | some e => some e

def step (s : State) : Action → Option State
  | .pass d => some { s with now := s.now + d }
  | .stop => some { s with stopSig := true }
  | .fire => if s.due ≤ s.now ∧ s.ctx = none then some { s with ctx := some .deadline } else none
  | .caseDone => if s.main = .sel ∧ s.ctx ≠ none then some { s with main := .waitFin } else none
  | .caseStop => if s.main = .sel ∧ s.stopSig = true then some { s with main := .waitFin, ctx := cancelled s.ctx } else none
  | .caseFin => if s.main = .sel ∧ finClosed s.fn = true then some { s with main := .leave } else none
  | .fin => if s.main = .waitFin ∧ finClosed s.fn = true then some { s with main := .leave } else none
  | .cancel => if s.main = .leave then some { s with main := .ret, ctx := cancelled s.ctx } else none
  | .jobStart => if s.fn = .ready then some { s with fn := .running s.now } else none
  | .jobReturn e =>
    match s.fn with
    | .running a => some { s with fn := .returned (s.now - a) e, ended := some (s.now - a, e, s.ctx), endedAt := s.now, stopped := s.stopSig }
    | _ => none
  | .closeFin =>
    match s.fn with
    | .returned t e => some { s with fn := .closed t e }
    | _ => none
  | .logError =>
    match s.fn with
    | .closed t none => some { s with fn := .reading t }
    | .closed t (some e) => some { s with fn := .reading t, log := s.log ++ [.error e] }
    | _ => none
  | .logEnd =>
    match s.fn with
    | .reading t =>
      some { s with fn := .over, log := s.log ++ [match s.ctx with
        | some .canceled => .byStop t
        | some .deadline => .byTimeout t
        | none => .finished t] }
    | _ => none

/-! ## C130 -/

/-- The line that describes how a job ended: whether its channel was closed when it returned, and why. -/
def describe (t : Nat) : Option CtxErr → Line
  | some .canceled => .byStop t
  | some .deadline => .byTimeout t
  | none => .finished t

/-- The claim: when the goroutine of the job is over, the log has the start, the error if there was one, and how the job ended. -/
def C130Claim : Prop := ∀ (now timeout : Nat) (stop : Bool) (s : State), Reachable step (init now timeout stop) s → s.fn = .over →
  ∃ t e c, s.ended = some (t, e, c) ∧ s.log = [.start] ++ (e.map .error).toList ++ [describe t c]

/-- A job that returns at once, long before its timeout, of a task that nobody stops is reported as canceled by the stop signal. -/
theorem C130_violated : ¬ C130Claim := by
  intro h
  obtain ⟨t, e, c, h1, h2⟩ := h 0 100 false _ ⟨[.jobStart, .jobReturn none, .closeFin, .caseFin, .cancel, .logError, .logEnd], rfl⟩ rfl
  simp only [Option.some.injEq, Prod.mk.injEq] at h1
  obtain ⟨rfl, rfl, rfl⟩ := h1
  exact absurd h2 (by decide)

/-- How far the goroutine of the job has come. -/
def FnInv (s : State) : Prop :=
  match s.fn with
  | .ready => s.log = [.start] ∧ s.ended = none ∧ s.main ≠ .leave ∧ s.main ≠ .ret
  | .running _ => s.log = [.start] ∧ s.ended = none ∧ s.main ≠ .leave ∧ s.main ≠ .ret
  | .returned t e => s.log = [.start] ∧ (∃ c, s.ended = some (t, e, c)) ∧ s.main ≠ .leave ∧ s.main ≠ .ret
  | .closed t e => s.log = [.start] ∧ ∃ c, s.ended = some (t, e, c)
  | .reading t => ∃ e c, s.log = [.start] ++ (e.map Line.error).toList ∧ s.ended = some (t, e, c)
  | .over => ∃ t e c d, s.log = [.start] ++ (e.map Line.error).toList ++ [describe t d] ∧ s.ended = some (t, e, c) ∧ (c ≠ none → d = c) ∧
      (d ≠ none → s.ctx = d)

structure Inv (s : State) : Prop where
  due  : s.ctx = some .deadline → s.due ≤ s.now
  stop : s.ctx = some .canceled → s.stopSig = true ∨ s.main = .ret
  fn   : FnInv s
  was  : ∀ t e c, s.ended = some (t, e, c) → s.endedAt ≤ s.now ∧ (c ≠ none → s.ctx = c) ∧ (c = some .canceled → s.stopped = true) ∧
    (c = some .deadline → s.due ≤ s.endedAt) ∧ (s.stopped = true → s.stopSig = true)

theorem inv_init (now timeout : Nat) (stop : Bool) : Inv (init now timeout stop) := by
  constructor <;> simp [init, FnInv]

theorem inv_step (s : State) (a : Action) (s' : State) (hi : Inv s) (h : step s a = some s') : Inv s' := by
  obtain ⟨h1, h2, h3, h4⟩ := hi
  obtain ⟨now, due, sig, ctx, main, fn, log, ended, at_, stopped⟩ := s
  cases a <;> simp only [step] at h
  case pass d =>
    cases h
    exact ⟨fun h => Nat.le_trans (h1 h) (Nat.le_add_right _ _), h2, h3, fun t e c h => by have := h4 t e c h; simp only at this ⊢; refine ⟨by omega, this.2⟩⟩
  case stop =>
    cases h
    exact ⟨h1, fun _ => .inl rfl, h3, fun t e c h => by have := h4 t e c h; exact ⟨this.1, this.2.1, this.2.2.1, this.2.2.2.1, fun _ => rfl⟩⟩
  case fire =>
    split at h
    · rename_i hc
      cases h
      obtain ⟨hc, rfl⟩ := hc
      refine ⟨fun _ => hc, by simp, ?_, ?_⟩
      · cases fn <;> simp only [FnInv] at h3 ⊢ <;> grind
      · intro t e c h; have := h4 t e c h; grind
    · cases h
  case caseDone =>
    split at h
    · rename_i hc
      cases h
      refine ⟨h1, by grind, ?_, h4⟩
      cases fn <;> simp only [FnInv] at h3 ⊢ <;> grind
    · cases h
  case caseStop =>
    split at h
    · rename_i hc
      cases h
      refine ⟨by cases ctx <;> simp_all [cancelled], by grind, ?_, ?_⟩
      · cases fn <;> simp only [FnInv] at h3 ⊢ <;> cases ctx <;> grind [cancelled]
      · intro t e c h; have := h4 t e c h; cases ctx <;> grind [cancelled]
    · cases h
  case caseFin =>
    split at h
    · rename_i hc
      cases h
      refine ⟨h1, by grind, ?_, h4⟩
      cases fn <;> simp only [FnInv] at h3 ⊢ <;> simp only [finClosed] at hc <;> grind
    · cases h
  case fin =>
    split at h
    · rename_i hc
      cases h
      refine ⟨h1, by grind, ?_, h4⟩
      cases fn <;> simp only [FnInv] at h3 ⊢ <;> simp only [finClosed] at hc <;> grind
    · cases h
  case cancel =>
    split at h
    · rename_i hc
      cases h
      refine ⟨by cases ctx <;> simp_all [cancelled], by grind, ?_, ?_⟩
      · cases fn <;> simp only [FnInv] at h3 ⊢ <;> cases ctx <;> grind [cancelled]
      · intro t e c h; have := h4 t e c h; cases ctx <;> grind [cancelled]
    · cases h
  case jobStart =>
    split at h
    · rename_i hc
      cases h
      subst hc
      exact ⟨h1, h2, h3, h4⟩
    · cases h
  case jobReturn =>
    cases fn <;> simp only [Option.some.injEq, reduceCtorEq] at h
    subst h
    simp only [FnInv] at h3
    refine ⟨h1, h2, ⟨h3.1, ⟨_, rfl⟩, h3.2.2⟩, ?_⟩
    intro t e c h
    grind
  case closeFin =>
    cases fn <;> simp only [Option.some.injEq, reduceCtorEq] at h
    subst h
    exact ⟨h1, h2, ⟨h3.1, h3.2.1⟩, h4⟩
  case logError =>
    cases fn <;> try (exact absurd h (by simp))
    rename_i t e
    obtain ⟨h3, c, h5⟩ := h3
    cases e <;> simp only [Option.some.injEq] at h <;> subst h
    · exact ⟨h1, h2, ⟨none, c, by simpa using h3, h5⟩, h4⟩
    · exact ⟨h1, h2, ⟨some _, c, congrArg (· ++ _) h3, h5⟩, h4⟩
  case logEnd =>
    cases fn <;> simp only [Option.some.injEq, reduceCtorEq] at h
    subst h
    obtain ⟨e, c, h3, h5⟩ := h3
    refine ⟨h1, h2, ⟨_, e, c, ctx, ?_, h5, fun hc => (h4 _ _ _ h5).2.1 hc, fun _ => rfl⟩, h4⟩
    simp only at h3
    simp only [h3]
    rcases ctx with _ | (_ | _) <;> rfl

/-- What is true of the log of a job that is over: it has the start, the error if there was one, and one line `describe t d` with the time the job took.  If the channel
of the job was closed when it returned, `d` is the reason, and the reason is true: `Stop` had been called, or the timeout had passed.  So the last line is wrong only for
a job that returned with its channel open; then the line may say anything that became true later: the timeout passed, or `Stop` was called, or `runJob` returned. -/
theorem C130_partial (now timeout : Nat) (stop : Bool) (s : State) (hr : Reachable step (init now timeout stop) s) (ho : s.fn = .over) :
    ∃ t e c d, s.ended = some (t, e, c) ∧ s.log = [.start] ++ (e.map .error).toList ++ [describe t d] ∧ (c ≠ none → d = c) ∧
      (c = some .canceled → s.stopped = true) ∧ (c = some .deadline → now + timeout ≤ s.endedAt) ∧
      (d = some .canceled → s.stopSig = true ∨ s.main = .ret) ∧ (d = some .deadline → now + timeout ≤ s.now) := by
  have hi := hr.inv (inv_init now timeout stop) inv_step
  have hd : s.due = now + timeout := hr.inv (I := fun s => s.due = now + timeout) rfl (by
    intro s a s' h1 h2
    cases a <;> simp only [step] at h2 <;> (repeat' split at h2) <;> (try cases h2) <;> exact h1)
  have h3 := hi.fn
  rw [FnInv, ho] at h3
  obtain ⟨t, e, c, d, h5, h6, h7, h8⟩ := h3
  obtain ⟨_, _, h9, h10, _⟩ := hi.was t e c h6
  exact ⟨t, e, c, d, h6, h5, h7, h9, fun h => hd ▸ h10 h, fun h => hi.stop (h ▸ h8 (by simp [h])), fun h => hd ▸ hi.due (h ▸ h8 (by simp [h]))⟩

/-- The other wrong lines: a job that returned in time is reported as timed out; a job that returned before `Stop` was called is reported as canceled by it. -/
theorem C130_late_violated (t : Nat) (e : Option String) :
    (∃ s, Reachable step (init 0 (t + 1) false) s ∧ s.fn = .over ∧ s.ended = some (t, e, none) ∧ s.stopSig = false ∧ s.log.getLast? = some (.byTimeout t)) ∧
    (∃ s, Reachable step (init 0 (t + 1) false) s ∧ s.fn = .over ∧ s.ended = some (t, e, none) ∧ s.stopSig = false ∧ s.log.getLast? = some (.byStop t)) := by
  refine ⟨⟨⟨t + 1, t + 1, false, some .deadline, .sel, .over, [.start] ++ (e.map .error).toList ++ [.byTimeout t], some (t, e, none), t, false⟩,
      ⟨[.jobStart, .pass t, .jobReturn e, .pass 1, .fire, .closeFin, .logError, .logEnd], ?_⟩, rfl, rfl, rfl, List.getLast?_concat⟩,
    ⟨⟨t, t + 1, false, some .canceled, .ret, .over, [.start] ++ (e.map .error).toList ++ [.byStop t], some (t, e, none), t, false⟩,
      ⟨[.jobStart, .pass t, .jobReturn e, .closeFin, .caseFin, .cancel, .logError, .logEnd], ?_⟩, rfl, rfl, rfl, List.getLast?_concat⟩⟩
  · cases e <;> simp [exec, step, init]
  · cases e <;> simp [exec, step, init, finClosed, cancelled]

/-- Every case of the description occurs: canceled by `Stop`, with an error; timed out; finished. -/
example : ∃ s, Reachable step (init 0 10 false) s ∧ s.fn = .over ∧ s.log = [.start, .error "interrupted", .byStop 3] ∧ s.ended = some (3, some "interrupted", some .canceled) :=
  ⟨_, ⟨[.jobStart, .pass 3, .stop, .caseStop, .jobReturn (some "interrupted"), .closeFin, .logError, .fin, .cancel, .logEnd], rfl⟩, rfl, rfl, rfl⟩

example : ∃ s, Reachable step (init 0 10 false) s ∧ s.fn = .over ∧ s.log = [.start, .byTimeout 11] ∧ s.ended = some (11, none, some .deadline) :=
  ⟨_, ⟨[.jobStart, .pass 11, .fire, .caseDone, .stop, .jobReturn none, .closeFin, .fin, .cancel, .logError, .logEnd], rfl⟩, rfl, rfl, rfl⟩

example : ∃ s, Reachable step (init 0 10 false) s ∧ s.fn = .over ∧ s.log = [.start, .finished 2] ∧ s.ended = some (2, none, none) :=
  ⟨_, ⟨[.jobStart, .pass 2, .jobReturn none, .closeFin, .logError, .caseFin, .logEnd, .cancel], rfl⟩, rfl, rfl, rfl⟩

end Gears.Schedule.JobLog
