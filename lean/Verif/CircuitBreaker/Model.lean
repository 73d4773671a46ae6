import Verif.Common.Exec

/-
Model of /repo/circuitbreaker/circuitbreaker.go (lines 46-134).

`Do` holds no lock while it runs the task or a callback, so concurrent (and re-entrant) calls of `Do` interleave.
Every call of `Do` is a numbered thread of a transition system; one step per critical section (`state`, `recordFailure`,
`reset`), task execution or callback.  `state()` reads the clock (100) before it takes the read lock (101), so the
reading is made in the step `call` and used in the later step `decide`; `recordFailure` reads it inside the critical
section (96).  All clock readings are arbitrary inputs.  A task may return nil, return an error (a number), or panic.
Go `int`/`int64` are `Int`, no wrap-around (64-bit arithmetic: Int64.lean).
-/

namespace Gears.CircuitBreaker

/-- `state` (46-52). -/
inductive Mode where
  | opened | closed | halfOpen
deriving Repr, DecidableEq

/-- `SyncCircuitBreaker` (66-73). -/
structure Breaker where
  threshold : Int      -- failureThreshold
  timeout   : Int      -- resetTimeout
  failures  : Int
  lastTs    : Int      -- lastFailureTs
deriving Repr, DecidableEq

/-- `NewSyncCircuitBreaker` (58-64). -/
def new (threshold timeout : Int) : Breaker := ⟨threshold, timeout, 0, 0⟩

/-- `state` (99-111), `now` being the clock reading of line 100. -/
def Breaker.mode (b : Breaker) (now : Int) : Mode :=
  if b.failures ≥ b.threshold ∧ now - b.lastTs > b.timeout then .halfOpen
  else if b.failures ≥ b.threshold then .opened
  else .closed

/-- `recordFailure` (91-97). -/
def Breaker.recordFailure (b : Breaker) (now : Int) : Breaker := { b with failures := b.failures + 1, lastTs := now }

/-- `reset` (113-119). -/
def Breaker.reset (b : Breaker) : Breaker := { b with failures := 0, lastTs := 0 }

/-- What a task does. -/
inductive Outcome where
  | ok
  | err (e : Nat)
  | panic
deriving Repr, DecidableEq

/-- Observable events.  Call `i` ... -/
inductive Ev where
  /-- ... starts its task, having read the clock value `now` -/
  | start (i : Nat) (now : Int)
  /-- ... is refused, having read the clock value `now` -/
  | refuse (i : Nat) (now : Int)
  /-- ... its task ends -/
  | finish (i : Nat) (o : Outcome)
  /-- ... records the failure of its task at clock value `now` -/
  | recFail (i : Nat) (now : Int)
  /-- ... records the success of its task -/
  | recOk (i : Nat)
  /-- ... invokes `onError(e)` -/
  | onError (i : Nat) (e : Nat)
  /-- ... invokes `onOpen()` -/
  | onOpen (i : Nat)
deriving Repr, DecidableEq

/-! ### Sequential `Do` -/

/-- One call of `Do` (75-89) that is not overlapped by another one.  `now` is the clock at line 100, `o` what the task
would do, `now2` the clock at line 96. -/
def Breaker.doSeq (b : Breaker) (i : Nat) (now : Int) (o : Outcome) (now2 : Int) : Breaker × List Ev :=
  match b.mode now with
  | .opened => (b, [.refuse i now, .onOpen i])
  | .closed | .halfOpen =>
    match o with
    | .err e => (b.recordFailure now2, [.start i now, .finish i (.err e), .recFail i now2, .onError i e])
    | .ok => (b.reset, [.start i now, .finish i .ok, .recOk i])
    | .panic => (b, [.start i now, .finish i .panic])

/-- A sequence of calls, numbered from `i`. -/
def Breaker.runSeq (b : Breaker) (i : Nat) : List (Int × Outcome × Int) → Breaker × List Ev
  | [] => (b, [])
  | (now, o, now2) :: cs =>
    let r := b.doSeq i now o now2
    let r2 := r.1.runSeq (i + 1) cs
    (r2.1, r.2 ++ r2.2)

/-! ### Concurrent `Do` -/

/-- Where a call of `Do` is. -/
inductive PC where
  /-- in `state()`, has read the clock (100) -/
  | deciding (now : Int)
  /-- about to call `onOpen` (78) -/
  | openCb
  /-- in the task (80) -/
  | running
  /-- the task failed, about to call `recordFailure` (81) -/
  | failed (e : Nat)
  /-- about to call `onError` (82) -/
  | errCb (e : Nat)
  /-- the task succeeded, about to call `reset` (84) -/
  | succeeded
  /-- finished, or unwound by the task's panic -/
  | done
deriving Repr, DecidableEq

structure State where
  b   : Breaker
  pcs : List PC
  log : List Ev
deriving Repr, DecidableEq

def init (threshold timeout : Int) : State := ⟨new threshold timeout, [], []⟩

inductive Action where
  /-- some goroutine calls `Do` and reads the clock -/
  | call (now : Int)
  | decide (i : Nat)
  | openCb (i : Nat)
  | taskEnd (i : Nat) (o : Outcome)
  | record (i : Nat) (now : Int)
  | errCb (i : Nat)
  | reset (i : Nat)
deriving Repr, DecidableEq

def State.upd (s : State) (b : Breaker) (i : Nat) (p : PC) (ev : List Ev) : State :=
  ⟨b, s.pcs.set i p, s.log ++ ev⟩

def step (s : State) : Action → Option State
  | .call now => some { s with pcs := s.pcs ++ [.deciding now] }
  | .decide i =>
    match s.pcs[i]? with
    | some (.deciding now) =>
      match s.b.mode now with
      | .opened => some (s.upd s.b i .openCb [.refuse i now])
      | .closed | .halfOpen => some (s.upd s.b i .running [.start i now])
    | _ => none
  | .openCb i =>
    match s.pcs[i]? with
    | some .openCb => some (s.upd s.b i .done [.onOpen i])
    | _ => none
  | .taskEnd i o =>
    match s.pcs[i]? with
    | some .running =>
      match o with
      | .err e => some (s.upd s.b i (.failed e) [.finish i (.err e)])
      | .ok => some (s.upd s.b i .succeeded [.finish i .ok])
      | .panic => some (s.upd s.b i .done [.finish i .panic])
    | _ => none
  | .record i now =>
    match s.pcs[i]? with
    | some (.failed e) => some (s.upd (s.b.recordFailure now) i (.errCb e) [.recFail i now])
    | _ => none
  | .errCb i =>
    match s.pcs[i]? with
    | some (.errCb e) => some (s.upd s.b i .done [.onError i e])
    | _ => none
  | .reset i =>
    match s.pcs[i]? with
    | some .succeeded => some (s.upd s.b.reset i .done [.recOk i])
    | _ => none

/-! ### NeverOpen -/

/-- `neverOpen.Do` (130-134). -/
def neverOpenDo (i : Nat) (now : Int) (o : Outcome) : List Ev :=
  match o with
  | .err e => [.start i now, .finish i (.err e), .onError i e]
  | .ok => [.start i now, .finish i .ok]
  | .panic => [.start i now, .finish i .panic]

end Gears.CircuitBreaker
