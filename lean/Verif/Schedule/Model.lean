import Verif.Common.Exec

/-
Model of /repo/schedule/task.go (28-153), fixed_delay_task.go (28-145) and fixed_rate_task.go (28-161).

One task with its goroutines is a transition system; `kind` says which of the two types it is (they share
`taskCommon`).  Any number of goroutines may call `Start`, `Stop`, `MustStart`, `MustStop` at any time.

* `lock`: `Stop`, `getStatus`, `nextNo` and the `Start` of a FixedRateTask are one critical section and one step each.
  `Start` of a FixedDelayTask keeps the lock while it offers the first job to the consumer (85); `starting` says that a
  `Start` call is there.  Steps that need the lock are enabled only if `starting` is false.
* `jobQ` is unbuffered: a send and the receive happen together (`hand...`).
* `stopSig` is a Bool (closed or not); closing it twice would panic (`closePanic` in the log).
* `runJob`: the job goroutine (105-127) and the goroutine that waits for it are modelled separately.  The return of the
  job function and `close(fin)` (108-113) are one step; the printing that follows touches nothing
  (JobLog.lean has these steps one by one).
  `context.WithTimeout`: the channel `Done()` gets closed by the timer, at the deadline or any time later, or by `cancel`.
* Time is a number that only grows (`pass`).  A timer fires at its deadline or any time later.  The ticker puts a value
  into its channel of capacity 1 at any time between its creation and `ticker.Stop` (the model has more schedules; its
  period is in Clock.lean), or drops it if the channel is full.
* Panics in the job function, which kill the process, are in Leave.lean.  `int64` job numbers are unbounded.
-/

namespace Gears.Schedule

inductive Kind where
  | delay | rate
deriving Repr, DecidableEq

/-- 42-46 -/
inductive Status where
  | new | started | stopped
deriving Repr, DecidableEq

/-- Result of `Start`, `Stop`; `panic` only for `MustStart`, `MustStop`. -/
inductive Res where
  | ok | err | panic
deriving Repr, DecidableEq

inductive Ev where
  | startRes (must : Bool) (r : Res)
  | stopRes (must : Bool) (r : Res)
  /-- `stopSig` was closed twice -/
  | closePanic
  /-- job number `n` starts, ends at time `t` -/
  | jobStart (n t : Nat)
  | jobEnd (n t : Nat)
  /-- the cancel channel of job `n` is closed -/
  | cancel (n : Nat)
  /-- the provider received a tick -/
  | tick
deriving Repr, DecidableEq

/-- The job goroutine. -/
inductive Fn where
  | notStarted | running | returned
deriving Repr, DecidableEq

/-- The goroutine in `runJob`: before 100, at the select of 129, at `<-fin` (131, 134), returned. -/
inductive RunPC where
  | begin | sel | waitFin | ret
deriving Repr, DecidableEq

structure Job where
  no       : Nat
  deadline : Nat
  done     : Bool
  fn       : Fn
  pc       : RunPC
deriving Repr, DecidableEq

/-- `startConsuming`: not started, at the select, received from `jobQ`, passed the status check, in `runJob` for the
`j`-th job (FixedDelayTask only), returned. -/
inductive Cons where
  | none | wait | got | checked | run (j : Nat) | done
deriving Repr, DecidableEq

/-- `startProviding` (FixedRateTask): not started, in the first `appendJobQueue`, at the select, in the `appendJobQueue`
of the loop, returned. -/
inductive Prov where
  | none | first | loop | send | done
deriving Repr, DecidableEq

/-- `appendJobQueueFuture` (FixedDelayTask): goroutine spawned, timer running, in `appendJobQueue`, returned. -/
inductive Fut where
  | spawned | timer (deadline : Nat) | sending | done
deriving Repr, DecidableEq

structure State where
  kind     : Kind
  interval : Nat
  timeout  : Nat
  now      : Nat
  status   : Status
  stopSig  : Bool
  starting : Bool
  no       : Nat
  cons     : Cons
  prov     : Prov
  futs     : List Fut
  tickBuf  : Bool
  jobs     : List Job
  log      : List Ev
deriving Repr, DecidableEq

/-- `NewFixedDelayTask` (36-64), `NewFixedRateTask` (38-69); `none`: panic.  The checks of the name and of a nil job are
in `create` (Ctor.lean). -/
def new (kind : Kind) (interval timeout : Int) : Option State :=
  if timeout ≤ 0 then none
  else if interval ≤ 0 then none
  else some ⟨kind, interval.toNat, timeout.toNat, 0, .new, false, false, 0, .none, .none, [], false, [], []⟩

/-- `MustStart`, `MustStop` turn an error into a panic (fixed_delay_task.go 66-71, 122-127; fixed_rate_task.go 71-76,
97-102). -/
def resOf (must : Bool) : Res := if must then .panic else .err

inductive Action where
  | start (must : Bool)
  | stop (must : Bool)
  /-- the rendezvous on `jobQ` between the consumer and: `Start`, a timer function, the provider -/
  | handStart
  | handFut (i : Nat)
  | handProv
  /-- the `stopSig` branch of `appendJobQueue` in `Start`, in a timer function; of the provider; of the consumer -/
  | startAbort
  | futAbort (i : Nat)
  | provAbort
  | consAbort
  | consCheck
  | consNext
  | consSpawn
  /-- the goroutine calls `time.AfterFunc`; the timer fires -/
  | futArm (i : Nat)
  | futFire (i : Nat)
  | tickerFire
  | provTick
  | runBegin (j : Nat)
  | jobStart (j : Nat)
  | jobEnd (j : Nat)
  | ctxTimeout (j : Nat)
  | selDone (j : Nat)
  | selStop (j : Nat)
  | selFin (j : Nat)
  | runFin (j : Nat)
  | pass (dt : Nat)
deriving Repr, DecidableEq

/-- `runJob` returns; the deferred `cancel()` (101) closes the cancel channel. -/
def Job.finish (x : Job) : Job := { x with pc := .ret, done := true }

def cancelEv (x : Job) : List Ev := if x.done then [] else [.cancel x.no]

def State.setJob (s : State) (j : Nat) (x : Job) (l : List Ev) : State :=
  { s with jobs := s.jobs.set j x, log := s.log ++ l }

def step (s : State) : Action → Option State
  -- fixed_delay_task.go 73-85, fixed_rate_task.go 78-95, task.go 68-79
  | .start must =>
    if s.starting then none
    else match s.status with
      | .new =>
        match s.kind with
        | .delay => some { s with status := .started, cons := .wait, starting := true,
                                  log := s.log ++ [.startRes must .ok] }
        | .rate => some { s with status := .started, cons := .wait, prov := .first, tickBuf := false,
                                 log := s.log ++ [.startRes must .ok] }
      | _ => some { s with log := s.log ++ [.startRes must (resOf must)] }
  -- fixed_delay_task.go 129-138, fixed_rate_task.go 104-115, task.go 82-96
  | .stop must =>
    if s.starting then none
    else match s.status with
      | .started =>
        if s.stopSig then some { s with status := .stopped, log := s.log ++ [.closePanic] }
        else some { s with status := .stopped, stopSig := true, log := s.log ++ [.stopRes must .ok] }
      | _ => some { s with log := s.log ++ [.stopRes must (resOf must)] }
  -- task.go 146 with fixed_delay_task.go 97 / fixed_rate_task.go 144
  | .handStart =>
    if s.starting ∧ s.cons = .wait then some { s with starting := false, cons := .got } else none
  | .handFut i =>
    if s.futs[i]? = some .sending ∧ s.cons = .wait then
      some { s with futs := s.futs.set i .done, cons := .got }
    else none
  | .handProv =>
    if (s.prov = .first ∨ s.prov = .send) ∧ s.cons = .wait then some { s with prov := .loop, cons := .got } else none
  -- task.go 148
  | .startAbort => if s.starting ∧ s.stopSig then some { s with starting := false } else none
  | .futAbort i =>
    if s.futs[i]? = some .sending ∧ s.stopSig then some { s with futs := s.futs.set i .done } else none
  -- task.go 148, fixed_rate_task.go 134
  | .provAbort =>
    if (s.prov = .first ∨ s.prov = .send ∨ s.prov = .loop) ∧ s.stopSig then some { s with prov := .done } else none
  -- fixed_delay_task.go 103, fixed_rate_task.go 149
  | .consAbort => if s.cons = .wait ∧ s.stopSig then some { s with cons := .done } else none
  -- fixed_delay_task.go 98-100, fixed_rate_task.go 145-147
  | .consCheck =>
    if s.cons = .got ∧ s.starting = false then
      if s.status = .stopped then some { s with cons := .done } else some { s with cons := .checked }
    else none
  -- fixed_delay_task.go 101, fixed_rate_task.go 148
  | .consNext =>
    if s.cons = .checked ∧ s.starting = false then
      let x : Job := ⟨s.no + 1, 0, false, .notStarted, .begin⟩
      match s.kind with
      | .delay => some { s with no := s.no + 1, jobs := s.jobs ++ [x], cons := .run s.jobs.length }
      | .rate => some { s with no := s.no + 1, jobs := s.jobs ++ [x], cons := .wait }
    else none
  -- fixed_delay_task.go 102
  | .consSpawn =>
    match s.cons with
    | .run j =>
      match s.jobs[j]? with
      | some x => if x.pc = .ret then some { s with cons := .wait, futs := s.futs ++ [.spawned] } else none
      | none => none
    | _ => none
  -- fixed_delay_task.go 111
  | .futArm i =>
    if s.futs[i]? = some .spawned then some { s with futs := s.futs.set i (.timer (s.now + s.interval)) } else none
  | .futFire i =>
    match s.futs[i]? with
    | some (.timer dl) => if dl ≤ s.now then some { s with futs := s.futs.set i .sending } else none
    | _ => none
  -- fixed_rate_task.go 87, 112
  | .tickerFire =>
    if s.kind = .rate ∧ s.status = .started then some { s with tickBuf := true } else none
  -- fixed_rate_task.go 130
  | .provTick =>
    if s.prov = .loop ∧ s.tickBuf then some { s with prov := .send, tickBuf := false, log := s.log ++ [.tick] } else none
  -- task.go 100
  | .runBegin j =>
    match s.jobs[j]? with
    | some x => if x.pc = .begin then some (s.setJob j { x with pc := .sel, deadline := s.now + s.timeout } []) else none
    | none => none
  -- task.go 105-108
  | .jobStart j =>
    match s.jobs[j]? with
    | some x =>
      if x.pc ≠ .begin ∧ x.fn = .notStarted then some (s.setJob j { x with fn := .running } [.jobStart x.no s.now])
      else none
    | none => none
  -- task.go 108-113
  | .jobEnd j =>
    match s.jobs[j]? with
    | some x => if x.fn = .running then some (s.setJob j { x with fn := .returned } [.jobEnd x.no s.now]) else none
    | none => none
  | .ctxTimeout j =>
    match s.jobs[j]? with
    | some x =>
      if x.pc ≠ .begin ∧ x.done = false ∧ x.deadline ≤ s.now then some (s.setJob j { x with done := true } (cancelEv x))
      else none
    | none => none
  -- task.go 130
  | .selDone j =>
    match s.jobs[j]? with
    | some x => if x.pc = .sel ∧ x.done then some (s.setJob j { x with pc := .waitFin } []) else none
    | none => none
  -- task.go 132-133
  | .selStop j =>
    match s.jobs[j]? with
    | some x =>
      if x.pc = .sel ∧ s.stopSig then some (s.setJob j { x with pc := .waitFin, done := true } (cancelEv x)) else none
    | none => none
  -- task.go 135
  | .selFin j =>
    match s.jobs[j]? with
    | some x => if x.pc = .sel ∧ x.fn = .returned then some (s.setJob j x.finish (cancelEv x)) else none
    | none => none
  -- task.go 131, 134
  | .runFin j =>
    match s.jobs[j]? with
    | some x => if x.pc = .waitFin ∧ x.fn = .returned then some (s.setJob j x.finish (cancelEv x)) else none
    | none => none
  | .pass dt => some { s with now := s.now + dt }

/-- States a new task can reach. -/
def Reach (kind : Kind) (interval timeout : Int) (s : State) : Prop :=
  ∃ s0, new kind interval timeout = some s0 ∧ Reachable step s0 s

end Gears.Schedule
