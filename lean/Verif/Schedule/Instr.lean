import Verif.Schedule.Props

/-
Tasks (/repo/schedule/fixed_rate_task.go, fixed_delay_task.go, task.go) instruction by instruction (C141).

Model.lean makes one step of every critical section.  Here locking, unlocking, every read and every write of a field that is
assigned after construction (`status`, `no`, `ticker`), the `go` statements and `close(stopSig)` are steps of their own,
and any number of callers of Start and Stop, the consumer and the provider are preempted between any two.  The name, the job, the
interval, the timeout and the channels are assigned by the constructor only.

The goroutines of runJob and of the timers touch none of these fields; they make the steps of Model.lean.  A ticker runs from
`time.NewTicker` until `ticker.Stop`.
-/

namespace Gears.Schedule.Instr

open Gears.Schedule

/-- Where a call of Start or Stop is.  The numbers are lines of task.go (69-91) and of fixed_rate_task.go (87-112). -/
inductive CPC where
  /-- before `t.lock.Lock()` -/
  | start | stop
  /-- markStart: the two reads and the assignment of `status` (task.go:69, 73, 77) -/
  | s69 | s73 | s77
  /-- FixedRateTask: `t.ticker = time.NewTicker` (87) -/
  | s87
  /-- `go t.startConsuming()` (fixed_rate_task.go:89, fixed_delay_task.go:83) -/
  | s89
  /-- FixedRateTask: `go t.startProviding()` (90) -/
  | s90
  /-- FixedDelayTask: in appendJobQueue (85) -/
  | queue
  /-- markStopSendSignal: the two reads and the assignment of `status`, `close(t.stopSig)` (task.go:83, 86, 90, 91) -/
  | p83 | p86 | p90 | p91
  /-- FixedRateTask: `t.ticker.Stop()` (112) -/
  | p112
  /-- the deferred `t.lock.Unlock()` -/
  | unlock (r : Res)
  | ret (r : Res)
deriving Repr, DecidableEq

structure Call where
  isStart : Bool
  must    : Bool
  pc      : CPC
deriving Repr, DecidableEq

/-- The consumer (startConsuming, getStatus, nextNo). -/
inductive KPC where
  | none
  /-- the select -/
  | sel
  /-- getStatus: lock, read, unlock -/
  | g1 | g2 | g3 (v : Status)
  /-- nextNo: lock, the read and the write of `t.no++`, the read of `return t.no`, unlock -/
  | n1 | n2 | n3 (v : Nat) | n4 | n5 (v : Nat)
  /-- before runJob -/
  | n6 (v : Nat)
  | run (j : Nat)
  | done
deriving Repr, DecidableEq

/-- The provider (startProviding): the first appendJobQueue; the read of `t.ticker`; the select; appendJobQueue of the loop. -/
inductive PPC where
  | none | first | rd | loop | send | done
deriving Repr, DecidableEq

inductive Who where
  | caller (i : Nat)
  | cons
deriving Repr, DecidableEq

/-- `st` has the fields `status` and `no`, `stopSig`, the timers and jobs, and the log; its `cons`, `prov`, `starting` are not used.
`ticker` says that `t.ticker` is not nil, `ticking` that the ticker runs. -/
structure IState where
  st      : State
  ticker  : Bool
  ticking : Bool
  lock    : Option Who
  callers : List Call
  cons    : KPC
  prov    : PPC
  /-- a nil ticker was used -/
  nilUse  : Bool
deriving Repr, DecidableEq

inductive IAction where
  /-- somebody calls Start, MustStart, Stop, MustStop -/
  | call (isStart must : Bool)
  /-- the next instruction of a call, of the consumer, of the provider -/
  | caller (i : Nat)
  | cons
  | prov
  /-- selects -/
  | handStart (i : Nat)
  | startAbort (i : Nat)
  | handFut (i : Nat)
  | futAbort (i : Nat)
  | handProv
  | provAbort
  | consAbort
  | provTick
  | tickerFire
  /-- a step of a timer function, of runJob, of a job, of the clock -/
  | other (a : Action)
deriving Repr, DecidableEq

/-- The steps of Model.lean that are steps here too. -/
def isOther : Action → Bool
  | .futArm _ | .futFire _ | .runBegin _ | .jobStart _ | .jobEnd _ | .ctxTimeout _ | .selDone _ | .selStop _ | .selFin _ | .runFin _
  | .pass _ => true
  | _ => false

def IState.goto (s : IState) (i : Nat) (c : Call) (pc : CPC) : IState := { s with callers := s.callers.set i { c with pc := pc } }

def IState.logs (s : IState) (e : Ev) : IState := { s with st := { s.st with log := s.st.log ++ [e] } }

/-- The next instruction of a call.  Its result is logged when it is decided. -/
def callerStep (s : IState) (i : Nat) (c : Call) : Option IState :=
  match c.pc with
  | .start => if s.lock = none then some { s.goto i c .s69 with lock := some (.caller i) } else none
  | .stop => if s.lock = none then some { s.goto i c .p83 with lock := some (.caller i) } else none
  | .s69 => if s.st.status = .started then some ((s.goto i c (.unlock (resOf c.must))).logs (.startRes c.must (resOf c.must)))
    else some (s.goto i c .s73)
  | .s73 => if s.st.status = .stopped then some ((s.goto i c (.unlock (resOf c.must))).logs (.startRes c.must (resOf c.must)))
    else some (s.goto i c .s77)
  | .s77 => some ({ s.goto i c (if s.st.kind = Kind.rate then .s87 else .s89) with st := { s.st with status := .started } }.logs (.startRes c.must .ok))
  | .s87 => some { s.goto i c .s89 with ticker := true, ticking := true, st := { s.st with tickBuf := false } }
  | .s89 => some { s.goto i c (if s.st.kind = .rate then .s90 else .queue) with cons := .sel }
  | .s90 => some { s.goto i c (.unlock .ok) with prov := .first }
  | .queue => none
  | .p83 => if s.st.status = .new then some ((s.goto i c (.unlock (resOf c.must))).logs (.stopRes c.must (resOf c.must)))
    else some (s.goto i c .p86)
  | .p86 => if s.st.status = .stopped then some ((s.goto i c (.unlock (resOf c.must))).logs (.stopRes c.must (resOf c.must)))
    else some (s.goto i c .p90)
  | .p90 => some { s.goto i c .p91 with st := { s.st with status := .stopped } }
  | .p91 => if s.st.stopSig then some ((s.goto i c (.ret .panic)).logs .closePanic)
    else some ({ s.goto i c (if s.st.kind = Kind.rate then .p112 else .unlock .ok) with st := { s.st with stopSig := true } }.logs (.stopRes c.must .ok))
  | .p112 => some { s.goto i c (.unlock .ok) with ticking := false, nilUse := s.nilUse || !s.ticker }
  | .unlock r => some { s.goto i c (.ret r) with lock := none }
  | .ret _ => none

/-- The next instruction of the consumer. -/
def consStep (s : IState) : Option IState :=
  match s.cons with
  | .none | .sel | .done => none
  | .g1 => if s.lock = none then some { s with cons := .g2, lock := some .cons } else none
  | .g2 => some { s with cons := .g3 s.st.status }
  | .g3 v => some { s with cons := if v = .stopped then .done else .n1, lock := none }
  | .n1 => if s.lock = none then some { s with cons := .n2, lock := some .cons } else none
  | .n2 => some { s with cons := .n3 s.st.no }
  | .n3 v => some { s with cons := .n4, st := { s.st with no := v + 1 } }
  | .n4 => some { s with cons := .n5 s.st.no }
  | .n5 v => some { s with cons := .n6 v, lock := none }
  | .n6 v => some { s with cons := match s.st.kind with | .delay => .run s.st.jobs.length | .rate => .sel
                           st := { s.st with jobs := s.st.jobs ++ [⟨v, 0, false, .notStarted, .begin⟩] } }
  | .run j =>
    match s.st.jobs[j]? with
    | some x => if x.pc = .ret then some { s with cons := .sel, st := { s.st with futs := s.st.futs ++ [.spawned] } } else none
    | none => none

def iStep (s : IState) : IAction → Option IState
  | .call b must => some { s with callers := s.callers ++ [⟨b, must, if b then .start else .stop⟩] }
  | .caller i =>
    match s.callers[i]? with
    | some c => callerStep s i c
    | none => none
  | .cons => consStep s
  | .prov => if s.prov = .rd then some { s with prov := .loop, nilUse := s.nilUse || !s.ticker } else none
  | .handStart i =>
    match s.callers[i]? with
    | some c => if c.pc = .queue ∧ s.cons = .sel then some { s.goto i c (.unlock .ok) with cons := .g1 } else none
    | none => none
  | .startAbort i =>
    match s.callers[i]? with
    | some c => if c.pc = .queue ∧ s.st.stopSig then some (s.goto i c (.unlock .ok)) else none
    | none => none
  | .handFut i =>
    if s.st.futs[i]? = some .sending ∧ s.cons = .sel then
      some { s with cons := .g1, st := { s.st with futs := s.st.futs.set i .done } }
    else none
  | .futAbort i =>
    if s.st.futs[i]? = some .sending ∧ s.st.stopSig then some { s with st := { s.st with futs := s.st.futs.set i .done } } else none
  | .handProv => if (s.prov = .first ∨ s.prov = .send) ∧ s.cons = .sel then some { s with prov := .rd, cons := .g1 } else none
  | .provAbort =>
    if (s.prov = .first ∨ s.prov = .send ∨ s.prov = .loop) ∧ s.st.stopSig then some { s with prov := .done } else none
  | .consAbort => if s.cons = .sel ∧ s.st.stopSig then some { s with cons := .done } else none
  | .provTick =>
    if s.prov = .loop ∧ s.st.tickBuf then some ({ s with prov := .send, st := { s.st with tickBuf := false } }.logs .tick) else none
  | .tickerFire => if s.ticking then some { s with st := { s.st with tickBuf := true } } else none
  | .other a => if isOther a then (step s.st a).map fun t => { s with st := t } else none

/-- `NewFixedRateTask`, `NewFixedDelayTask`; nobody has called yet. -/
def iNew (kind : Kind) (interval timeout : Int) : Option IState :=
  (new kind interval timeout).map fun st => ⟨st, false, false, none, [], .none, .none, false⟩

def IReach (kind : Kind) (interval timeout : Int) (s : IState) : Prop :=
  ∃ s0, iNew kind interval timeout = some s0 ∧ Reachable iStep s0 s

/-! ### Races -/

inductive Var where
  | status | no | ticker
deriving Repr, DecidableEq

/-- The field that the next instruction of a call accesses, and whether it assigns it. -/
def CPC.access : CPC → Option (Var × Bool)
  | .s69 | .s73 | .p83 | .p86 => some (.status, false)
  | .s77 | .p90 => some (.status, true)
  | .s87 => some (.ticker, true)
  | .p112 => some (.ticker, false)
  | _ => none

def KPC.access : KPC → Option (Var × Bool)
  | .g2 => some (.status, false)
  | .n2 | .n4 => some (.no, false)
  | .n3 _ => some (.no, true)
  | _ => Option.none

def PPC.access : PPC → Option (Var × Bool)
  | .rd => some (.ticker, false)
  | _ => Option.none

/-- Goroutines. -/
inductive Thread where
  | caller (i : Nat) | cons | prov
deriving Repr, DecidableEq

def IState.access (s : IState) : Thread → Option (Var × Bool)
  | .caller i => (s.callers[i]?).bind (·.pc.access)
  | .cons => s.cons.access
  | .prov => s.prov.access

/-- Two goroutines are about to access a field, and one of them assigns it. -/
def Race (s : IState) : Prop :=
  ∃ a b x w w', a ≠ b ∧ s.access a = some (x, w) ∧ s.access b = some (x, w') ∧ (w = true ∨ w' = true)

/-! ### The lock -/

/-- Instructions between Lock and Unlock. -/
def CPC.crit : CPC → Bool
  | .start | .stop | .ret _ => false
  | _ => true

def KPC.crit : KPC → Bool
  | .g2 | .g3 _ | .n2 | .n3 _ | .n4 | .n5 _ => true
  | _ => false

/-- Where the call is that has the lock. -/
def IState.holder (s : IState) : Option CPC :=
  match s.lock with
  | some (.caller i) => (s.callers[i]?).map (·.pc)
  | _ => none

structure LockOk (s : IState) : Prop where
  call : ∀ (i : Nat) c, s.callers[i]? = some c → (c.pc.crit = true ↔ s.lock = some (.caller i))
  len  : ∀ i, s.lock = some (.caller i) → i < s.callers.length
  cons : s.cons.crit = true ↔ s.lock = some .cons

/-! ### The states of Model.lean -/

/-- The consumer in Model.lean. -/
def absCons (k : KPC) (h : Option CPC) : Cons :=
  match k with
  | .none => if h = some .s87 ∨ h = some .s89 then .wait else .none
  | .sel => .wait
  | .g1 | .g2 => .got
  | .g3 v => if v = .stopped then .done else .checked
  | .n1 | .n2 | .n3 _ | .n4 | .n5 _ | .n6 _ => .checked
  | .run j => .run j
  | .done => .done

/-- The provider in Model.lean. -/
def absProv (kind : Kind) (p : PPC) (h : Option CPC) : Prov :=
  match p with
  | .none => if kind = .rate ∧ (h = some .s87 ∨ h = some .s89 ∨ h = some .s90) then .first else .none
  | .first => .first
  | .rd | .loop => .loop
  | .send => .send
  | .done => .done

/-- The provider and the ticker.  A tick of the ticker between `close(stopSig)` and `ticker.Stop` has no counterpart in Model.lean; it makes
a difference only for the number of ticks that are received. -/
def Ticks (st : State) (tg : Bool) (p : PPC) (h : Option CPC) (t : State) : Prop :=
  (t.prov = absProv st.kind p h ∧ (st.tickBuf = true ∨ tg = true → t.tickBuf = true ∨ t.status = .started)) ∨
  (t.status = .stopped ∧ t.prov = .send ∧ p = .send) ∨
  (t.status = .stopped ∧ t.prov = .done ∧ p = .done) ∨
  (t.status = .stopped ∧ (t.cons = .got ∨ t.cons = .done) ∧ t.prov = .loop ∧ (p = .rd ∨ p = .loop ∨ p = .send))

/-- Everything but receptions of ticks. -/
def noTick (l : List Ev) : List Ev := l.filter (· ≠ .tick)

/-- The job number, in nextNo: the field and its value in Model.lean. -/
def NoRel (k : KPC) (no no' : Nat) : Prop :=
  match k with
  | .n3 v => v = no' ∧ no = no'
  | .n4 => no = no' + 1
  | .n5 v | .n6 v => v = no' + 1 ∧ no = no' + 1
  | _ => no = no'

/-- What a call that has the lock knows of the status. -/
def PcRel (h : Option CPC) (kind : Kind) (status : Status) : Prop :=
  match h with
  | some .s73 => status ≠ .started
  | some .s77 => status = .new
  | some .s87 => status = .started ∧ kind = .rate
  | some .s89 => status = .started
  | some .s90 => status = .started ∧ kind = .rate
  | some .queue => status = .started ∧ kind = .delay
  | some .p86 => status ≠ .new
  | some .p90 => status = .started
  | some .p91 => status = .stopped
  | some .p112 => status = .stopped ∧ kind = .rate
  | _ => True

/-- `t` is the state of Model.lean that belongs to a state here; `h` is where the call is that has the lock. -/
structure Rel (st : State) (tk tg nu : Bool) (k : KPC) (p : PPC) (h : Option CPC) (t : State) : Prop where
  kind     : t.kind = st.kind
  interval : t.interval = st.interval
  timeout  : t.timeout = st.timeout
  now      : t.now = st.now
  sig      : t.stopSig = st.stopSig
  futs     : t.futs = st.futs
  jobs     : t.jobs = st.jobs
  log      : noTick t.log = noTick st.log
  ticks    : t.log.count .tick ≤ st.log.count .tick
  status   : t.status = if h = some .p91 then .started else st.status
  starting : t.starting = (st.kind = .delay && (h = some .s89 || h = some .queue))
  cons     : t.cons = absCons k h
  early    : h = some .s87 ∨ h = some .s89 → k = .none
  early'   : h = some .s87 ∨ h = some .s89 ∨ h = some .s90 → p = .none
  no       : NoRel k st.no t.no
  pcs      : PcRel h st.kind st.status
  ticker   : st.kind = .rate → (tk = true ↔ st.status ≠ .new ∧ h ≠ some .s87)
  ticking  : tg = true ∨ st.tickBuf = true → st.kind = .rate
  tick     : Ticks st tg p h t
  nil      : nu = false

def IState.Rel (s : IState) (t : State) : Prop := Instr.Rel s.st s.ticker s.ticking s.nilUse s.cons s.prov s.holder t

end Gears.Schedule.Instr
