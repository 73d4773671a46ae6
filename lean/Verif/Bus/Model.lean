import Verif.Common.Exec

/-
Model of /repo/event/bus.go (lines 26-182).

The bus, its receivers, any number of dispatcher goroutines (one per `GoDispatch`), any number of goroutines sending to
`FanOutBus.C`, creating and closing receivers, closing the bus, and any number of reading goroutines form one transition
system.

* Every channel operation is one atomic step.  A send to a channel on which a reader is parked hands the value to a
  parked reader; otherwise it goes to the buffer if there is room; otherwise a non-blocking send falls through to
  `default` and a blocking send is not enabled (the goroutine waits; a receive from a channel without buffer can take
  the value out of its hands, `recvFrom`).  `close` makes all parked readers receive the zero
  value.  The Go runtime wakes parked readers first-in first-out; the model lets the action choose any of them.
* `recvMapLock` is a readers-writer lock.  The dispatchers that hold it for reading are those whose program counter is
  `visiting`.  Sections under the write lock are one step each, enabled when no dispatcher holds the lock for reading
  and no goroutine died holding it (`wedged`, see `deregisterRecv`).  That a waiting writer keeps new readers out is not
  modelled here: the model has more schedules (Writers.lean has the lock of package sync).
* Receivers are numbered in the order of their registration.  The write of `recvMap[name]` (74) is what registers a
  receiver; the construction before it (63-71) touches nothing shared and is part of the same step.
* Map iteration order (89, 99) is a free choice of the action.
* Negative sizes, which make `make` panic, are left out.
* A reading goroutine runs the loop of `CollectTimeout` or the loop of `Drain`.  A goroutine that reads `Receiver.C`
  directly does the same receives as a `CollectTimeout` whose timer has not fired.

Events are values of an arbitrary type `ε`.  The zero value that a receive from a closed channel yields is `none`.
The ghost `log` lists what happened; nothing in the program reads it.
-/

namespace Gears.Bus

/-- `FullStrategy` (114-121).  It is an `int`: a value that is neither of the constants makes `onEvent` do nothing. -/
inductive Strategy where
  | drop | block | other
deriving Repr, DecidableEq

/-- What happened. -/
inductive Ev (ε : Type) where
  /-- a send to `FanOutBus.C` completed -/
  | sent (v : ε)
  /-- dispatcher `d` starts the iteration of 99 for event `v` (it has taken the read lock) -/
  | start (d : Nat) (v : ε)
  /-- dispatcher `d` has ended the iteration -/
  | fin (d : Nat)
  /-- dispatcher `d` put `v` into the channel of receiver `r` -/
  | deliver (d r : Nat) (v : ε)
  /-- dispatcher `d` took the `default` branch of 176 -/
  | dropped (d r : Nat) (v : ε)
  /-- receiver `r` entered, left the map -/
  | reg (r : Nat)
  | unreg (r : Nat)
  /-- the channel of receiver `r` was closed -/
  | closed (r : Nat)
  /-- reading goroutine `k` received `v` from the channel of receiver `r` -/
  | read (r k : Nat) (v : ε)
  /-- reading goroutine `k` received the zero value from the closed channel of receiver `r` -/
  | readNil (r k : Nat)
  /-- dispatcher `d` panicked: send on closed channel -/
  | dispPanic (d : Nat)
  /-- a sender panicked: send on closed channel -/
  | sendPanic
  /-- `Receiver.Close` on `r` panicked -/
  | recvClosePanic (r : Nat)
  /-- `FanOutBus.Close` panicked -/
  | busClosePanic
deriving Repr, DecidableEq

/-- `Receiver` (124-130) with the content of its channel. -/
structure Rcv (ε : Type) where
  name   : String
  cap    : Nat
  strat  : Strategy
  buf    : List ε
  closed : Bool
deriving Repr, DecidableEq

/-- Program counter of a dispatcher (96-104): at the receive of 97, before the `RLock` of 98, in the loop of 99 with the
receivers still to visit, gone. -/
inductive DPC (ε : Type) where
  | idle
  | got (v : ε)
  | visiting (v : ε) (rem : List Nat)
  | gone
deriving Repr, DecidableEq

inductive RSt where
  | run | parked | ret
deriving Repr, DecidableEq

/-- A reading goroutine: a call of `Drain` (138-153) or `CollectTimeout` (156-169) on receiver `r`; `data` is the local
variable of that name. -/
structure Reader (ε : Type) where
  r     : Nat
  drain : Bool
  st    : RSt
  data  : List (Option ε)
deriving Repr, DecidableEq

/-- `FanOutBus` (27-32) and the goroutines around it.  `closing`: a `Close` call is between 87 and 88. -/
structure State (ε : Type) where
  ch       : List ε
  chCap    : Nat
  chClosed : Bool
  rcvs     : List (Rcv ε)
  map      : List (String × Nat)
  disp     : List (DPC ε)
  rds      : List (Reader ε)
  closing  : Bool
  wedged   : Bool
  log      : List (Ev ε)
deriving Repr, DecidableEq

variable {ε : Type}

/-- `NewFanOutBus` (37-44), before any `GoDispatch`. -/
def new (bufSize : Nat) : State ε := ⟨[], bufSize, false, [], [], [], [], false, false, []⟩

inductive Action (ε : Type) where
  /-- `bus.C <- v` -/
  | send (v : ε)
  /-- `bus.C <- v` handing over to the dispatcher `d` waiting at 97 -/
  | sendTo (d : Nat) (v : ε)
  /-- `GoDispatch` -/
  | goDispatch
  | take (d : Nat)
  | rlock (d : Nat)
  /-- `recv.onEvent(event)` for receiver `r`; if readers are parked on its channel, `k` gets the event -/
  | visit (d r k : Nat)
  | runlock (d : Nat)
  /-- `NewRecvStrategy` -/
  | newRecv (name : String) (cap : Nat) (strat : Strategy)
  /-- `Close` on receiver `r` -/
  | recvClose (r : Nat)
  /-- line 87 and lines 88-93 of `FanOutBus.Close` -/
  | busClose1
  | busClose2
  /-- call `Drain` or `CollectTimeout` on receiver `r` -/
  | startRead (r : Nat) (drain : Bool)
  /-- reading goroutine `k` executes a receive -/
  | recv (k : Nat)
  /-- the receive of reading goroutine `k` completes the send (180) in which dispatcher `d` waits; the channel has no
  buffer -/
  | recvFrom (k d : Nat)
  /-- the timer branch of 164 in reading goroutine `k` -/
  | timeout (k : Nat)
deriving Repr, DecidableEq

/-- Some dispatcher holds the lock for reading. -/
def rlocked (s : State ε) : Bool := s.disp.any (fun p => match p with | .visiting _ _ => true | _ => false)

/-- The write lock can be taken. -/
def lockable (s : State ε) : Bool := !s.wedged && !rlocked s

/-- Reader `rd` waits on the channel of receiver `r`. -/
def Reader.waitsOn (rd : Reader ε) (r : Nat) : Bool := rd.st == .parked && rd.r == r

/-- Somebody waits on the channel of receiver `r`. -/
def waiting (s : State ε) (r : Nat) : Bool := s.rds.any (fun rd => rd.waitsOn r)

/-- What a receive yielding the zero value of a closed channel does to the loop: `Drain` ends (144-146),
`CollectTimeout` appends it (163). -/
def Reader.onClosed (rd : Reader ε) : Reader ε :=
  if rd.drain then { rd with st := .ret } else { rd with st := .run, data := rd.data ++ [none] }

/-- `close(ch)` of receiver `r` wakes all its waiting readers. -/
def wake (r : Nat) (rds : List (Reader ε)) : List (Reader ε) :=
  rds.map (fun rd => if rd.waitsOn r then rd.onClosed else rd)

/-- The receives that this completes. -/
def wakeLog (r : Nat) (rds : List (Reader ε)) : List (Ev ε) :=
  (List.range rds.length).filterMap (fun k =>
    match rds[k]? with
    | some rd => if rd.waitsOn r then some (.readNil r k) else none
    | none => none)

/-- `close(recv.ch)` for a channel that is open. -/
def closeCh (s : State ε) (r : Nat) (c : Rcv ε) : State ε :=
  { s with rcvs := s.rcvs.set r { c with closed := true }, rds := wake r s.rds,
           log := s.log ++ .closed r :: wakeLog r s.rds }

/-- The loop of 89-92; `none`: panic, the channel of some receiver is closed already. -/
def closeAll (s : State ε) : List (String × Nat) → Option (State ε)
  | [] => some { s with map := [] }
  | (_, r) :: m =>
    match s.rcvs[r]? with
    | none => none
    | some c =>
      if c.closed then none
      else
        let s1 := closeCh s r c
        closeAll { s1 with log := s1.log ++ [.unreg r] } m

/-- Map lookup. -/
def lookup (m : List (String × Nat)) (name : String) : Option Nat :=
  (m.find? (fun p => p.1 == name)).map Prod.snd

/-- Map without a key. -/
def without (m : List (String × Nat)) (name : String) : List (String × Nat) := m.filter (fun p => p.1 != name)

/-- `onEvent` (171-182): dispatcher `d` offers `v` to receiver `r`; `rem`: receivers to visit afterwards. -/
def offer (s : State ε) (d r k : Nat) (v : ε) (rem : List Nat) (c : Rcv ε) : Option (State ε) :=
  let next := s.disp.set d (.visiting v rem)
  if c.strat = .other then some { s with disp := next }
  -- sending on a closed channel panics, in a select too; RUnlock is not deferred
  else if c.closed then
    some { s with disp := s.disp.set d .gone, wedged := true, log := s.log ++ [.dispPanic d] }
  else if waiting s r then
    match s.rds[k]? with
    | some rd =>
      if rd.waitsOn r then
        some { s with disp := next, rds := s.rds.set k { rd with st := .run, data := rd.data ++ [some v] },
                      log := s.log ++ [.deliver d r v, .read r k v] }
      else none
    | none => none
  else if c.buf.length < c.cap then
    some { s with disp := next, rcvs := s.rcvs.set r { c with buf := c.buf ++ [v] },
                  log := s.log ++ [.deliver d r v] }
  else
    match c.strat with
    | .drop => some { s with disp := next, log := s.log ++ [.dropped d r v] }
    | _ => none

def step (s : State ε) : Action ε → Option (State ε)
  | .send v =>
    if s.chClosed then some { s with log := s.log ++ [.sendPanic] }
    else if s.ch.length < s.chCap then some { s with ch := s.ch ++ [v], log := s.log ++ [.sent v] }
    else none
  | .sendTo d v =>
    match s.disp[d]?, s.ch, s.chClosed with
    | some .idle, [], false => some { s with disp := s.disp.set d (.got v), log := s.log ++ [.sent v] }
    | _, _, _ => none
  -- 81-83
  | .goDispatch => some { s with disp := s.disp ++ [.idle] }
  -- 97
  | .take d =>
    match s.disp[d]? with
    | some .idle =>
      match s.ch with
      | v :: ch => some { s with ch := ch, disp := s.disp.set d (.got v) }
      | [] => if s.chClosed then some { s with disp := s.disp.set d .gone } else none
    | _ => none
  -- 98
  | .rlock d =>
    match s.disp[d]? with
    | some (.got v) =>
      if s.wedged then none
      else some { s with disp := s.disp.set d (.visiting v (s.map.map Prod.snd)), log := s.log ++ [.start d v] }
    | _ => none
  -- 99-101
  | .visit d r k =>
    match s.disp[d]? with
    | some (.visiting v rem) =>
      if r ∈ rem then
        match s.rcvs[r]? with
        | some c => offer s d r k v (rem.erase r) c
        | none => none
      else none
    | _ => none
  -- 102
  | .runlock d =>
    match s.disp[d]? with
    | some (.visiting _ []) => some { s with disp := s.disp.set d .idle, log := s.log ++ [.fin d] }
    | _ => none
  -- 62-78
  | .newRecv name cap strat =>
    if lockable s then
      let r := s.rcvs.length
      some { s with rcvs := s.rcvs ++ [⟨name, cap, strat, [], false⟩],
                    map := without s.map name ++ [(name, r)],
                    log := s.log ++ ((lookup s.map name).toList.map .unreg ++ [.reg r]) }
    else none
  -- 133-135, 106-111
  | .recvClose r =>
    match s.rcvs[r]? with
    | none => none
    | some me =>
      if lockable s then
        match lookup s.map me.name with
        -- `b.recvMap[name]` is nil: the field access panics with the lock held
        | none => some { s with wedged := true, log := s.log ++ [.recvClosePanic r] }
        | some q =>
          match s.rcvs[q]? with
          | none => none
          | some c =>
            if c.closed then some { s with wedged := true, log := s.log ++ [.recvClosePanic r] }
            else
              let s1 := closeCh s q c
              some { s1 with map := without s.map me.name, log := s1.log ++ [.unreg q] }
      else none
  -- 87
  | .busClose1 =>
    if s.chClosed then some { s with log := s.log ++ [.busClosePanic] }
    else some { s with chClosed := true, closing := true }
  -- 88-93
  | .busClose2 =>
    if s.closing ∧ lockable s then
      match closeAll s s.map with
      | some s1 => some { s1 with closing := false }
      | none => some { s with closing := false, wedged := true, log := s.log ++ [.busClosePanic] }
    else none
  -- 139, 157-158
  | .startRead r drain =>
    if r < s.rcvs.length then some { s with rds := s.rds ++ [⟨r, drain, .run, []⟩] } else none
  -- 142-150, 161-163
  | .recv k =>
    match s.rds[k]? with
    | some rd =>
      if rd.st = .run then
        match s.rcvs[rd.r]? with
        | none => none
        | some c =>
          match c.buf with
          | v :: buf =>
            some { s with rcvs := s.rcvs.set rd.r { c with buf := buf },
                          rds := s.rds.set k { rd with data := rd.data ++ [some v] },
                          log := s.log ++ [.read rd.r k v] }
          | [] =>
            if c.closed then
              some { s with rds := s.rds.set k rd.onClosed, log := s.log ++ [.readNil rd.r k] }
            else if rd.drain then some { s with rds := s.rds.set k { rd with st := .ret } }
            else some { s with rds := s.rds.set k { rd with st := .parked } }
      else none
    | none => none
  -- 142-147, 161-163 and 180
  | .recvFrom k d =>
    match s.rds[k]?, s.disp[d]? with
    | some rd, some (.visiting v rem) =>
      match s.rcvs[rd.r]? with
      | none => none
      | some c =>
        if rd.st = .run ∧ rd.r ∈ rem ∧ c.strat = .block ∧ c.closed = false ∧ c.cap = 0 ∧ c.buf = [] ∧
            waiting s rd.r = false then
          some { s with disp := s.disp.set d (.visiting v (rem.erase rd.r)),
                        rds := s.rds.set k { rd with data := rd.data ++ [some v] },
                        log := s.log ++ [.deliver d rd.r v, .read rd.r k v] }
        else none
    | _, _ => none
  -- 164-165
  | .timeout k =>
    match s.rds[k]? with
    | some rd =>
      if rd.drain = false ∧ rd.st ≠ .ret then some { s with rds := s.rds.set k { rd with st := .ret } } else none
    | none => none

/-- States a new bus can reach. -/
def Reach (bufSize : Nat) (s : State ε) : Prop := Reachable step (new bufSize) s

end Gears.Bus
