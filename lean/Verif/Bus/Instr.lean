import Verif.Bus.Progress

/-
The bus (/repo/event/bus.go) instruction by instruction (C142).

Model.lean makes one step of every section under the write lock.  Here `Lock`, `Unlock`, `RLock` and `RUnlock`, every access
to `recvMap` (in a loop over the map: every entry), and every `close` are steps of their own; any number of goroutines that call
NewRecvStrategy, Receiver.Close and FanOutBus.Close, and the dispatchers, are preempted between any two.  `recvMap` is the only
variable that is assigned after construction.
-/

namespace Gears.Bus.Instr

open Gears.Bus

variable {ε : Type}

/-- Where a caller is; the numbers are lines of bus.go.  Between calls it is `idle`. -/
inductive WPC where
  | idle
  /-- NewRecvStrategy: before `Lock`, before `b.recvMap[name] = recv` -/
  | n73 (name : String) (cap : Nat) (strat : Strategy)
  | n74 (name : String) (cap : Nat) (strat : Strategy)
  /-- Close on receiver `r`, whose name is `name`: before `Lock`; before the lookup of 108; before its `close`; before `delete` -/
  | c107 (r : Nat) (name : String)
  | c108 (r : Nat) (name : String)
  | c108c (r : Nat) (name : String) (q : Nat)
  | c109 (name : String)
  /-- FanOutBus.Close: before `close(b.ch)`; before `Lock`; before the next entry; before `close(recv.ch)`; before `delete` -/
  | b87
  | b88
  | b89
  | b90 (name : String) (q : Nat)
  | b91 (name : String)
  /-- before `Unlock`; `bus`: of FanOutBus.Close (93) -/
  | unlock (bus : Bool)
  /-- panicked with the lock -/
  | dead
deriving Repr, DecidableEq

/-- `bus` is the map, the channels, the readers and the dispatchers.  `writer` and `readers` are `recvMapLock`: the caller that
locked it, the dispatchers that locked it for reading.  `at d`: dispatcher `d` is in `onEvent` of this receiver. -/
structure IState (ε : Type) where
  bus     : State ε
  writer  : Option Nat
  readers : List Nat
  callers : Nat → WPC
  at'     : Nat → Option Nat

inductive IAct (ε : Type) where
  /-- caller `i` calls -/
  | newRecv (i : Nat) (name : String) (cap : Nat) (strat : Strategy)
  | recvClose (i r : Nat)
  | busClose (i : Nat)
  /-- the next instruction of caller `i`; `c` is the entry that the loop of 89 comes to -/
  | caller (i c : Nat)
  | rlock (d : Nat)
  /-- the loop of 99 comes to receiver `r` -/
  | pick (d r : Nat)
  /-- `onEvent` -/
  | visit (d k : Nat)
  | recvFrom (k d : Nat)
  | runlock (d : Nat)
  /-- steps that have nothing to do with the lock -/
  | plain (a : Action ε)
deriving Repr, DecidableEq

def isPlain : Action ε → Bool
  | .send _ | .sendTo _ _ | .goDispatch | .take _ | .startRead _ _ | .recv _ | .timeout _ => true
  | _ => false

def upd {α : Type} (f : Nat → α) (i : Nat) (x : α) : Nat → α := fun j => if j = i then x else f j

def IState.goto (s : IState ε) (i : Nat) (p : WPC) : IState ε := { s with callers := upd s.callers i p }

/-- `Lock` by caller `i`. -/
def IState.lock (s : IState ε) (i : Nat) (p : WPC) : Option (IState ε) :=
  if s.writer = none ∧ s.readers = [] then some { s.goto i p with writer := some i } else none

/-- A panic with the lock held. -/
def IState.die (s : IState ε) (i : Nat) (e : Ev ε) : IState ε :=
  { s.goto i .dead with bus := { s.bus with wedged := true, log := s.bus.log ++ [e] } }

/-- The next instruction of caller `i`.  That a receiver leaves the map is logged when its channel is closed. -/
def callerStep (s : IState ε) (i c : Nat) : Option (IState ε) :=
  match s.callers i with
  | .idle | .dead => none
  | .n73 name cap strat => s.lock i (.n74 name cap strat)
  | .n74 name cap strat =>
    some { s.goto i (.unlock false) with bus := { s.bus with
      rcvs := s.bus.rcvs ++ [⟨name, cap, strat, [], false⟩]
      map := without s.bus.map name ++ [(name, s.bus.rcvs.length)]
      log := s.bus.log ++ ((lookup s.bus.map name).toList.map .unreg ++ [.reg s.bus.rcvs.length]) } }
  | .c107 r name => s.lock i (.c108 r name)
  | .c108 r name =>
    match lookup s.bus.map name with
    | none => some (s.die i (.recvClosePanic r))
    | some q => some (s.goto i (.c108c r name q))
  | .c108c r name q =>
    match s.bus.rcvs[q]? with
    | none => none
    | some x =>
      if x.closed then some (s.die i (.recvClosePanic r))
      else some { s.goto i (.c109 name) with bus := { closeCh s.bus q x with log := (closeCh s.bus q x).log ++ [.unreg q] } }
  | .c109 name => some { s.goto i (.unlock false) with bus := { s.bus with map := without s.bus.map name } }
  | .b87 =>
    if s.bus.chClosed then some { s.goto i .idle with bus := { s.bus with log := s.bus.log ++ [.busClosePanic] } }
    else some { s.goto i .b88 with bus := { s.bus with chClosed := true, closing := true } }
  | .b88 => s.lock i .b89
  | .b89 =>
    match s.bus.map[c]? with
    | some (name, q) => some (s.goto i (.b90 name q))
    | none => if s.bus.map = [] then some (s.goto i (.unlock true)) else none
  | .b90 name q =>
    match s.bus.rcvs[q]? with
    | none => none
    | some x =>
      if x.closed then some (s.die i .busClosePanic)
      else some { s.goto i (.b91 name) with bus := { closeCh s.bus q x with log := (closeCh s.bus q x).log ++ [.unreg q] } }
  | .b91 name => some { s.goto i .b89 with bus := { s.bus with map := without s.bus.map name } }
  | .unlock b => some { s.goto i .idle with writer := none, bus := { s.bus with closing := s.bus.closing && !b } }

def iStep (s : IState ε) : IAct ε → Option (IState ε)
  | .newRecv i name cap strat => if s.callers i = .idle then some (s.goto i (.n73 name cap strat)) else none
  | .recvClose i r =>
    match s.bus.rcvs[r]? with
    | some me => if s.callers i = .idle then some (s.goto i (.c107 r me.name)) else none
    | none => none
  | .busClose i => if s.callers i = .idle then some (s.goto i .b87) else none
  | .caller i c => callerStep s i c
  | .rlock d =>
    match s.bus.disp[d]? with
    | some (.got v) =>
      if s.writer = none then
        some { s with readers := d :: s.readers, bus := { s.bus with disp := s.bus.disp.set d (.visiting v (ids s.bus.map)), log := s.bus.log ++ [.start d v] } }
      else none
    | _ => none
  -- an entry that was removed is not produced
  | .pick d r =>
    match s.bus.disp[d]? with
    | some (.visiting _ rem) => if s.at' d = none ∧ r ∈ rem ∧ r ∈ ids s.bus.map then some { s with at' := upd s.at' d (some r) } else none
    | _ => none
  | .visit d k =>
    match s.at' d with
    | some r => (step s.bus (.visit d r k)).map fun b => { s with bus := b, at' := upd s.at' d none }
    | none => none
  | .recvFrom k d =>
    match s.bus.rds[k]? with
    | some rd => if s.at' d = some rd.r then (step s.bus (.recvFrom k d)).map fun b => { s with bus := b, at' := upd s.at' d none } else none
    | none => none
  | .runlock d =>
    match s.bus.disp[d]? with
    | some (.visiting _ rem) =>
      if s.at' d = none ∧ ∀ r ∈ rem, r ∉ ids s.bus.map then
        some { s with readers := s.readers.filter (· ≠ d), bus := { s.bus with disp := s.bus.disp.set d .idle, log := s.bus.log ++ [.fin d] } }
      else none
    | _ => none
  | .plain a => if isPlain a then (step s.bus a).map fun b => { s with bus := b } else none

def iNew (n : Nat) : IState ε := ⟨new n, none, [], fun _ => .idle, fun _ => none⟩

def IReach (n : Nat) (s : IState ε) : Prop := Reachable iStep (iNew n) s

/-! ### Races -/

/-- How the next instruction of a caller accesses `recvMap`; true: it changes it. -/
def WPC.access : WPC → Option Bool
  | .n74 _ _ _ | .c109 _ | .b91 _ => some true
  | .c108 _ _ | .b89 => some false
  | _ => none

inductive Thread where
  | caller (i : Nat) | disp (d : Nat)
deriving Repr, DecidableEq

/-- A dispatcher in the loop of 99, and not in `onEvent`, is about to read `recvMap`. -/
def IState.access (s : IState ε) : Thread → Option Bool
  | .caller i => (s.callers i).access
  | .disp d =>
    match s.bus.disp[d]? with
    | some (.visiting _ _) => if s.at' d = none then some false else none
    | _ => none

/-- Two goroutines are about to access `recvMap`, and one of them changes it. -/
def Race (s : IState ε) : Prop := ∃ a b w w', a ≠ b ∧ s.access a = some w ∧ s.access b = some w' ∧ (w = true ∨ w' = true)

/-! ### Model.lean -/

/-- Between Lock and Unlock. -/
def WPC.crit : WPC → Bool
  | .idle | .n73 _ _ _ | .c107 _ _ | .b87 | .b88 => false
  | _ => true

/-- FanOutBus.Close after 87. -/
def WPC.past : WPC → Bool
  | .b88 | .b89 | .b90 _ _ | .b91 _ | .unlock true => true
  | _ => false

/-- The receiver that is closed, and its name. -/
def WPC.self : WPC → Option (Nat × String)
  | .c107 r name | .c108 r name | .c108c r name _ => some (r, name)
  | _ => none

/-- The entry that is removed next. -/
def WPC.gone : WPC → Option String
  | .c109 name | .b91 name => some name
  | _ => none

/-- The state of Model.lean: the receiver whose channel has been closed is not in the map any more. -/
def IState.abs (s : IState ε) : State ε :=
  match (s.writer.bind fun i => (s.callers i).gone) with
  | some name => { s.bus with map := without s.bus.map name }
  | none => s.bus

structure IInv (s : IState ε) : Prop where
  lock  : ∀ i, (s.callers i).crit = true ↔ s.writer = some i
  excl  : s.writer ≠ none → s.readers = []
  rd    : ∀ d, d ∈ s.readers ↔ ∃ v rem, s.bus.disp[d]? = some (.visiting v rem)
  pick  : ∀ d r, s.at' d = some r → ∃ v rem, s.bus.disp[d]? = some (.visiting v rem) ∧ r ∈ rem
  wedge : s.bus.wedged = true → ∃ i, s.callers i = .dead
  name  : ∀ i r name, (s.callers i).self = some (r, name) → ∃ me, s.bus.rcvs[r]? = some me ∧ me.name = name
  found : ∀ i r name q, s.callers i = .c108c r name q → lookup s.bus.map name = some q
  entry : ∀ i name q, s.callers i = .b90 name q → (name, q) ∈ s.bus.map
  del   : ∀ i name, s.callers i = .b91 name →
            (∃ q, (name, q) ∈ s.bus.map) ∧ ∀ q, (name, q) ∈ s.bus.map → ∃ c, s.bus.rcvs[q]? = some c ∧ c.closed = true
  empty : ∀ i, s.callers i = .unlock true → s.bus.map = []
  past  : ∀ i, (s.callers i).past = true → s.bus.closing = true ∧ s.bus.chClosed = true
  one   : ∀ i j, (s.callers i).past = true → (s.callers j).past = true → i = j

end Gears.Bus.Instr
