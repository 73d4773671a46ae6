import Verif.Common.Exec

/-
Model of /repo/concurrent/sema.go (lines 37-122).

Both semaphores are transition systems.  `Acquire` calls are numbered in the order in which they reach the semaphore
(get the channel lock / the mutex for the first time); any number of goroutines may call any method at any time.

* `Chan`: the Go channel of line 39 is modelled with its buffer (only the number of buffered values matters, all values
  are 0) and its FIFO queue of blocked senders, as in the Go runtime (`runtime/chan.go`, `chansend`, `chanrecv`): every
  channel operation is one atomic step; a receive from a full buffered channel with blocked senders takes the value at
  the head of the buffer, puts the value of the first blocked sender in the buffer and readies that sender; a receive
  from an unbuffered channel takes the value from the first blocked sender.  No goroutine ever blocks receiving, so the
  queue of receivers is empty.
* `Lock`: each critical section is one step.  `notFull.Wait()` puts the goroutine on the notify list before it
  unlocks the mutex, so going to sleep is part of the critical section; after `Broadcast` a goroutine has to get the
  mutex again (action `run`), in any order and interleaved with other calls.  A mutex is held only inside steps, so
  waiting for it is not modelled.

The ghost `log` lists the observable results.
-/

namespace Gears.Sema

/-- Observable events. -/
inductive Ev where
  /-- the `i`-th `Acquire` call has to wait -/
  | blocked (i : Nat)
  /-- the `i`-th `Acquire` call gets its permit -/
  | acquired (i : Nat)
  /-- a `TryAcquire` call returns `b` -/
  | tried (b : Bool)
  /-- a `Release` call returns; `freed`: it found a permit to return -/
  | released (freed : Bool)
deriving Repr, DecidableEq

namespace Chan

/-- `ChanSemaphore` (55-57): capacity, number of buffered values, blocked senders, number of `Acquire` calls so far. -/
structure State where
  permits : Nat
  n       : Nat
  sendq   : List Nat
  calls   : Nat
  log     : List Ev
deriving Repr, DecidableEq

/-- `NewChanSemaphore` (37-41); `make` panics for a negative size. -/
def new (permits : Int) : Option State :=
  if permits < 0 then none else some ⟨permits.toNat, 0, [], 0, []⟩

inductive Action where
  | acquire | tryAcquire | release
deriving Repr, DecidableEq

def step (s : State) : Action → Option State
  -- 59-62
  | .acquire =>
    if s.n < s.permits then
      some { s with n := s.n + 1, calls := s.calls + 1, log := s.log ++ [.acquired s.calls] }
    else
      some { s with sendq := s.sendq ++ [s.calls], calls := s.calls + 1, log := s.log ++ [.blocked s.calls] }
  -- 72-81
  | .tryAcquire =>
    if s.n < s.permits then some { s with n := s.n + 1, log := s.log ++ [.tried true] }
    else some { s with log := s.log ++ [.tried false] }
  -- 64-70
  | .release =>
    match s.sendq with
    | i :: q => some { s with sendq := q, log := s.log ++ [.released true, .acquired i] }
    | [] =>
      if 0 < s.n then some { s with n := s.n - 1, log := s.log ++ [.released true] }
      else some { s with log := s.log ++ [.released false] }

end Chan

namespace Lock

/-- Where an `Acquire` call is. -/
inductive PC where
  /-- asleep in `notFull.Wait()` -/
  | waiting
  /-- woken by `Broadcast`, has to get the mutex and test again (93) -/
  | woken
  /-- returned -/
  | done
deriving Repr, DecidableEq

/-- `LockSemaphore` (84-89). -/
structure State where
  permits : Int
  count   : Int
  pcs     : List PC
  log     : List Ev
deriving Repr, DecidableEq

/-- `NewLockSemaphore` (46-52). -/
def new (permits : Int) : State := ⟨permits, 0, [], []⟩

/-- `isFull` (120-122). -/
def State.isFull (s : State) : Prop := s.count ≥ s.permits

instance (s : State) : Decidable s.isFull := by unfold State.isFull; infer_instance

def wake : PC → PC
  | .waiting => .woken
  | p => p

inductive Action where
  | acquire | tryAcquire | release
  /-- the woken `Acquire` call `i` gets the mutex -/
  | run (i : Nat)
deriving Repr, DecidableEq

def step (s : State) : Action → Option State
  -- 91-98, first test
  | .acquire =>
    if s.isFull then some { s with pcs := s.pcs ++ [.waiting], log := s.log ++ [.blocked s.pcs.length] }
    else some { s with count := s.count + 1, pcs := s.pcs ++ [.done], log := s.log ++ [.acquired s.pcs.length] }
  -- 93-97, after a wake-up
  | .run i =>
    match s.pcs[i]? with
    | some .woken =>
      if s.isFull then some { s with pcs := s.pcs.set i .waiting }
      else some { s with count := s.count + 1, pcs := s.pcs.set i .done, log := s.log ++ [.acquired i] }
    | _ => none
  -- 110-118
  | .tryAcquire =>
    if s.isFull then some { s with log := s.log ++ [.tried false] }
    else some { s with count := s.count + 1, log := s.log ++ [.tried true] }
  -- 100-108
  | .release =>
    if s.count ≤ 0 then some { s with log := s.log ++ [.released false] }
    else some { s with count := s.count - 1, pcs := s.pcs.map wake, log := s.log ++ [.released true] }

end Lock
end Gears.Sema
