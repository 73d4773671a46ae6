import Verif.Common.Exec

/-
Model of /repo/ratelimiter/tokenbucket.go, AtomicTokenBucket (lines 44-55, 106-177).

`Acquire` takes no lock.  Every `sync/atomic` operation is one step; any number of goroutines interleave
arbitrarily.  Local computation between two atomic operations is merged into the preceding step (it is
invisible to other goroutines).  Clock reads return the value of a global clock moved by the
action `tick d`; theorems that need a non-decreasing clock assume `d ≥ 0` for all ticks (`Action.Forward`).  Go `int64` is `Int` (no wrap-around; with it: Int64.lean, C121).
-/

namespace Gears.AtomicBucket

/-- Program counter of one goroutine inside `Acquire`. -/
inductive PC where
  /-- not inside `Acquire` -/
  | idle
  /-- about to run `oldTokens := atomic.LoadInt64(&t.tokens)` in issueIfNecessary (141) -/
  | issLoadTok
  /-- loaded `oldTokens < capacity`; about to run `oldLit := atomic.LoadInt64(&t.lastIssueTimestamp)` (146) -/
  | issLoadLit (old : Int)
  /-- about to read the clock (147) and compute delta (149-159) -/
  | issNow (old lit : Int)
  /-- about to CAS tokens `old → old+delta` (161) -/
  | issCas1 (old lit now delta : Int)
  /-- first CAS succeeded; about to CAS lastIssueTimestamp `lit → now` (166) -/
  | issCas2 (lit now delta : Int)
  /-- second CAS failed; about to `AddInt64(&t.tokens, -delta)` (169) -/
  | issRollback (delta : Int)
  /-- about to run `oldTokens := atomic.LoadInt64(&t.tokens)` in Acquire (125) -/
  | acqLoad
  /-- loaded `old > 0`; about to CAS tokens `old → old-1` (126) -/
  | acqCas (old : Int)
deriving Repr, DecidableEq

/-- Shared memory, the clock, the goroutines' program counters and ghost history: `log`, the values returned by
completed `Acquire` calls, oldest first; `issues`, the number of successful CASes that added tokens (161);
`rolled`, the total number of tokens taken back by line 169. -/
structure State where
  capacity : Int
  rate     : Int
  tokens   : Int
  lit      : Int      -- lastIssueTimestamp
  clock    : Int
  pcs      : List PC
  log      : List Bool
  issues   : Nat
  rolled   : Int
deriving Repr, DecidableEq

/-- `NewAtomicTokenBucket` (47-55) at clock `t0`, used by `n` goroutines. -/
def init (capacity rate t0 : Int) (n : Nat) : State :=
  { capacity := capacity, rate := rate, tokens := capacity, lit := t0, clock := t0,
    pcs := List.replicate n .idle, log := [], issues := 0, rolled := 0 }

inductive Action where
  /-- the clock moves by `d` ns -/
  | tick (d : Int)
  /-- goroutine `i` calls `Acquire` -/
  | call (i : Nat)
  /-- goroutine `i` executes its next atomic operation -/
  | run (i : Nat)
deriving Repr, DecidableEq

def State.setPc (s : State) (i : Nat) (p : PC) : State := { s with pcs := s.pcs.set i p }

/-- The next atomic operation of goroutine `i`, whose program counter is `p`. -/
def runPc (s : State) (i : Nat) : PC → Option State
  | .idle => none
  -- 141-144: load tokens; `if oldTokens >= capacity return` (then Acquire goes on at 124)
  | .issLoadTok =>
    if s.tokens ≥ s.capacity then some (s.setPc i .acqLoad)
    else some (s.setPc i (.issLoadLit s.tokens))
  -- 146: load lastIssueTimestamp
  | .issLoadLit old => some (s.setPc i (.issNow old s.lit))
  -- 147-159: read the clock; compute and clamp delta; `if delta == 0 return`
  | .issNow old lit =>
    let delta := Int.tdiv (s.clock - lit) 1000000000 * s.rate
    if delta = 0 then some (s.setPc i .acqLoad)
    else
      let delta := if old + delta > s.capacity then s.capacity - old else delta
      some (s.setPc i (.issCas1 old lit s.clock delta))
  -- 161-164: CAS tokens; on failure `continue`
  | .issCas1 old lit now delta =>
    if s.tokens = old then 
      some ({ s with tokens := old + delta, issues := s.issues + 1 }.setPc i (.issCas2 lit now delta))
    else some (s.setPc i .issLoadTok)
  -- 166-174: CAS lastIssueTimestamp; on success `break`
  | .issCas2 lit now delta =>
    if s.lit = lit then some ({ s with lit := now }.setPc i .acqLoad)
    else some (s.setPc i (.issRollback delta))
  -- 169-171: roll back the tokens and `continue`
  | .issRollback delta => 
    some ({ s with tokens := s.tokens - delta, rolled := s.rolled + delta }.setPc i .issLoadTok)
  -- 125,130-131: load tokens; `return false` if none
  | .acqLoad =>
    if s.tokens > 0 then some (s.setPc i (.acqCas s.tokens))
    else some ({ s with log := s.log ++ [false] }.setPc i .idle)
  -- 126-129,134: CAS tokens; on success return true, else loop
  | .acqCas old =>
    if s.tokens = old then
      some ({ s with tokens := old - 1, log := s.log ++ [true] }.setPc i .idle)
    else some (s.setPc i .acqLoad)

/-- The action does not move the clock backwards. -/
def Action.Forward : Action → Prop
  | .tick d => 0 ≤ d
  | _ => True

/-- One scheduler step. -/
def step (s : State) : Action → Option State
  | .tick d => some { s with clock := s.clock + d }
  | .call i =>
    match s.pcs[i]? with
    | some .idle => some (s.setPc i .issLoadTok)
    | _ => none
  | .run i =>
    match s.pcs[i]? with
    | some p => runPc s i p
    | none => none

/-- Number of `Acquire` calls that returned true so far. -/
def State.admitted (s : State) : Nat := s.log.countP id

end Gears.AtomicBucket
