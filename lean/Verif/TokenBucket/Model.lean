/-
Model of /repo/ratelimiter/tokenbucket.go, SyncTokenBucket (lines 31-104).

The whole body of `Acquire` runs under `t.lock` (72-73), so one call is one atomic step; the clock
reading `t.nowFn()` (89) happens inside the critical section and is the argument `now`.
Go `int`/`int64` are modelled by `Int`; Go `/` truncates toward zero (`Int.tdiv`).
Simplification: no 64-bit wrap-around (see `Verif/TokenBucket/Int64.lean` for the range in which the
machine arithmetic coincides).
-/

namespace Gears.TokenBucket

/-- `int64(time.Second)` in nanoseconds (tokenbucket.go:92). -/
def second : Int := 1000000000

/-- `SyncTokenBucket` (tokenbucket.go:58-65), without the lock and `nowFn`. -/
structure State where
  capacity : Int
  tokens   : Int
  rate     : Int   -- issueRatePerSecond
  last     : Int   -- lastIssueTimestamp
deriving Repr, DecidableEq

/-- `NewSyncTokenBucket` (tokenbucket.go:34-42); `now` is `gtime.SysNow().UnixNano()`. -/
def new (capacity rate now : Int) : State :=
  { capacity := capacity, tokens := capacity, rate := rate, last := now }

/-- `issueIfNecessary` (tokenbucket.go:85-104). -/
def issueIfNecessary (s : State) (now : Int) : State :=
  if s.tokens ≥ s.capacity then s
  else
    let elapse := now - s.last
    let delta := Int.tdiv elapse second * s.rate
    if delta = 0 then s
    else
      let t := s.tokens + delta
      { s with tokens := if t > s.capacity then s.capacity else t, last := now }

/-- `Acquire` (tokenbucket.go:71-83). -/
def acquire (s : State) (now : Int) : State × Bool :=
  let s1 := issueIfNecessary s now
  if s1.tokens > 0 then ({ s1 with tokens := s1.tokens - 1 }, true) else (s1, false)

/-- A finite sequence of `Acquire` calls, one per clock reading, in lock order; returns the final state
and the observable history: (clock reading, returned value). -/
def run (s : State) : List Int → State × List (Int × Bool)
  | [] => (s, [])
  | t :: ts =>
    let r := acquire s t
    let r2 := run r.1 ts
    (r2.1, (t, r.2) :: r2.2)

/-- `Capacity` (tokenbucket.go:67-69). -/
def capacityOf (s : State) : Int := s.capacity

end Gears.TokenBucket
