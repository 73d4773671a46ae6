import Verif.Common.History
import Verif.Common.Float64

/-
Model of /repo/ratelimiter/fixedwindow.go, SyncFixedWindow (lines 46-104).

`Acquire` reads the clock (67) before it takes the lock (69); the body of the critical section is one atomic step and
receives that reading.  Go `int`/`int64` are `Int`, no wrap-around (64-bit arithmetic: Int64.lean).  The float64 expression of line 102 is modelled
with IEEE rounding (`Gears.Float64`).  Simplification: `windowSize > 0` is assumed by the theorems (a zero window makes
line 102 convert an infinity to int64, which Go leaves implementation-defined).
-/

namespace Gears.FixedWindow

open Float64

/-- `SyncFixedWindow` (fixedwindow.go:57-64), without lock and `nowFn`. -/
structure State where
  capacity   : Int
  windowSize : Int
  till       : Int   -- field `until`
  count      : Int

/-- `NewSyncFixedWindow` (fixedwindow.go:49-55). -/
def new (capacity windowSize : Int) : State :=
  { capacity := capacity, windowSize := windowSize, till := 0, count := 0 }

/-- `int64(math.Ceil(float64(d) / float64(w)))` (fixedwindow.go:102). -/
def goCeilDiv (d w : Int) : Int := ceilInt (div (ofInt d) (ofInt w))

/-- `contains` (fixedwindow.go:93-95). -/
def contains (s : State) (ts : Int) : Prop := s.till ≥ ts

instance (s : State) (ts : Int) : Decidable (contains s ts) := by unfold contains; infer_instance

/-- `reset` (fixedwindow.go:98-104). -/
def reset (s : State) (ts : Int) : State :=
  if contains s ts then s
  else { s with till := s.till + goCeilDiv (ts - s.till) s.windowSize * s.windowSize, count := 0 }

/-- `Acquire` (fixedwindow.go:66-82) for a caller that has read the clock value `now`. -/
def acquire (s : State) (now : Int) : State × Bool :=
  let s1 := if ¬ contains s now then reset s now else s
  if s1.count < s1.capacity then ({ s1 with count := s1.count + 1 }, true) else (s1, false)

/-- `Capacity` (fixedwindow.go:84-86). -/
def capacityOf (s : State) : Int := s.capacity

/-- `WindowSize` (fixedwindow.go:88-90). -/
def windowSizeOf (s : State) : Int := s.windowSize

/-- A sequence of `Acquire` calls in lock order, one per clock reading. -/
def run (s : State) : List Int → State × History
  | [] => (s, [])
  | t :: ts =>
    let r := acquire s t
    let r2 := run r.1 ts
    (r2.1, (t, r.2) :: r2.2)

end Gears.FixedWindow
