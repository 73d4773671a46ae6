import Verif.Common.History

/-
Model of /repo/ratelimiter/slidingwindow.go, SyncSlidingWindow (lines 38-117).

`Acquire` reads the clock (63) before it takes the lock (65), so goroutines may enter the critical section in another
order than the one in which they read the clock.  The model takes the sequence of critical sections; the clock
readings handed to it are arbitrary (not assumed sorted).  The body of each critical section is one atomic step.
Go `int`/`int64` are `Int`, no wrap-around.  The `container/list` of timestamps is a `List Int`, oldest first.
A panic (nil dereference in line 79) is the result `none`.
-/

namespace Gears.SlidingWindow

/-- `SyncSlidingWindow` (slidingwindow.go:54-60), without lock and `nowFn`. -/
structure State where
  capacity   : Int
  windowSize : Int
  records    : List Int
deriving Repr, DecidableEq

/-- `NewSyncSlidingWindow` (slidingwindow.go:42-52). -/
def new (capacity windowSize : Int) : State :=
  { capacity := if capacity < 0 then 0 else capacity, windowSize := windowSize, records := [] }

/-- `Acquire` (slidingwindow.go:62-87) for a caller that has read the clock value `now`. -/
def acquire (s : State) (now : Int) : Option (State × Bool) :=
  if s.capacity = 0 then some (s, true)
  else if (s.records.length : Int) < s.capacity then
    some ({ s with records := s.records ++ [now] }, true)
  else
    match s.records with
    | [] => none          -- Front() is nil: `oldestV.Value` panics (79)
    | oldest :: rest =>
      if now - oldest > s.windowSize then some ({ s with records := rest ++ [now] }, true)
      else some (s, false)

/-- The loop of `UpdateConfig` (slidingwindow.go:109-112): drop records from the front while there are more than
`capacity`. -/
def shrink (capacity : Int) : List Int → List Int
  | [] => []
  | r :: rs => if ((r :: rs).length : Int) > capacity then shrink capacity rs else r :: rs

/-- `UpdateConfig` (slidingwindow.go:101-117). -/
def updateConfig (s : State) (capacity windowSize : Int) : State :=
  let capacity := if capacity < 0 then 0 else capacity
  { capacity := capacity, windowSize := windowSize, records := shrink capacity s.records }

/-- `Capacity` (slidingwindow.go:89-93). -/
def capacityOf (s : State) : Int := s.capacity

/-- `WindowSize` (slidingwindow.go:95-99). -/
def windowSizeOf (s : State) : Int := s.windowSize

/-- The calls that change the limiter. -/
inductive Op where
  | acquire (now : Int)
  | updateConfig (capacity windowSize : Int)
deriving Repr, DecidableEq

/-- A sequence of critical sections; the history lists the `Acquire` calls only. `none` if a call panics. -/
def run (s : State) : List Op → Option (State × History)
  | [] => some (s, [])
  | .acquire now :: ops =>
    match acquire s now with
    | none => none
    | some (s1, b) =>
      match run s1 ops with
      | none => none
      | some (s2, h) => some (s2, (now, b) :: h)
  | .updateConfig c w :: ops => run (updateConfig s c w) ops

end Gears.SlidingWindow
