import Verif.Common.Exec
import Verif.Schedule.Model

/-
Model of /repo/schedule/task_manager.go (39-86).

Tasks are numbered; `name t` is what `t.Name()` returns (the tasks of this package return a fixed field, task.go 64-66).
Of a task only its life-cycle status counts here; `Start` succeeds iff the status is `new`, `Stop` iff it is `started`
(this is C41 for the two task types of the package).

Every method of the manager holds the lock for its whole body and releases it by `defer` also when it panics, so every
call is one step.  Other goroutines may call `Start`, `Stop` of tasks directly (`envStart`, `envStop`).
The map is an association list; `UnregisterAll` visits it in any order (`order`).
-/

namespace Gears.TaskManager

open Gears.Schedule (Status)

inductive Res where
  | ok | dup | panic
deriving Repr, DecidableEq

/-- Calls and their results. -/
inductive Ev where
  | register (t : Nat) (r : Res)
  | unregister (n : String)
  | unregisterAll
deriving Repr, DecidableEq

structure State where
  status : Nat → Status
  map    : List (String × Nat)
  log    : List Ev

/-- 44-49; all tasks are given, in any status. -/
def new (status : Nat → Status) : State := ⟨status, [], []⟩

def lookup (m : List (String × Nat)) (n : String) : Option Nat :=
  match m with
  | [] => none
  | (k, t) :: m => if k = n then some t else lookup m n

/-- `t.Stop()`; the error is ignored. -/
def stopTask (status : Nat → Status) (t : Nat) : Nat → Status :=
  fun u => if u = t ∧ status t = .started then .stopped else status u

def stopTasks (status : Nat → Status) : List Nat → Nat → Status
  | [] => status
  | t :: ts => stopTasks (stopTask status t) ts

def startTask (status : Nat → Status) (t : Nat) : Nat → Status :=
  fun u => if u = t ∧ status t = .new then .started else status u

inductive Action where
  | register (t : Nat)
  | unregister (n : String)
  | unregisterAll (order : List Nat)
  | envStart (t : Nat)
  | envStop (t : Nat)
deriving Repr, DecidableEq

def step (name : Nat → String) (s : State) : Action → Option State
  -- 51-63
  | .register t =>
    match lookup s.map (name t) with
    | some _ => some { s with log := s.log ++ [.register t .dup] }
    | none =>
      if s.status t = .new then
        some { status := startTask s.status t, map := (name t, t) :: s.map, log := s.log ++ [.register t .ok] }
      else some { s with map := (name t, t) :: s.map, log := s.log ++ [.register t .panic] }
  -- 65-75
  | .unregister n =>
    match lookup s.map n with
    | none => some { s with log := s.log ++ [.unregister n] }
    | some t =>
      some { status := stopTask s.status t, map := s.map.filter (fun p => p.1 ≠ n), log := s.log ++ [.unregister n] }
  -- 77-86
  | .unregisterAll order =>
    if order.isPerm (s.map.map Prod.snd) then
      some { status := stopTasks s.status order, map := [], log := s.log ++ [.unregisterAll] }
    else none
  | .envStart t => some { s with status := startTask s.status t }
  | .envStop t => some { s with status := stopTask s.status t }

end Gears.TaskManager
