import Verif.TaskManager.Props
import Verif.Schedule.InstrProps

/-
The task manager (/repo/schedule/task_manager.go 51-86) instruction by instruction, with tasks that are themselves given
instruction by instruction (Schedule/Instr.lean) (C143).

Locking, unlocking and every access to `taskMap` (in the loop of 81: every entry) are steps of their own, and so are all
instructions of MustStart and Stop of the tasks.  Any number of goroutines, also those of jobs, call the manager and the tasks, and
all are preempted between any two instructions.  The tasks are those of the package; `Register(nil)`, which panics in `task.Name()`,
is not a step.
-/

namespace Gears.TaskManager.Instr

open Gears.Schedule (Status Kind)
open Gears.Schedule.Instr (IAction CPC iNew)

/-- A task, instruction by instruction. -/
abbrev Task := Schedule.Instr.IState

/-- Where a caller of the manager is; the numbers are lines of task_manager.go.  Between calls it is `idle`. -/
inductive MPC where
  | idle
  /-- Register: before `Lock`; before the lookup; before the assignment; before and in `MustStart`, which is call `k` of the task -/
  | r53 (t : Nat)
  | r56 (t : Nat)
  | r60 (t : Nat)
  | r61 (t : Nat)
  | r61w (t k : Nat)
  /-- Unregister: before `Lock`; before the lookup; before and in `Stop`; before `delete` -/
  | u66 (n : String)
  | u69 (n : String)
  | u73 (n : String) (t : Nat)
  | u73w (n : String) (t k : Nat)
  | u74 (n : String)
  /-- UnregisterAll: before `Lock`; before the next entry; before and in `Stop`; before the assignment.  `seen` are the entries that
  the loop has visited -/
  | a78
  | a81 (seen : List (String × Nat))
  | a82 (seen : List (String × Nat)) (e : String × Nat)
  | a82w (seen : List (String × Nat)) (e : String × Nat) (k : Nat)
  | a85
  /-- before the deferred `Unlock`; the call returns `e` -/
  | unlock (e : Ev)
deriving Repr, DecidableEq

structure MState where
  task    : Nat → Task
  map     : List (String × Nat)
  lock    : Option Nat
  callers : Nat → MPC
  log     : List Ev

inductive MAct where
  /-- an instruction of a task or of somebody who calls it -/
  | task (t : Nat) (a : IAction)
  /-- caller `i` calls -/
  | register (i t : Nat)
  | unregister (i : Nat) (n : String)
  | unregisterAll (i : Nat)
  /-- the next instruction of caller `i`; `c` is the entry that the loop of 81 comes to -/
  | mgr (i c : Nat)
deriving Repr, DecidableEq

def upd {α : Type} (f : Nat → α) (i : Nat) (x : α) : Nat → α := fun j => if j = i then x else f j

def MState.goto (s : MState) (i : Nat) (p : MPC) : MState := { s with callers := upd s.callers i p }

/-- `Lock` by caller `i`. -/
def MState.take (s : MState) (i : Nat) (p : MPC) : Option MState :=
  if s.lock = none then some { s.goto i p with lock := some i } else none

/-- Caller `i` calls MustStart or Stop of task `t`; the call has the number `k`, the next free one. -/
def MState.into (s : MState) (i t : Nat) (start must : Bool) (p : Nat → MPC) : Option MState :=
  (Schedule.Instr.iStep (s.task t) (.call start must)).map fun x => { s.goto i (p (s.task t).callers.length) with task := upd s.task t x }

/-- What call `k` of a task returned. -/
def returned (x : Task) (k : Nat) : Option Schedule.Res :=
  match x.callers[k]? with
  | some ⟨_, _, .ret r⟩ => some r
  | _ => none

/-- The next instruction of caller `i`. -/
def mgrStep (name : Nat → String) (s : MState) (i c : Nat) : Option MState :=
  match s.callers i with
  | .idle => none
  | .r53 t => s.take i (.r56 t)
  | .r56 t =>
    match lookup s.map (name t) with
    | some _ => some (s.goto i (.unlock (.register t .dup)))
    | none => some (s.goto i (.r60 t))
  | .r60 t => some { s.goto i (.r61 t) with map := (name t, t) :: s.map }
  | .r61 t => s.into i t true true (.r61w t)
  | .r61w t k => (returned (s.task t) k).map fun r => s.goto i (.unlock (.register t (if r = .ok then .ok else .panic)))
  | .u66 n => s.take i (.u69 n)
  | .u69 n =>
    match lookup s.map n with
    | none => some (s.goto i (.unlock (.unregister n)))
    | some t => some (s.goto i (.u73 n t))
  | .u73 n t => s.into i t false false (.u73w n t)
  | .u73w n t k => (returned (s.task t) k).map fun _ => s.goto i (.u74 n)
  | .u74 n => some { s.goto i (.unlock (.unregister n)) with map := s.map.filter (fun p => p.1 ≠ n) }
  | .a78 => s.take i (.a81 [])
  | .a81 seen =>
    match s.map[c]? with
    | some e => if e ∈ seen then none else some (s.goto i (.a82 seen e))
    | none => if ∀ e ∈ s.map, e ∈ seen then some (s.goto i .a85) else none
  | .a82 seen e => s.into i e.2 false false (.a82w seen e)
  | .a82w seen e k => (returned (s.task e.2) k).map fun _ => s.goto i (.a81 (e :: seen))
  | .a85 => some { s.goto i (.unlock .unregisterAll) with map := [] }
  | .unlock e => some { s.goto i .idle with lock := none, log := s.log ++ [e] }

def mStep (name : Nat → String) (s : MState) : MAct → Option MState
  | .task t a => (Schedule.Instr.iStep (s.task t) a).map fun x => { s with task := upd s.task t x }
  | .register i t => if s.callers i = .idle then some (s.goto i (.r53 t)) else none
  | .unregister i n => if s.callers i = .idle then some (s.goto i (.u66 n)) else none
  | .unregisterAll i => if s.callers i = .idle then some (s.goto i .a78) else none
  | .mgr i c => mgrStep name s i c

/-- NewTaskManager (44-49); the tasks are given. -/
def mNew (task : Nat → Task) : MState := ⟨task, [], none, fun _ => .idle, []⟩

/-- Tasks as the constructors make them. -/
def Fresh (task : Nat → Task) : Prop := ∀ t, ∃ k i o, iNew k i o = some (task t)

def MReach (name : Nat → String) (s : MState) : Prop := ∃ task, Fresh task ∧ Reachable (mStep name) (mNew task) s

/-! ### Races -/

/-- How the next instruction of a caller accesses `taskMap`; true: it changes it. -/
def MPC.access : MPC → Option Bool
  | .r60 _ | .u74 _ | .a85 => some true
  | .r56 _ | .u69 _ | .a81 _ => some false
  | _ => none

/-- Two goroutines are about to access `taskMap`, and one of them changes it. -/
def Race (s : MState) : Prop :=
  ∃ i j w w', i ≠ j ∧ (s.callers i).access = some w ∧ (s.callers j).access = some w' ∧ (w = true ∨ w' = true)

/-! ### Model.lean -/

/-- Between Lock and Unlock. -/
def MPC.crit : MPC → Bool
  | .idle | .r53 _ | .u66 _ | .a78 => false
  | _ => true

/-- The status of a task in Schedule/Model.lean: `stopped` from `close(stopSig)` on. -/
def absStatus (x : Task) : Status := if x.holder = some .p91 then .started else x.st.status

/-- What Register will return when MustStart is decided. -/
def verdict : Option Schedule.Ev → Option Res
  | some (.startRes _ .ok) => some .ok
  | some _ => some .panic
  | none => none

/-- The same when MustStart is call `k` of the task. -/
def decided (x : Task) (k : Nat) : Option Res := verdict ((x.callers[k]?).bind Schedule.Instr.Call.result)

/-- The map and the log of Model.lean, when the caller that has the lock is at `p`: Register takes effect when it is decided whether
MustStart succeeds. -/
def absAt (task : Nat → Task) (map : List (String × Nat)) (log : List Ev) : MPC → List (String × Nat) × List Ev
  | .r61 _ => (map.tail, log)
  | .r61w t k =>
    match decided (task t) k with
    | some r => (map, log ++ [.register t r])
    | none => (map.tail, log)
  | .unlock e => (map, log ++ [e])
  | _ => (map, log)

/-- Where the caller is that has the lock. -/
def MState.holder (s : MState) : MPC :=
  match s.lock with
  | some i => s.callers i
  | none => .idle

def MState.abs (s : MState) : State :=
  ⟨fun t => absStatus (s.task t), (absAt s.task s.map s.log s.holder).1, (absAt s.task s.map s.log s.holder).2⟩

/-- The call of a task that the caller waits for: the task, the number of the call, is it MustStart (otherwise Stop). -/
def MPC.waits : MPC → Option (Nat × Nat × Bool)
  | .r61w t k => some (t, k, true)
  | .u73w _ t k => some (t, k, false)
  | .a82w _ e k => some (e.2, k, false)
  | _ => none

/-- The task that Register puts into the map. -/
def MPC.adds : MPC → Option Nat
  | .r61 t | .r61w t _ => some t
  | _ => none

/-- Tasks that were stopped by the caller. -/
def MPC.stops (map : List (String × Nat)) : MPC → List Nat
  | .u74 n => (lookup map n).toList
  | .a81 seen | .a82 seen _ | .a82w seen _ _ => seen.map Prod.snd
  | .a85 => map.map Prod.snd
  | _ => []

/-- The tasks that the caller found in the map. -/
def MPC.finds : MPC → Option (String × Nat)
  | .u73 n t | .u73w n t _ => some (n, t)
  | .a82 _ e | .a82w _ e _ => some e
  | _ => none

structure MInv (name : Nat → String) (s : MState) : Prop where
  lock  : ∀ i, (s.callers i).crit = true ↔ s.lock = some i
  task  : ∀ t, ∃ k i o, Schedule.Instr.IReach k i o (s.task t)
  fresh : ∀ t, s.holder = .r60 t → lookup s.map (name t) = none
  adds  : ∀ t, s.holder.adds = some t → ∃ m, s.map = (name t, t) :: m ∧ lookup m (name t) = none
  waits : ∀ t k b, s.holder.waits = some (t, k, b) → ∃ c, (s.task t).callers[k]? = some c ∧ c.isStart = b ∧ c.must = b ∧
            c.fits = true ∧ (b = false → c.result ≠ none → absStatus (s.task t) = .stopped)
  finds : ∀ e, s.holder.finds = some e → e ∈ s.map ∧ lookup s.map e.1 = some e.2
  stops : ∀ t ∈ s.holder.stops s.map, absStatus (s.task t) = .stopped

end Gears.TaskManager.Instr
