import Verif.TaskManager.Props
import Verif.Schedule.Props

/-
C131: the manager (/repo/schedule/task_manager.go 39-86) together with the tasks of the package (`Schedule.Model`).

In Model.lean a task is its status and a call of the manager is one step.  Here the tasks are those of `Schedule`, with all their goroutines, and a call of the manager
keeps the manager's lock while it waits for the locks of tasks, and while `Start` of a FixedDelayTask waits for its consumer.

* What a call does to the map, which only the owner of the lock sees, is one step with the neighbouring call of a task.
* Any goroutine, also that of a job, may call `Start` or `Stop` of a task directly and may begin a call of the manager at any time (`begin` is the moment it gets the lock).
-/

namespace Gears.TaskManager

open Gears.Schedule (Status Kind)

/-- The call that has the lock of the manager. -/
inductive Call where
  /-- before the check of 56 -/
  | register (t : Nat)
  /-- in `MustStart` (61), the task has the status `started` -/
  | starting (t : Nat)
  | unregister (n : String)
  /-- in the loop of 81-83; `todo` is what the loop has still to visit -/
  | stopAll (todo : List Nat)
deriving Repr, DecidableEq

structure Sys where
  task : Nat → Schedule.State
  map  : List (String × Nat)
  call : Option Call
  log  : List Ev

/-- 44-49 -/
def Sys.new (task : Nat → Schedule.State) : Sys := ⟨task, [], none, []⟩

inductive SAct where
  /-- a step of task `t` or of a goroutine that calls it directly -/
  | task (t : Nat) (a : Schedule.Action)
  | register (t : Nat)
  | unregister (n : String)
  | unregisterAll (order : List Nat)
  /-- the owner of the manager's lock goes on -/
  | go
deriving Repr, DecidableEq

def Sys.put (s : Sys) (t : Nat) (x : Schedule.State) : Sys := { s with task := fun u => if u = t then x else s.task u }

def sStep (name : Nat → String) (s : Sys) : SAct → Option Sys
  | .task t a => (Schedule.step (s.task t) a).map fun x => s.put t x
  | .register t => if s.call = none then some { s with call := some (.register t) } else none
  | .unregister n => if s.call = none then some { s with call := some (.unregister n) } else none
  | .unregisterAll order =>
    if s.call = none ∧ order.isPerm (s.map.map Prod.snd) = true then some { s with call := some (.stopAll order) } else none
  | .go =>
    match s.call with
    | none => none
    -- 56-62
    | some (.register t) =>
      match lookup s.map (name t) with
      | some _ => some { s with call := none, log := s.log ++ [.register t .dup] }
      | none =>
        match Schedule.step (s.task t) (.start true) with
        | none => none
        | some x =>
          if (s.task t).status = .new then
            some { s.put t x with map := (name t, t) :: s.map, call := some (.starting t), log := s.log ++ [.register t .ok] }
          else some { s.put t x with map := (name t, t) :: s.map, call := none, log := s.log ++ [.register t .panic] }
    -- 61: `MustStart` returns
    | some (.starting t) => if (s.task t).starting then none else some { s with call := none }
    -- 69-74
    | some (.unregister n) =>
      match lookup s.map n with
      | none => some { s with call := none, log := s.log ++ [.unregister n] }
      | some t =>
        match Schedule.step (s.task t) (.stop false) with
        | none => none
        | some x => some { s.put t x with map := s.map.filter (fun p => p.1 ≠ n), call := none, log := s.log ++ [.unregister n] }
    -- 81-83
    | some (.stopAll (t :: todo)) =>
      match Schedule.step (s.task t) (.stop false) with
      | none => none
      | some x => some { s.put t x with call := some (.stopAll todo) }
    -- 85
    | some (.stopAll []) => some { s with map := [], call := none, log := s.log ++ [.unregisterAll] }

/-- Tasks as the constructors make them. -/
def New (task : Nat → Schedule.State) : Prop := ∀ t, ∃ k i o, Schedule.new k i o = some (task t)

/-! ## Each task is on its own -/

theorem proj_step (name : Nat → String) (s : Sys) (a : SAct) (s' : Sys) (h : sStep name s a = some s') (t : Nat) :
    s'.task t = s.task t ∨ ∃ b, Schedule.step (s.task t) b = some (s'.task t) := by
  cases a <;> simp only [sStep] at h
  case task u b =>
    obtain ⟨x, hx, rfl⟩ := Option.map_eq_some_iff.1 h
    by_cases hu : t = u
    · subst hu; exact .inr ⟨b, by simp [Sys.put, hx]⟩
    · exact .inl (by simp [Sys.put, hu])
  case go =>
    split at h
    · cases h
    · rename_i u _
      split at h
      · cases h; exact .inl rfl
      · split at h
        · cases h
        · rename_i x hx
          by_cases hu : t = u
          · subst hu; right; refine ⟨.start true, ?_⟩; split at h <;> (cases h; simp [Sys.put, hx])
          · left; split at h <;> (cases h; simp [Sys.put, hu])
    · split at h <;> cases h; exact .inl rfl
    · split at h
      · cases h; exact .inl rfl
      · rename_i u _
        split at h
        · cases h
        · rename_i x hx
          cases h
          by_cases hu : t = u
          · subst hu; exact .inr ⟨.stop false, by simp [Sys.put, hx]⟩
          · exact .inl (by simp [Sys.put, hu])
    · rename_i u _ _
      split at h
      · cases h
      · rename_i x hx
        cases h
        by_cases hu : t = u
        · subst hu; exact .inr ⟨.stop false, by simp [Sys.put, hx]⟩
        · exact .inl (by simp [Sys.put, hu])
    · cases h; exact .inl rfl
  all_goals (split at h <;> cases h; exact .inl rfl)

theorem proj (name : Nat → String) {s s' : Sys} (h : Reachable (sStep name) s s') (t : Nat) : Reachable Schedule.step (s.task t) (s'.task t) :=
  h.inv (I := fun x => Reachable Schedule.step (s.task t) (x.task t)) (.refl _) fun x a y hx hs => by
    rcases proj_step name x a y hs t with h1 | ⟨b, h1⟩
    · rw [h1]; exact hx
    · exact hx.trans (.step b h1)

theorem proj_reach (name : Nat → String) {task : Nat → Schedule.State} (hn : New task) {s : Sys} (h : Reachable (sStep name) (.new task) s) (t : Nat) :
    ∃ k i o, Schedule.Reach k i o (s.task t) := by
  obtain ⟨k, i, o, h0⟩ := hn t
  exact ⟨k, i, o, _, h0, proj name h t⟩

/-! ## The abstract manager -/

def Sys.abs (s : Sys) : State := ⟨fun t => (s.task t).status, s.map, s.log⟩

/-- How a step of a task changes its status. -/
theorem status_step (s s' : Schedule.State) (a : Schedule.Action) (h : Schedule.step s a = some s') :
    s'.status = s.status ∨ ((∃ m, a = .start m) ∧ s.status = .new ∧ s'.status = .started) ∨ ((∃ m, a = .stop m) ∧ s.status = .started ∧ s'.status = .stopped) := by
  cases a <;> simp only [Schedule.step, Schedule.State.setJob] at h <;> (repeat' split at h) <;> simp at h <;> subst h <;> simp_all

theorem start_status (s s' : Schedule.State) (m : Bool) (h : Schedule.step s (.start m) = some s') :
    s'.status = if s.status = .new then .started else s.status := by
  simp only [Schedule.step] at h; (repeat' split at h) <;> simp at h <;> subst h <;> simp_all

theorem stop_status (s s' : Schedule.State) (m : Bool) (h : Schedule.step s (.stop m) = some s') :
    s'.status = if s.status = .started then .stopped else s.status := by
  simp only [Schedule.step] at h; (repeat' split at h) <;> simp at h <;> subst h <;> simp_all

structure SInv (name : Nat → String) (st : Nat → Status) (s : Sys) : Prop where
  abs  : Reachable (step name) (TaskManager.new st) s.abs
  all  : ∀ todo, s.call = some (.stopAll todo) → ∃ done, (done ++ todo).Perm (s.map.map Prod.snd) ∧ ∀ t ∈ done, (s.task t).status = .stopped

theorem abs_start (s : Sys) (t : Nat) (x : Schedule.State) (m : Bool) (h : Schedule.step (s.task t) (.start m) = some x) :
    (fun u => ((s.put t x).task u).status) = startTask (fun u => (s.task u).status) t := by
  funext u
  have := start_status _ _ m h
  simp only [startTask, Sys.put]
  by_cases hu : u = t <;> simp_all

theorem abs_stop (s : Sys) (t : Nat) (x : Schedule.State) (m : Bool) (h : Schedule.step (s.task t) (.stop m) = some x) :
    (fun u => ((s.put t x).task u).status) = stopTask (fun u => (s.task u).status) t := by
  funext u
  have := stop_status _ _ m h
  simp only [stopTask, Sys.put]
  by_cases hu : u = t <;> simp_all

/-- Steps of tasks are steps of the environment of the abstract manager, or nothing. -/
theorem abs_task (name : Nat → String) (s : Sys) (t : Nat) (a : Schedule.Action) (x : Schedule.State) (h : Schedule.step (s.task t) a = some x) :
    Reachable (step name) s.abs (s.put t x).abs := by
  rcases status_step _ _ a h with h1 | ⟨⟨m, rfl⟩, -, -⟩ | ⟨⟨m, rfl⟩, -, -⟩
  · have : (fun u => ((s.put t x).task u).status) = fun u => (s.task u).status := by
      funext u
      simp only [Sys.put]
      split
      · subst_vars; exact h1
      · rfl
    simp only [Sys.abs, this]; exact .refl _
  · simp only [Sys.abs, abs_start s t x m h]; exact .step (.envStart t) rfl
  · simp only [Sys.abs, abs_stop s t x m h]; exact .step (.envStop t) rfl

theorem put_stopped (s : Sys) (t : Nat) (x : Schedule.State) (a : Schedule.Action) (h : Schedule.step (s.task t) a = some x) (u : Nat)
    (hu : (s.task u).status = .stopped) : ((s.put t x).task u).status = .stopped := by
  simp only [Sys.put]
  split
  · subst_vars; exact Schedule.stopped_step _ a _ hu h
  · exact hu

theorem sinv_step (name : Nat → String) (st : Nat → Status) (s : Sys) (a : SAct) (s' : Sys) (hi : SInv name st s) (h : sStep name s a = some s') :
    SInv name st s' := by
  obtain ⟨h1, h2⟩ := hi
  have inv := reach_inv h1
  cases a <;> simp only [sStep] at h
  case task u b =>
    obtain ⟨x, hx, rfl⟩ := Option.map_eq_some_iff.1 h
    refine ⟨h1.trans (abs_task name s u b x hx), fun todo hc => ?_⟩
    obtain ⟨done, hd, hs⟩ := h2 todo hc
    exact ⟨done, hd, fun t ht => put_stopped s u x b hx t (hs t ht)⟩
  case register t =>
    split at h <;> cases h
    exact ⟨h1, fun todo hc => by simp at hc⟩
  case unregister t =>
    split at h <;> cases h
    exact ⟨h1, fun todo hc => by simp at hc⟩
  case unregisterAll order =>
    split at h <;> cases h
    rename_i hc
    refine ⟨h1, fun todo ht => ⟨[], ?_, by simp⟩⟩
    simp only [Option.some.injEq, Call.stopAll.injEq] at ht
    subst ht
    simpa using List.isPerm_iff.1 hc.2
  case go =>
    split at h
    · cases h
    · rename_i t hc
      split at h
      · rename_i hl
        cases h
        refine ⟨h1.trans (.step (.register t) ?_), fun todo hc => by simp at hc⟩
        simp only [step, Sys.abs, hl]
      · rename_i hl
        split at h
        · cases h
        · rename_i x hx
          split at h <;> cases h
          · rename_i hs
            refine ⟨h1.trans (.step (.register t) ?_), fun todo hc => by simp at hc⟩
            have := abs_start s t x true hx
            simp only [step, Sys.abs, hl, hs, if_true, this]
          · rename_i hs
            refine ⟨h1.trans (.step (.register t) ?_), fun todo hc => by simp at hc⟩
            have := abs_start s t x true hx
            have h3 : startTask (fun u => (s.task u).status) t = fun u => (s.task u).status := by
              funext u
              simp only [startTask, hs, and_false, if_false]
            simp only [step, Sys.abs, hl, hs, if_false, this, h3]
    · split at h <;> cases h
      exact ⟨h1, fun todo hc => by simp at hc⟩
    · rename_i n hc
      split at h
      · rename_i hl
        cases h
        refine ⟨h1.trans (.step (.unregister n) ?_), fun todo hc => by simp at hc⟩
        simp only [step, Sys.abs, hl]
      · rename_i u hl
        split at h
        · cases h
        · rename_i x hx
          cases h
          refine ⟨h1.trans (.step (.unregister n) ?_), fun todo hc => by simp at hc⟩
          simp only [step, Sys.abs, hl, abs_stop s u x false hx]
    · rename_i t todo hc
      split at h
      · cases h
      · rename_i x hx
        cases h
        refine ⟨h1.trans (abs_task name s t (.stop false) x hx), fun todo' hc' => ?_⟩
        simp only [Option.some.injEq, Call.stopAll.injEq] at hc'
        subst hc'
        obtain ⟨done, hd, hs⟩ := h2 _ hc
        refine ⟨done ++ [t], by simpa [Sys.put] using hd, fun u hu => ?_⟩
        rcases List.mem_append.1 hu with hu | hu
        · exact put_stopped s t x _ hx u (hs u hu)
        · simp at hu; subst hu
          have hm : ∃ n, (n, u) ∈ s.map := by
            have : u ∈ s.map.map Prod.snd := hd.subset (by simp)
            simpa using this
          obtain ⟨n, hm⟩ := hm
          have h3 : (s.task u).status ≠ .new := inv.st n u hm
          have h4 := stop_status _ _ false hx
          simp only [Sys.put, if_true, h4]
          cases h5 : (s.task u).status <;> simp_all
    · rename_i hc
      cases h
      refine ⟨h1.trans ?_, fun todo hc => by simp at hc⟩
      obtain ⟨done, hd, hs⟩ := h2 _ hc
      rw [List.append_nil] at hd
      refine .step (.unregisterAll done) ?_
      have h3 : stopTasks (fun t => (s.task t).status) done = fun t => (s.task t).status := by
        funext u
        rw [stopTasks_spec]
        split
        · rename_i h4; have := hs u h4.1; simp_all
        · rfl
      simp only [step, Sys.abs, List.isPerm_iff.2 hd, if_true, h3]

theorem sreach_inv (name : Nat → String) (task : Nat → Schedule.State) (s : Sys) (h : Reachable (sStep name) (.new task) s) :
    SInv name (fun t => (task t).status) s :=
  h.inv ⟨.refl _, by simp [Sys.new]⟩ (sinv_step name _)

/-! ## C131 -/

/-- C131: the registry of the real manager, and what the calls return, are those of the manager whose calls are one step (so all of C48 and C49 holds for it). -/
theorem C131_refines (name : Nat → String) (task : Nat → Schedule.State) (s : Sys) (h : Reachable (sStep name) (.new task) s) :
    Reachable (step name) (new fun t => (task t).status) ⟨fun t => (s.task t).status, s.map, s.log⟩ :=
  (sreach_inv name task s h).abs

/-- C131: tasks do not influence each other: what happens to one task under the manager can happen to it alone. -/
theorem C131_alone (name : Nat → String) (task : Nat → Schedule.State) (hn : New task) (s : Sys) (h : Reachable (sStep name) (.new task) s) (t : Nat) :
    ∃ k i o, Schedule.Reach k i o (s.task t) ∧ Schedule.new k i o = some (task t) := by
  obtain ⟨k, i, o, h0⟩ := hn t
  exact ⟨k, i, o, ⟨_, h0, proj name h t⟩, h0⟩

/-- What a call has still to do. -/
def Call.weight : Call → Nat
  | .register _ => 2
  | .starting _ => 1
  | .unregister _ => 1
  | .stopAll todo => todo.length + 1

theorem free_start (x : Schedule.State) (h : x.starting = false) (m : Bool) : ∃ y, Schedule.step x (.start m) = some y := by
  simp only [Schedule.step, h]
  cases x.status <;> cases x.kind <;> simp

theorem free_stop (x : Schedule.State) (h : x.starting = false) (m : Bool) : ∃ y, Schedule.step x (.stop m) = some y := by
  simp only [Schedule.step, h]
  cases x.status <;> cases x.stopSig <;> simp

/-- The task whose lock the next step of a call needs. -/
def waitsFor (name : Nat → String) (s : Sys) : Option Nat :=
  match s.call with
  | some (.register t) => if lookup s.map (name t) = none then some t else none
  | some (.starting t) => some t
  | some (.unregister n) => lookup s.map n
  | some (.stopAll (t :: _)) => some t
  | _ => none

theorem go_free (name : Nat → String) (s : Sys) (hc : s.call ≠ none) (h : ∀ t, waitsFor name s = some t → (s.task t).starting = false) :
    ∃ s', sStep name s .go = some s' := by
  unfold waitsFor at h
  simp only [sStep]
  split
  · contradiction
  · rename_i t hc
    simp only [hc] at h
    split
    · exact ⟨_, rfl⟩
    · rename_i hl
      obtain ⟨y, hy⟩ := free_start _ (h t (by simp [hl])) true
      simp only [hy]
      split <;> exact ⟨_, rfl⟩
  · rename_i t hc
    simp only [hc] at h
    rw [if_neg (by simp [h t rfl])]
    exact ⟨_, rfl⟩
  · rename_i n hc
    simp only [hc] at h
    split
    · exact ⟨_, rfl⟩
    · rename_i t hl
      obtain ⟨y, hy⟩ := free_stop _ (h t hl) false
      simp only [hy]
      exact ⟨_, rfl⟩
  · rename_i t todo hc
    simp only [hc] at h
    obtain ⟨y, hy⟩ := free_stop _ (h t rfl) false
    simp only [hy]
    exact ⟨_, rfl⟩
  · exact ⟨_, rfl⟩

/-- C131: no call waits for a job: the call that has the manager's lock can go on at once, or after a task's consumer took over its first job, which it can do at once. -/
theorem C131_progress (name : Nat → String) (task : Nat → Schedule.State) (hn : New task) (s : Sys) (h : Reachable (sStep name) (.new task) s)
    (hc : s.call ≠ none) :
    (∃ s', sStep name s .go = some s') ∨
    (∃ t s1 s2, sStep name s (.task t .handStart) = some s1 ∧ sStep name s1 .go = some s2) := by
  by_cases hw : ∃ t, waitsFor name s = some t ∧ (s.task t).starting = true
  · obtain ⟨t, ht, hs⟩ := hw
    obtain ⟨k, i, o, hr⟩ := proj_reach name hn h t
    obtain ⟨x, hx, hf⟩ := Schedule.C41_start_returns k i o _ hr hs
    have h1 : sStep name s (.task t .handStart) = some (s.put t x) := by simp [sStep, hx]
    obtain ⟨s2, h2⟩ := go_free name (s.put t x) hc (by
      intro u hu
      have : u = t := by
        have hu : waitsFor name s = some u := hu
        rw [ht] at hu; exact (Option.some.inj hu).symm
      subst this
      simpa [Sys.put] using hf)
    exact .inr ⟨t, _, s2, h1, h2⟩
  · exact .inl (go_free name s hc fun t ht => by
      cases hs : (s.task t).starting
      · rfl
      · exact absurd ⟨t, ht, hs⟩ hw)

/-- C131: only its own steps change a call, and there are not many. -/
theorem C131_steps (name : Nat → String) (s s' : Sys) (a : SAct) (c : Call) (hc : s.call = some c) (h : sStep name s a = some s') :
    (a = .go ∧ ∀ c', s'.call = some c' → c'.weight < c.weight) ∨ (∃ t b, a = .task t b ∧ s'.call = some c ∧ s'.map = s.map ∧ s'.log = s.log) := by
  cases a <;> simp only [sStep, hc] at h
  case task t b =>
    obtain ⟨x, hx, rfl⟩ := Option.map_eq_some_iff.1 h
    exact .inr ⟨t, b, rfl, hc, rfl, rfl⟩
  case go =>
    refine .inl ⟨rfl, fun c' hc' => ?_⟩
    rcases c with t | t | n | _ | ⟨t, todo⟩ <;> simp only at h <;> (repeat' split at h) <;> cases h <;> simp only [Option.some.injEq, reduceCtorEq] at hc' <;>
      subst hc' <;> simp [Call.weight]
  all_goals simp at h

/-- C131: every call returns: by its own steps and hand-offs of first jobs alone, whatever the jobs do or not do. -/
theorem C131_returns (name : Nat → String) (task : Nat → Schedule.State) (hn : New task) (s : Sys) (h : Reachable (sStep name) (.new task) s) :
    ∃ as s', exec (sStep name) s as = some s' ∧ s'.call = none ∧ ∀ a ∈ as, a = .go ∨ ∃ t, a = .task t .handStart := by
  have key : ∀ (n : Nat) (s : Sys), Reachable (sStep name) (.new task) s → (∀ c, s.call = some c → c.weight < n) →
      ∃ as s', exec (sStep name) s as = some s' ∧ s'.call = none ∧ ∀ a ∈ as, a = .go ∨ ∃ t, a = .task t .handStart := by
    intro n
    induction n with
    | zero =>
      intro s _ hw
      exact ⟨[], s, rfl, by cases hc : s.call with
        | none => rfl
        | some c => exact absurd (hw c hc) (by omega), by simp⟩
    | succ n ih =>
      intro s hr hw
      cases hc : s.call with
      | none => exact ⟨[], s, rfl, hc, by simp⟩
      | some c =>
        rcases C131_progress name task hn s hr (by simp [hc]) with ⟨s1, h1⟩ | ⟨t, s0, s1, h0, h1⟩
        · have hd : ∀ c', s1.call = some c' → c'.weight < n := by
            rcases C131_steps name s s1 .go c hc h1 with ⟨-, hd⟩ | ⟨_, _, hh, _⟩
            · intro c' hc'; have := hd c' hc'; have := hw c hc; omega
            · cases hh
          obtain ⟨as, s', ha, hn', hs⟩ := ih s1 (hr.trans (.step _ h1)) hd
          exact ⟨.go :: as, s', by simp [exec, h1, ha], hn', fun a ha => by
            rcases List.mem_cons.1 ha with rfl | ha
            · exact .inl rfl
            · exact hs a ha⟩
        · have hc0 : s0.call = some c := by
            rcases C131_steps name s s0 _ c hc h0 with ⟨hh, -⟩ | ⟨_, _, _, hh, _⟩
            · cases hh
            · exact hh
          have hd : ∀ c', s1.call = some c' → c'.weight < n := by
            rcases C131_steps name s0 s1 .go c hc0 h1 with ⟨-, hd⟩ | ⟨_, _, hh, _⟩
            · intro c' hc'; have := hd c' hc'; have := hw c hc; omega
            · cases hh
          obtain ⟨as, s', ha, hn', hs⟩ := ih s1 ((hr.trans (.step _ h0)).trans (.step _ h1)) hd
          exact ⟨.task t .handStart :: .go :: as, s', by simp [exec, h0, h1, ha], hn', fun a ha => by
            rcases List.mem_cons.1 ha with rfl | ha
            · exact .inr ⟨t, rfl⟩
            · rcases List.mem_cons.1 ha with rfl | ha
              · exact .inl rfl
              · exact hs a ha⟩
  exact key (match s.call with | some c => c.weight + 1 | none => 0) s h (by intro c hc; simp [hc])

/-- A task is stopped for good: from now on it starts no job but those its consumer has accepted already, of which a FixedDelayTask has at most one, and none while a
job of it runs. -/
def Ends (name : Nat → String) (s : Sys) (t : Nat) : Prop := ∀ s', Reachable (sStep name) s s' →
  (s'.task t).status = .stopped ∧
  (∀ n at_, Schedule.Ev.jobStart n at_ ∈ (s'.task t).log → Schedule.Ev.jobStart n at_ ∈ (s.task t).log ∨ Schedule.Pending (s.task t) n) ∧
  ((s.task t).kind = .delay → (Schedule.startNos (s'.task t).log).length ≤ (Schedule.startNos (s.task t).log).length + 1 ∧
    ((∃ x ∈ (s.task t).jobs, x.fn = .running) → Schedule.startNos (s'.task t).log = Schedule.startNos (s.task t).log))

theorem ends_of (name : Nat → String) (task : Nat → Schedule.State) (hn : New task) (s : Sys) (h : Reachable (sStep name) (.new task) s) (t : Nat)
    (hs : (s.task t).status = .stopped) : Ends name s t := by
  intro s' hr
  have hp := proj name hr t
  obtain ⟨k, i, o, hk⟩ := proj_reach name hn h t
  refine ⟨hp.inv (I := fun x => x.status = .stopped) hs fun x a y => Schedule.stopped_step x a y, Schedule.C44_pending_partial _ _ hs hp, fun hd => ?_⟩
  have hkd : k = .delay := by rw [← hd]; exact (Schedule.reach_const hk).1.symm
  subst hkd
  exact Schedule.C44_delay_partial i o _ _ hk hs hp

/-- C131: when `Unregister` returns, the task that had the name has ended. -/
theorem C131_unregister (name : Nat → String) (task : Nat → Schedule.State) (hn : New task) (s s' : Sys) (h : Reachable (sStep name) (.new task) s)
    (n : String) (hc : s.call = some (.unregister n)) (hg : sStep name s .go = some s') (t : Nat) (ht : (n, t) ∈ s.map) :
    s'.call = none ∧ (∀ u, (n, u) ∉ s'.map) ∧ Ends name s' t := by
  have hi := sreach_inv name task s h
  have inv := reach_inv hi.abs
  have hl : lookup s.map n = some t := (lookup_some inv.keys).2 ht
  have hne : (s.task t).status ≠ .new := inv.st n t ht
  have h' := h.trans (.step .go hg)
  simp only [sStep, hc, hl] at hg
  split at hg
  · cases hg
  · rename_i x hx
    cases hg
    refine ⟨rfl, by simp, ends_of name task hn _ h' t ?_⟩
    have h4 := stop_status _ _ false hx
    simp only [Sys.put, if_true, h4]
    cases h5 : (s.task t).status <;> simp_all

/-- C131: when `UnregisterAll` returns, all tasks that were registered have ended. -/
theorem C131_unregisterAll (name : Nat → String) (task : Nat → Schedule.State) (hn : New task) (s s' : Sys) (h : Reachable (sStep name) (.new task) s)
    (hc : s.call = some (.stopAll [])) (hg : sStep name s .go = some s') :
    s'.call = none ∧ s'.map = [] ∧ ∀ n t, (n, t) ∈ s.map → Ends name s' t := by
  obtain ⟨done, hd, hs⟩ := (sreach_inv name task s h).all _ hc
  have h' := h.trans (.step .go hg)
  simp only [sStep, hc, Option.some.injEq] at hg
  subst hg
  refine ⟨rfl, rfl, fun n t ht => ends_of name task hn _ h' t (hs t ?_)⟩
  have : t ∈ s.map.map Prod.snd := List.mem_map.2 ⟨_, ht, rfl⟩
  rw [List.append_nil] at hd
  exact hd.symm.subset this

/-- New tasks of both kinds. -/
def both (t : Nat) : Schedule.State := ⟨if t % 2 = 0 then .delay else .rate, 5, 7, 0, .new, false, false, 0, .none, .none, [], false, [], []⟩

theorem both_new : New both := by
  intro t
  refine ⟨if t % 2 = 0 then .delay else .rate, 5, 7, ?_⟩
  simp only [Schedule.new, both]
  rfl

/-- A task is registered, runs a job, is unregistered and replaced by another one with the same name while its job still runs; then all are unregistered. -/
example : ∃ s, exec (sStep fun _ => "a") (.new both) [.register 0, .go, .task 0 .handStart, .go, .task 0 .consCheck, .task 0 .consNext, .task 0 (.runBegin 0),
    .task 0 (.jobStart 0), .register 2, .go, .unregister "a", .go, .register 2, .go, .task 2 .handStart, .go] = some s ∧
    s.log = [.register 0 .ok, .register 2 .dup, .unregister "a", .register 2 .ok] ∧ s.map = [("a", 2)] ∧
    (s.task 0).status = .stopped ∧ (s.task 2).status = .started ∧ ((s.task 0).jobs.map fun x => x.fn) = [.running] :=
  ⟨_, rfl, rfl, rfl, rfl, rfl, rfl⟩

/-- The hypotheses of C131_unregister and C131_unregisterAll. -/
example : ∃ s s', Reachable (sStep fun t => toString (t % 2)) (.new both) s ∧ s.call = some (.stopAll []) ∧ sStep (fun t => toString (t % 2)) s .go = some s' ∧
    s.map = [("1", 1), ("0", 0)] :=
  ⟨_, _, ⟨[.register 0, .go, .task 0 .handStart, .go, .register 1, .go, .go, .unregisterAll [0, 1], .go, .go], rfl⟩, rfl, rfl, by decide⟩

example : ∃ s s', Reachable (sStep fun _ => "a") (.new both) s ∧ s.call = some (.unregister "a") ∧ sStep (fun _ => "a") s .go = some s' ∧ ("a", 1) ∈ s.map :=
  ⟨_, _, ⟨[.register 1, .go, .go, .unregister "a"], rfl⟩, rfl, rfl, by simp⟩

/-- A call that has to wait for the hand-off of a first job (C131_progress). -/
example : ∃ s, Reachable (sStep fun _ => "a") (.new both) s ∧ s.call = some (.starting 0) ∧ sStep (fun _ => "a") s .go = none :=
  ⟨_, ⟨[.register 0, .go], rfl⟩, rfl, rfl⟩

end Gears.TaskManager
