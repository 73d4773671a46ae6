import Verif.TaskManager.Model

/-
Properties C48, C49 of the task manager.
-/

namespace Gears.TaskManager

open Gears.Schedule (Status)

/-- Name `n` is registered, by task `t`. -/
def Registered (s : State) (n : String) (t : Nat) : Prop := (n, t) ∈ s.map

structure Inv (name : Nat → String) (s : State) : Prop where
  keys : (s.map.map Prod.fst).Nodup
  name : ∀ n t, (n, t) ∈ s.map → n = name t
  st   : ∀ n t, (n, t) ∈ s.map → s.status t ≠ .new

theorem lookup_mem {m : List (String × Nat)} {n : String} {t : Nat} (h : lookup m n = some t) : (n, t) ∈ m := by
  induction m with
  | nil => simp [lookup] at h
  | cons p m ih =>
    obtain ⟨k, u⟩ := p
    simp only [lookup] at h
    split at h
    · simp_all
    · exact List.mem_cons_of_mem _ (ih h)

theorem lookup_none {m : List (String × Nat)} {n : String} : lookup m n = none ↔ ∀ t, (n, t) ∉ m := by
  induction m with
  | nil => simp [lookup]
  | cons p m ih =>
    obtain ⟨k, u⟩ := p
    simp only [lookup]
    split
    · subst_vars
      exact ⟨fun h => by simp at h, fun h => absurd (List.mem_cons_self) (h u)⟩
    · rename_i hk
      rw [ih]; simp [Ne.symm hk]

theorem lookup_some {m : List (String × Nat)} {n : String} {t : Nat} (hk : (m.map Prod.fst).Nodup) :
    lookup m n = some t ↔ (n, t) ∈ m := by
  refine ⟨lookup_mem, fun h => ?_⟩
  induction m with
  | nil => simp at h
  | cons p m ih =>
    obtain ⟨k, u⟩ := p
    simp only [List.map_cons, List.nodup_cons] at hk
    simp only [lookup]
    rcases List.mem_cons.1 h with h' | h'
    · simp_all
    · split
      · rename_i hkn
        exact absurd (List.mem_map.2 ⟨_, h', hkn.symm⟩) hk.1
      · exact ih hk.2 h'

theorem stopTask_ne (f : Nat → Status) (t u : Nat) (h : f u ≠ .new) : stopTask f t u ≠ .new := by
  unfold stopTask; split <;> simp_all

theorem startTask_ne (f : Nat → Status) (t u : Nat) (h : f u ≠ .new) : startTask f t u ≠ .new := by
  unfold startTask; split <;> simp_all

theorem stopTasks_spec (ts : List Nat) (f : Nat → Status) (u : Nat) :
    stopTasks f ts u = if u ∈ ts ∧ f u = .started then .stopped else f u := by
  induction ts generalizing f with
  | nil => simp [stopTasks]
  | cons t ts ih =>
    rw [stopTasks, ih]
    simp only [stopTask, List.mem_cons]
    by_cases h : u = t <;> by_cases h2 : f u = .started <;> by_cases h3 : u ∈ ts <;> simp_all

theorem inv_step (name : Nat → String) (s : State) (a : Action) (s' : State) (inv : Inv name s)
    (h : step name s a = some s') : Inv name s' := by
  obtain ⟨h1, h2, h3⟩ := inv
  cases a with
  | register t =>
    simp only [step] at h
    split at h
    · simp at h; subst h; exact ⟨h1, h2, h3⟩
    · rename_i hl
      rw [lookup_none] at hl
      split at h <;> (simp at h; subst h; refine ⟨?_, ?_, ?_⟩)
      · simp only [List.map_cons, List.nodup_cons]
        refine ⟨fun hm => ?_, h1⟩
        obtain ⟨⟨a, b⟩, hp, hq⟩ := List.mem_map.1 hm
        simp only at hq; subst hq; exact hl b hp
      · simp; grind
      · simp only [List.mem_cons, Prod.mk.injEq]
        rintro n u (⟨-, rfl⟩ | hm)
        · simp_all [startTask]
        · exact startTask_ne _ _ _ (h3 n u hm)
      · simp only [List.map_cons, List.nodup_cons]
        refine ⟨fun hm => ?_, h1⟩
        obtain ⟨⟨a, b⟩, hp, hq⟩ := List.mem_map.1 hm
        simp only at hq; subst hq; exact hl b hp
      · simp; grind
      · simp only [List.mem_cons, Prod.mk.injEq]
        rintro n u (⟨-, rfl⟩ | hm)
        · assumption
        · exact h3 n u hm
  | unregister n =>
    simp only [step] at h
    split at h <;> (simp at h; subst h)
    · exact ⟨h1, h2, h3⟩
    · refine ⟨?_, ?_, ?_⟩
      · exact h1.sublist ((List.filter_sublist).map _)
      · intro m u hm; exact h2 m u (List.mem_filter.1 hm).1
      · intro m u hm; exact stopTask_ne _ _ _ (h3 m u (List.mem_filter.1 hm).1)
  | unregisterAll order =>
    simp only [step] at h
    split at h <;> simp at h
    subst h; exact ⟨by simp, by simp, by simp⟩
  | envStart t =>
    simp only [step] at h
    simp at h; subst h; exact ⟨h1, h2, fun n u hm => startTask_ne _ _ _ (h3 n u hm)⟩
  | envStop t =>
    simp only [step] at h
    simp at h; subst h; exact ⟨h1, h2, fun n u hm => stopTask_ne _ _ _ (h3 n u hm)⟩

theorem reach_inv {name : Nat → String} {st : Nat → Status} {s : State} (h : Reachable (step name) (new st) s) :
    Inv name s :=
  h.inv ⟨by simp [new], by simp [new], by simp [new]⟩ (inv_step name)

/-! ## C48 -/

/-- C48: a name is registered at most once, and under the name of its task. -/
theorem C48_unique (name : Nat → String) (st : Nat → Status) (s : State) (h : Reachable (step name) (new st) s)
    (n : String) (t u : Nat) (ht : Registered s n t) (hu : Registered s n u) : t = u ∧ n = name t := by
  have inv := reach_inv h
  have h1 := (lookup_some inv.keys).2 ht
  have h2 := (lookup_some inv.keys).2 hu
  rw [h1] at h2
  exact ⟨by simpa using h2, inv.name n t ht⟩

/-- C48: `Register` of a present name fails and has no effect. -/
theorem C48_dup (name : Nat → String) (st : Nat → Status) (s s' : State) (h : Reachable (step name) (new st) s)
    (t : Nat) (hn : ∃ u, Registered s (name t) u) (hs : step name s (.register t) = some s') :
    s'.log = s.log ++ [.register t .dup] ∧ s'.map = s.map ∧ s'.status = s.status := by
  obtain ⟨u, hu⟩ := hn
  simp only [step, (lookup_some (reach_inv h).keys).2 hu] at hs
  simp at hs; subst hs; exact ⟨rfl, rfl, rfl⟩

/-- C48: `Register` of a new task with an absent name succeeds: the task is started and the name is registered; nothing
else changes. -/
theorem C48_register (name : Nat → String) (s s' : State) (t : Nat) (hn : ∀ u, ¬ Registered s (name t) u)
    (ht : s.status t = .new) (hs : step name s (.register t) = some s') :
    s'.log = s.log ++ [.register t .ok] ∧ s'.status t = .started ∧ (∀ u, u ≠ t → s'.status u = s.status u) ∧
    ∀ n u, Registered s' n u ↔ (n = name t ∧ u = t) ∨ Registered s n u := by
  simp only [step, lookup_none.2 hn, ht, if_true] at hs
  simp at hs; subst hs
  refine ⟨rfl, by simp [startTask, ht], fun u hu => by simp [startTask, hu], fun n u => by simp [Registered]⟩

/-- C48: `Unregister` stops the task with the name and frees the name; nothing else changes. -/
theorem C48_unregister (name : Nat → String) (st : Nat → Status) (s s' : State) (h : Reachable (step name) (new st) s)
    (n : String) (hs : step name s (.unregister n) = some s') :
    (∀ t, Registered s n t → s'.status t = .stopped) ∧ (∀ t, ¬ Registered s n t → s'.status t = s.status t) ∧
    ∀ m u, Registered s' m u ↔ m ≠ n ∧ Registered s m u := by
  have inv := reach_inv h
  simp only [step] at hs
  split at hs <;> (simp at hs; subst hs)
  · rename_i hl
    rw [lookup_none] at hl
    refine ⟨fun t ht => absurd ht (hl t), fun _ _ => rfl, fun m u => ?_⟩
    simp only [Registered]
    exact ⟨fun hm => ⟨fun e => hl u (e ▸ hm), hm⟩, fun hm => hm.2⟩
  · rename_i t hl
    rw [lookup_some inv.keys] at hl
    refine ⟨fun u hu => ?_, fun u hu => ?_, fun m u => by simp [Registered, and_comm]⟩
    · obtain rfl : u = t := (C48_unique name st s h n u t hu hl).1
      have := inv.st n u hl
      cases hst : s.status u <;> simp_all [stopTask]
    · have : u ≠ t := fun e => hu (e ▸ hl)
      simp [stopTask, this]

/-- C48: `UnregisterAll` stops all registered tasks and frees all names; other tasks do not change. -/
theorem C48_unregisterAll (name : Nat → String) (st : Nat → Status) (s s' : State)
    (h : Reachable (step name) (new st) s) (order : List Nat) (hs : step name s (.unregisterAll order) = some s') :
    (∀ n t, Registered s n t → s'.status t = .stopped) ∧ (∀ t, (∀ n, ¬ Registered s n t) → s'.status t = s.status t) ∧
    ∀ n t, ¬ Registered s' n t := by
  have inv := reach_inv h
  simp only [step] at hs
  split at hs <;> simp at hs
  rename_i hp
  have hp := List.isPerm_iff.1 hp
  subst hs
  refine ⟨fun n t ht => ?_, fun t ht => ?_, by simp [Registered]⟩
  · have hm : t ∈ order := hp.mem_iff.2 (List.mem_map.2 ⟨_, ht, rfl⟩)
    have := inv.st n t ht
    show stopTasks s.status order t = _
    rw [stopTasks_spec]
    cases hst : s.status t <;> simp_all
  · have hm : t ∉ order := fun hm => by
      obtain ⟨⟨n, u⟩, hq, rfl⟩ := List.mem_map.1 (hp.mem_iff.1 hm)
      exact ht n hq
    show stopTasks s.status order t = _
    rw [stopTasks_spec]; simp [hm]

/-- C48: `UnregisterAll` is always possible, whatever the order in which the map is visited. -/
theorem C48_unregisterAll_enabled (name : Nat → String) (s : State) (order : List Nat)
    (ho : order.Perm (s.map.map Prod.snd)) : ∃ s', step name s (.unregisterAll order) = some s' :=
  ⟨_, by simp only [step, List.isPerm_iff.2 ho, if_true]; rfl⟩

/-- C48: after `Unregister` or `UnregisterAll` the name can be registered again. -/
theorem C48_again (name : Nat → String) (st : Nat → Status) (s s1 s2 : State) (h : Reachable (step name) (new st) s)
    (t : Nat) (a : Action) (ha : a = .unregister (name t) ∨ ∃ order, a = .unregisterAll order)
    (hs : step name s a = some s1) (ht : s1.status t = .new) (h2 : step name s1 (.register t) = some s2) :
    s2.log = s1.log ++ [.register t .ok] ∧ Registered s2 (name t) t ∧ s2.status t = .started := by
  have hn : ∀ u, ¬ Registered s1 (name t) u := by
    rcases ha with rfl | ⟨order, rfl⟩
    · intro u hu; exact (((C48_unregister name st s s1 h _ hs).2.2 _ u).1 hu).1 rfl
    · exact (C48_unregisterAll name st s s1 h order hs).2.2 _
  obtain ⟨h1, h3, -, h4⟩ := C48_register name s1 s2 t hn ht h2
  exact ⟨h1, (h4 _ _).2 (.inl ⟨rfl, rfl⟩), h3⟩

/-- Task `t` was registered under name `n` and neither the name nor all names were unregistered since. -/
def Hist (name : Nat → String) (l : List Ev) (n : String) (t : Nat) : Prop :=
  name t = n ∧ ∃ pre post r, l = pre ++ Ev.register t r :: post ∧ r ≠ .dup ∧
    Ev.unregister n ∉ post ∧ Ev.unregisterAll ∉ post

theorem hist_snoc (name : Nat → String) (l : List Ev) (e : Ev) (n : String) (t : Nat) :
    Hist name (l ++ [e]) n t ↔
      (name t = n ∧ ∃ r, e = .register t r ∧ r ≠ .dup) ∨ (Hist name l n t ∧ e ≠ .unregister n ∧ e ≠ .unregisterAll) := by
  constructor
  · rintro ⟨hn, pre, post, r, hl, hr, h1, h2⟩
    rcases List.eq_nil_or_concat post with rfl | ⟨post', y, rfl⟩
    · obtain ⟨-, he⟩ := List.append_inj' hl rfl
      simp at he
      exact .inl ⟨hn, r, he, hr⟩
    · have hl' : l ++ [e] = (pre ++ Ev.register t r :: post') ++ [y] := by simpa using hl
      obtain ⟨ha, he⟩ := List.append_inj' hl' rfl
      simp at he; subst he
      simp at h1 h2
      exact .inr ⟨⟨hn, pre, post', r, ha, hr, h1.1, h2.1⟩, Ne.symm h1.2, Ne.symm h2.2⟩
  · rintro (⟨hn, r, rfl, hr⟩ | ⟨⟨hn, pre, post, r, rfl, hr, h1, h2⟩, h3, h4⟩)
    · exact ⟨hn, l, [], r, by simp, hr, by simp, by simp⟩
    · exact ⟨hn, pre, post ++ [e], r, by simp, hr, by simp [h1, Ne.symm h3], by simp [h2, Ne.symm h4]⟩

/-- C48, over histories: a name is registered iff there is a `Register` of a task with this name that was not rejected
as duplicate, and no later `Unregister` of the name or `UnregisterAll`. -/
theorem C48_history (name : Nat → String) (st : Nat → Status) (s : State) (h : Reachable (step name) (new st) s)
    (n : String) (t : Nat) :
    Registered s n t ↔ name t = n ∧ ∃ pre post r, s.log = pre ++ Ev.register t r :: post ∧ r ≠ .dup ∧
      Ev.unregister n ∉ post ∧ Ev.unregisterAll ∉ post := by
  show _ ↔ Hist name s.log n t
  have : Inv name s ∧ ∀ n t, Registered s n t ↔ Hist name s.log n t := by
    refine h.inv (I := fun s => Inv name s ∧ ∀ n t, Registered s n t ↔ Hist name s.log n t)
      ⟨⟨by simp [new], by simp [new], by simp [new]⟩, ?_⟩ ?_
    · intro n t; simp [Registered, Hist, new]
    · rintro s a s' ⟨inv, ih⟩ hs
      refine ⟨inv_step name s a s' inv hs, fun n t => ?_⟩
      have ih := ih n t
      simp only [Registered] at ih ⊢
      cases a with
      | register u =>
        simp only [step] at hs
        split at hs
        · simp at hs; subst hs; simp only [hist_snoc]; grind
        · split at hs <;> (simp at hs; subst hs; simp only [hist_snoc, Ev.register.injEq, List.mem_cons, Prod.mk.injEq]; grind)
      | unregister m =>
        simp only [step] at hs
        split at hs
        · rename_i hl
          rw [lookup_none] at hl
          simp at hs; subst hs; simp only [hist_snoc]; grind
        · simp at hs; subst hs; simp only [hist_snoc]; grind
      | unregisterAll order =>
        simp only [step] at hs
        split at hs <;> simp at hs
        subst hs; simp only [hist_snoc]; grind
      | envStart u => simp [step] at hs; subst hs; exact ih
      | envStop u => simp [step] at hs; subst hs; exact ih
  exact this.2 n t

/-- Non-vacuity: register "a" (task 0), duplicate "a" (task 2), "b" (task 1), unregister "a", register "a" again with
task 2, unregister all. -/
example : let name := fun t => if t = 1 then "b" else "a"
    let s0 := new (fun _ => .new)
    (exec (step name) s0 [.register 0, .register 2, .register 1, .unregister "a", .register 2, .unregisterAll [1, 2]]).map
      (fun s => (s.log, s.map, s.status 0, s.status 1, s.status 2, s.status 3)) =
    some ([.register 0 .ok, .register 2 .dup, .register 1 .ok, .unregister "a", .register 2 .ok, .unregisterAll], [],
      .stopped, .stopped, .stopped, .new) := rfl

/-! ## C49 -/

/-- C49 is violated: `Register` of a task that is already started panics, and its name stays registered. -/
theorem C49_violated : ∃ s s' : State, Reachable (step (fun _ => "a")) (new (fun _ => .new)) s ∧
    step (fun _ => "a") s (.register 0) = some s' ∧ s'.log = s.log ++ [.register 0 .panic] ∧
    (∀ t, ¬ Registered s "a" t) ∧ Registered s' "a" 0 :=
  ⟨_, _, ⟨[.envStart 0], rfl⟩, rfl, rfl, by simp [Registered, new], by simp [Registered]⟩

/-- C49, what does hold: `Register` that fails with an error leaves the manager and the tasks unchanged; one that panics
leaves the tasks unchanged and adds only the name of the task.  Missing for C49: that it does not add the name. -/
theorem C49_partial (name : Nat → String) (s s' : State) (t : Nat) (r : Res)
    (hs : step name s (.register t) = some s') (hl : s'.log = s.log ++ [.register t r]) :
    (r = .dup → s'.map = s.map ∧ s'.status = s.status) ∧
    (r = .panic → s.status t ≠ .new ∧ s'.status = s.status ∧
      ∀ n u, Registered s' n u ↔ (n = name t ∧ u = t) ∨ Registered s n u) := by
  simp only [step] at hs
  split at hs
  · simp at hs; subst hs; simp at hl; subst hl; simp
  · split at hs <;> (simp at hs; subst hs; simp at hl; subst hl; simp_all [Registered])

/-- C49, consequence: after the panic a new task with that name is rejected. -/
theorem C49_blocks_name : ∃ s : State, Reachable (step (fun _ => "a")) (new (fun _ => .new)) s ∧
    s.status 1 = .new ∧ s.log = [.register 0 .panic, .register 1 .dup] :=
  ⟨_, ⟨[.envStart 0, .envStop 0, .register 0, .register 1], rfl⟩, by decide, by decide⟩

end Gears.TaskManager
