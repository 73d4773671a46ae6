import Verif.Schedule.Delay

/-
The log of a task: order and numbers of the jobs, ticks; what can happen after `Stop`; termination.
-/

namespace Gears.Schedule

/-- The starts (`true`) and ends (`false`) of jobs in a log, with the number of the job. -/
def jobEvs : List Ev → List (Bool × Nat) :=
  List.filterMap fun
    | .jobStart n _ => some (true, n)
    | .jobEnd n _ => some (false, n)
    | _ => none

/-- start 1, end 1, start 2, end 2, …, start `k`, end `k` -/
def rounds : Nat → List (Bool × Nat)
  | 0 => []
  | k + 1 => rounds k ++ [(true, k + 1), (false, k + 1)]

theorem jobEvs_append (l l' : List Ev) : jobEvs (l ++ l') = jobEvs l ++ jobEvs l' := by simp [jobEvs]

theorem jobEvs_one (e : Ev) : jobEvs [e] = match e with
    | .jobStart n _ => [(true, n)]
    | .jobEnd n _ => [(false, n)]
    | _ => [] := by cases e <;> rfl

theorem jobEvs_nil : jobEvs [] = [] := rfl

structure AltInv (s : State) : Prop where
  ns  : ∀ (j : Nat) x, s.cons = .run j → s.jobs[j]? = some x → x.fn = .notStarted → jobEvs s.log = rounds j
  rn  : ∀ (j : Nat) x, s.cons = .run j → s.jobs[j]? = some x → x.fn = .running →
    jobEvs s.log = rounds j ++ [(true, j + 1)]
  rt  : ∀ (j : Nat) x, s.cons = .run j → s.jobs[j]? = some x → x.fn = .returned → jobEvs s.log = rounds (j + 1)
  no  : (∀ j, s.cons ≠ .run j) → jobEvs s.log = rounds s.jobs.length

theorem jobEvs_cancelEv (x : Job) : jobEvs (cancelEv x) = [] := by unfold cancelEv; split <;> rfl

set_option maxHeartbeats 4000000 in
theorem alt_step (s : State) (a : Action) (s' : State) (hk : s.kind = .delay) (lf : Life s) (ji : JobInv s) (sq : Seq s)
    (inv : AltInv s) (h : step s a = some s') : AltInv s' := by
  obtain ⟨-, -, -, -, l5, l6, l7, l8, -, -⟩ := lf
  obtain ⟨j1, j2, j3, j4, j5, -, j7, -, -, -, -, -, -⟩ := ji
  obtain ⟨q1, q2, q3⟩ := sq
  obtain ⟨h1, h2, h3, h4⟩ := inv
  cases a <;> simp only [step, State.setJob] at h <;> (repeat' split at h) <;> simp at h <;> subst h <;>
    (refine ⟨?_, ?_, ?_, ?_⟩ <;> simp only [jobEvs_append, jobEvs_one, jobEvs_nil, jobEvs_cancelEv, List.append_nil] <;>
      grind [Job.finish, rounds])

/-- The numbers of the jobs started, in order. -/
def startNos : List Ev → List Nat :=
  List.filterMap fun
    | .jobStart n _ => some n
    | _ => none

theorem startNos_append (l l' : List Ev) : startNos (l ++ l') = startNos l ++ startNos l' := by simp [startNos]

theorem startNos_one (e : Ev) : startNos [e] = match e with
    | .jobStart n _ => [n]
    | _ => [] := by cases e <;> rfl

theorem startNos_nil : startNos [] = [] := rfl

theorem startNos_cancelEv (x : Job) : startNos (cancelEv x) = [] := by unfold cancelEv; split <;> rfl

theorem mem_startNos (l : List Ev) (n : Nat) : n ∈ startNos l ↔ ∃ t, Ev.jobStart n t ∈ l := by
  simp only [startNos, List.mem_filterMap]
  constructor
  · rintro ⟨e, h, h'⟩
    cases e <;> simp at h'
    subst h'; exact ⟨_, h⟩
  · rintro ⟨t, h⟩; exact ⟨_, h, rfl⟩

set_option maxHeartbeats 4000000 in
theorem nodup_step (s : State) (a : Action) (s' : State) (ji : JobInv s) (inv : (startNos s.log).Nodup)
    (h : step s a = some s') : (startNos s'.log).Nodup := by
  obtain ⟨j1, j2, j3, j4, j5, -, j7, -, -, -, j11, -, -⟩ := ji
  cases a <;> simp only [step, State.setJob] at h <;> (repeat' split at h) <;> simp at h <;> subst h <;>
    simp only [startNos_append, startNos_one, startNos_nil, startNos_cancelEv, List.append_nil] <;> try exact inv
  rename_i x hx hp
  have : x.no ∉ startNos s.log := by
    rw [mem_startNos]; rintro ⟨t, ht⟩
    have := j11 _ _ ht
    grind
  exact List.nodup_append.2 ⟨inv, by simp, by grind⟩

/-- The number of ticks the provider received. -/
def ticks (l : List Ev) : Nat := l.count .tick

structure RateInv (s : State) : Prop where
  bound : s.no + (if s.cons = .got ∨ s.cons = .checked then 1 else 0) + (if s.prov = .first ∨ s.prov = .send then 1 else 0)
    ≤ (if s.status = .new then 0 else 1) + ticks s.log

theorem ticks_append (l l' : List Ev) : ticks (l ++ l') = ticks l + ticks l' := by simp [ticks]
theorem ticks_one (e : Ev) : ticks [e] = if e = .tick then 1 else 0 := by cases e <;> rfl
theorem ticks_cancelEv (x : Job) : ticks (cancelEv x) = 0 := by unfold cancelEv; split <;> rfl

set_option maxHeartbeats 4000000 in
theorem rate_step (s : State) (a : Action) (s' : State) (hk : s.kind = .rate) (lf : Life s)
    (inv : RateInv s) (h : step s a = some s') : RateInv s' := by
  obtain ⟨-, -, -, -, l5, l6, l7, l8, l9, -⟩ := lf
  obtain ⟨h1⟩ := inv
  cases a <;> simp only [step, State.setJob] at h <;> (repeat' split at h) <;> simp at h <;> subst h <;>
    (refine ⟨?_⟩ <;> simp only [ticks_append, ticks_one, ticks_cancelEv] <;> grind [ticks])

/-- Job `n` was submitted but its function has not been called. -/
def Pending (s : State) (n : Nat) : Prop :=
  (∃ (j : Nat) (x : Job), s.jobs[j]? = some x ∧ x.no = n ∧ x.fn = .notStarted) ∨ (s.cons = .checked ∧ n = s.no + 1)

/-- What holds of a state `s'` after the stopped state `s`. -/
structure After (s s' : State) : Prop where
  st  : s'.status = .stopped
  pnd : ∀ n, Pending s' n → Pending s n
  new : ∀ n t, Ev.jobStart n t ∈ s'.log → Ev.jobStart n t ∈ s.log ∨ Pending s n

set_option maxHeartbeats 4000000 in
theorem after_step (s₀ s : State) (a : Action) (s' : State) (inv : After s₀ s) (h : step s a = some s') : After s₀ s' := by
  obtain ⟨h1, h2, h3⟩ := inv
  cases a <;> simp only [step, State.setJob] at h <;> (repeat' split at h) <;> simp at h <;> subst h <;>
    (refine ⟨?_, ?_, ?_⟩ <;> grind [Job.finish, Pending, cancelEv])

end Gears.Schedule
