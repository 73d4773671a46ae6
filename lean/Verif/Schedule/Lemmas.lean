import Verif.Schedule.Model

/-
Invariants of the tasks.
-/

namespace Gears.Schedule

/-- Life-cycle invariant. -/
structure Life (s : State) : Prop where
  sig   : s.stopSig = true ↔ s.status = .stopped
  nop   : Ev.closePanic ∉ s.log
  st    : (∃ m, Ev.startRes m .ok ∈ s.log) ↔ s.status ≠ .new
  sp    : (∃ m, Ev.stopRes m .ok ∈ s.log) ↔ s.status = .stopped
  start : s.starting = true → s.kind = .delay ∧ s.status = .started ∧ s.cons = .wait
  cons  : s.cons = .none ↔ s.status = .new
  prov  : s.prov = .none ↔ (s.status = .new ∨ s.kind = .delay)
  fresh : s.starting = true ∨ s.status = .new → s.futs = [] ∧ s.jobs = [] ∧ s.no = 0
  rate  : s.kind = .rate → s.futs = [] ∧ ∀ j, s.cons ≠ .run j
  dn    : s.cons = .done ∨ s.prov = .done → s.status = .stopped

theorem resOf_ne (m : Bool) : resOf m ≠ .ok := by cases m <;> simp [resOf]

theorem life_step (s : State) (a : Action) (s' : State) (inv : Life s) (h : step s a = some s') : Life s' := by
  obtain ⟨h1, h2, h3, h4, h5, h6, h7, h8, h9, h10⟩ := inv
  cases a <;> simp only [step, State.setJob] at h <;> (repeat' split at h) <;> simp at h <;> subst h <;>
    (refine ⟨?_, ?_, ?_, ?_, ?_, ?_, ?_, ?_, ?_, ?_⟩ <;> grind [resOf, cancelEv])

/-- Invariant of the jobs. -/
structure JobInv (s : State) : Prop where
  len : s.jobs.length = s.no
  no  : ∀ (j : Nat) x, s.jobs[j]? = some x → x.no = j + 1
  ret : ∀ (j : Nat) x, s.jobs[j]? = some x → x.pc = .ret → x.fn = .returned ∧ x.done = true
  beg : ∀ (j : Nat) x, s.jobs[j]? = some x → x.pc = .begin → x.fn = .notStarted ∧ x.done = false
  fin : ∀ (j : Nat) x, s.jobs[j]? = some x → x.pc = .waitFin → x.done = true
  why : ∀ (j : Nat) x, s.jobs[j]? = some x → x.done = true → s.stopSig = true ∨ x.deadline ≤ s.now ∨ x.fn = .returned
  beg' : ∀ (j : Nat) x, s.jobs[j]? = some x → x.fn ≠ .notStarted → x.pc ≠ .begin
  can1 : ∀ (j : Nat) x, s.jobs[j]? = some x → x.done = true → Ev.cancel (j + 1) ∈ s.log
  can2 : ∀ n, Ev.cancel n ∈ s.log → 0 < n ∧ ∃ x, s.jobs[n - 1]? = some x ∧ x.done = true
  sta1 : ∀ (j : Nat) x, s.jobs[j]? = some x → x.fn ≠ .notStarted → ∃ t, Ev.jobStart (j + 1) t ∈ s.log
  sta2 : ∀ n t, Ev.jobStart n t ∈ s.log → 0 < n ∧ ∃ x, s.jobs[n - 1]? = some x ∧ x.fn ≠ .notStarted
  fnd1 : ∀ (j : Nat) x, s.jobs[j]? = some x → x.fn = .returned → ∃ t, Ev.jobEnd (j + 1) t ∈ s.log
  fnd2 : ∀ n t, Ev.jobEnd n t ∈ s.log → 0 < n ∧ t ≤ s.now ∧ ∃ x, s.jobs[n - 1]? = some x ∧ x.fn = .returned

set_option maxHeartbeats 4000000 in
theorem job_step (s : State) (a : Action) (s' : State) (lf : Life s) (inv : JobInv s) (h : step s a = some s') :
    JobInv s' := by
  obtain ⟨-, -, -, -, -, -, -, lfr, -, -⟩ := lf
  obtain ⟨h1, h2, h3, h4, h5, h6, h7, h8, h9, h10, h11, h12, h13⟩ := inv
  cases a <;> simp only [step, State.setJob] at h <;> (repeat' split at h) <;> simp at h <;> subst h <;>
    (refine ⟨?_, ?_, ?_, ?_, ?_, ?_, ?_, ?_, ?_, ?_, ?_, ?_, ?_⟩ <;> grind [resOf, cancelEv, Job.finish])

end Gears.Schedule
