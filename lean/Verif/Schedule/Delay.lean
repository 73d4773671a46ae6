import Verif.Schedule.Lemmas

/-
Invariants of a FixedDelayTask.
-/

namespace Gears.Schedule

/-- Only the last job can be unfinished, and the consumer is in its `runJob` then; only the last timer can be active,
and the consumer is not busy then. -/
structure Seq (s : State) : Prop where
  run  : ∀ j, s.cons = .run j → j + 1 = s.jobs.length
  last : ∀ (j : Nat) x, s.jobs[j]? = some x → x.pc ≠ .ret → s.cons = .run j
  fut  : ∀ (i : Nat) f, s.futs[i]? = some f → f ≠ .done → i + 1 = s.futs.length ∧ (s.cons = .wait ∨ s.cons = .done)

set_option maxHeartbeats 4000000 in
theorem seq_step (s : State) (a : Action) (s' : State) (hk : s.kind = .delay) (lf : Life s) (ji : JobInv s) (inv : Seq s)
    (h : step s a = some s') : Seq s' := by
  obtain ⟨-, -, -, -, l5, l6, l7, l8, -, -⟩ := lf
  obtain ⟨j1, -, j3, j4, j5, -, j7, -, -, -, -, -, -⟩ := ji
  obtain ⟨h1, h2, h3⟩ := inv
  cases a <;> simp only [step, State.setJob] at h <;> (repeat' split at h) <;> simp at h <;> subst h <;>
    (refine ⟨?_, ?_, ?_⟩ <;> grind [Job.finish])

/-- Every job that has finished, finished at least `interval` before `T`. -/
def Past (s : State) (T : Nat) : Prop := ∀ n t, Ev.jobEnd n t ∈ s.log → t + s.interval ≤ T

/-- If a job ends before a job starts, at least `iv` passes between. -/
def GapLog (iv : Nat) (l : List Ev) : Prop :=
  l.Pairwise fun e e' => ∀ n t m u, e = Ev.jobEnd n t → e' = Ev.jobStart m u → t + iv ≤ u

theorem gapLog_snoc (iv : Nat) (l : List Ev) (e : Ev) :
    GapLog iv (l ++ [e]) ↔ GapLog iv l ∧ ∀ n t m u, Ev.jobEnd n t ∈ l → e = Ev.jobStart m u → t + iv ≤ u := by
  simp only [GapLog, List.pairwise_append, List.pairwise_singleton, List.mem_singleton, true_and, forall_eq]
  exact ⟨fun h => ⟨h.1, fun n t m u h1 h2 => h.2 _ h1 n t m u rfl h2⟩,
    fun h => ⟨h.1, fun a ha n t m u h1 h2 => h.2 n t m u (h1 ▸ ha) h2⟩⟩

structure Gap (s : State) : Prop where
  tim  : ∀ (i : Nat) dl, s.futs[i]? = some (.timer dl) → Past s dl
  snd  : ∀ (i : Nat), s.futs[i]? = some .sending → Past s s.now
  got  : s.cons = .got ∨ s.cons = .checked → Past s s.now
  run  : ∀ (j : Nat) x, s.jobs[j]? = some x → x.fn = .notStarted → Past s s.now
  logg : GapLog s.interval s.log

set_option maxHeartbeats 4000000 in
theorem gap_step (s : State) (a : Action) (s' : State) (hk : s.kind = .delay) (lf : Life s) (ji : JobInv s) (sq : Seq s)
    (inv : Gap s) (h : step s a = some s') : Gap s' := by
  obtain ⟨-, -, -, -, l5, l6, l7, l8, -, -⟩ := lf
  obtain ⟨j1, -, j3, j4, j5, -, j7, -, -, -, -, -, j13⟩ := ji
  obtain ⟨q1, q2, q3⟩ := sq
  obtain ⟨h1, h2, h3, h4, h5⟩ := inv
  cases a <;> simp only [step, State.setJob] at h <;> (repeat' split at h) <;> simp at h <;> subst h <;>
    (refine ⟨?_, ?_, ?_, ?_, ?_⟩ <;> grind [Job.finish, Past, cancelEv, gapLog_snoc])

end Gears.Schedule
