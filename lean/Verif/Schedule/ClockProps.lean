import Verif.Schedule.Clock

/-
C127: tasks keep their pace.
-/

namespace Gears.Schedule

theorem idle_none {s : Timed} (hi : Idle s) (a : Action) (ha : Own a) (hf : a ≠ .tickerFire) : step s.task a = none := by
  have := hi a ha
  unfold tstep at this
  cases hs : step s.task a with
  | none => rfl
  | some t => rw [hs] at this; cases a <;> simp_all [Own]

/-- The jobs of an idle task: their functions have been called, those that ended are done with, cancel channels are closed
when they have to be. -/
theorem idle_job {s : Timed} (hi : Idle s) (iv : Inv s.task) (j : Nat) (x : Job) (hx : s.task.jobs[j]? = some x) :
    x.fn ≠ .notStarted ∧ (x.fn = .returned → x.pc = .ret) ∧ (x.done = false → s.task.now < x.deadline) ∧
    (s.task.stopSig = true → x.fn = .running → x.done = true) := by
  have c1 := idle_none hi (.runBegin j) trivial (by simp)
  have c2 := idle_none hi (.jobStart j) trivial (by simp)
  have c3 := idle_none hi (.selFin j) trivial (by simp)
  have c4 := idle_none hi (.runFin j) trivial (by simp)
  have c5 := idle_none hi (.ctxTimeout j) trivial (by simp)
  have c6 := idle_none hi (.selStop j) trivial (by simp)
  have j3 := iv.job.ret j x hx
  have j5 := iv.job.fin j x hx
  simp only [step, hx] at c1 c2 c3 c4 c5 c6
  have hb : x.pc ≠ .begin := by
    intro h; simp [h] at c1
  refine ⟨?_, ?_, ?_, ?_⟩
  · intro h; simp [h, hb] at c2
  · intro h
    rcases hp : x.pc with _ | _ | _ | _
    · exact absurd hp hb
    · simp [h, hp] at c3
    · simp [h, hp] at c4
    · rfl
  · intro h
    by_cases hd : x.deadline ≤ s.task.now
    · simp [hb, h, hd] at c5
    · omega
  · intro h hf
    rcases hp : x.pc with _ | _ | _ | _
    · exact absurd hp hb
    · simp [h, hp] at c6
    · exact j5 hp
    · exact (j3 hp).2

/-- What an idle FixedDelayTask looks like. -/
theorem idle_delay {s : Timed} (hk : s.task.kind = .delay) (iv : Inv s.task) (hi : Idle s) :
    s.task.starting = false ∧ s.task.cons ≠ .got ∧ s.task.cons ≠ .checked ∧
    (∀ (j : Nat) x, s.task.cons = .run j → s.task.jobs[j]? = some x → x.fn = .running) ∧
    (∀ (i : Nat) f, s.task.futs[i]? = some f → f ≠ .done → ∃ dl, f = .timer dl ∧ s.task.now < dl) := by
  have c1 := idle_none hi .handStart trivial (by simp)
  have c2 := idle_none hi .consCheck trivial (by simp)
  have c3 := idle_none hi .consNext trivial (by simp)
  have c4 := idle_none hi .consSpawn trivial (by simp)
  have hst : s.task.starting = false := by
    cases hh : s.task.starting
    · rfl
    · have := (iv.life.start hh).2.2
      simp [step, hh, this] at c1
  refine ⟨hst, ?_, ?_, ?_, ?_⟩
  · intro h
    simp only [step, h, hst, and_self, if_true] at c2
    split at c2 <;> simp at c2
  · intro h; simp [step, h, hst, hk] at c3
  · intro j x hc hx
    obtain ⟨h1, h2, -, -⟩ := idle_job hi iv j x hx
    rcases hf : x.fn with _ | _ | _
    · exact absurd hf h1
    · rfl
    · simp [step, hc, hx, h2 hf] at c4
  · intro i f hf hd
    have c5 := idle_none hi (.futArm i) trivial (by simp)
    have c6 := idle_none hi (.futFire i) trivial (by simp)
    have c7 := idle_none hi (.handFut i) trivial (by simp)
    have c8 := idle_none hi (.futAbort i) trivial (by simp)
    rcases f with _ | dl | _ | _
    · simp [step, hf] at c5
    · refine ⟨dl, rfl, ?_⟩
      by_cases hl : dl ≤ s.task.now
      · simp [step, hf, hl] at c6
      · omega
    · obtain ⟨⟨-, -, q3⟩, -, -⟩ := iv.delay hk
      rcases (q3 i _ hf (by simp)).2 with h | h
      · simp [step, hf, h] at c7
      · have := iv.life.sig.2 (iv.life.dn (.inl h))
        simp [step, hf, this] at c8
    · simp at hd

/-- Everything about prompt executions of a FixedDelayTask. -/
theorem prompt_delay {interval timeout : Int} {s : Timed} (h : Prompt .delay interval timeout s) : DP s.task s.since := by
  induction h with
  | new s h =>
    simp only [newTimed, Option.map_eq_some_iff] at h
    obtain ⟨t, ht, rfl⟩ := h
    simp only [new] at ht
    split at ht <;> [simp at ht; split at ht] <;> simp at ht
    subst ht
    exact ⟨by simp, by simp, by simp, by simp, by simp, by simp, by simp, by simp, by simp⟩
  | step s s' a hp h hpass ih =>
    have hR := treach_reach hp.treach
    have hk := (reach_const hR).1
    have iv := reach_inv hR
    have hs := tstep_task h
    have other : ((∃ m, a = .start m) → s.task.status ≠ .new) → s'.since = s.since → DP s'.task s'.since := by
      intro h1 h2
      rw [h2]
      by_cases hpa : ∃ dt, a = .pass dt
      · obtain ⟨dt, rfl⟩ := hpa
        obtain ⟨rfl, hi⟩ := hpass dt rfl
        simp only [step, Option.some.injEq] at hs
        rw [← hs]
        obtain ⟨i1, i2, i3, i4, i5⟩ := idle_delay hk iv hi
        obtain ⟨r1, r2, r3, r4, r5, r6, r7, r8, r9⟩ := ih
        refine ⟨by simp [i1], ?_, ?_, ?_, ?_, ?_, ?_, r8, r9⟩
        · intro j x hc hx hf
          have := i4 j x hc hx
          simp [this] at hf
        · intro i hf
          obtain ⟨dl, h, -⟩ := i5 i _ hf (by simp)
          simp at h
        · intro i dl hf
          obtain ⟨dl', h, hl⟩ := i5 i _ hf (by simp)
          simp only [Fut.timer.injEq] at h
          subst h
          exact ⟨hl, (r4 i dl hf).2⟩
        · intro i hf
          obtain ⟨dl, h, -⟩ := i5 i _ hf (by simp)
          simp at h
        · rintro (h | h)
          · exact absurd h i2
          · exact absurd h i3
        · intro j x hx hf
          exact absurd hf (idle_job hi iv j x hx).1
      · exact dp_other hk iv ih hs h1 fun dt h => hpa ⟨dt, h⟩
    rcases tstep_cases h with ⟨⟨m, rfl⟩, h1, h2, h3⟩ | ⟨⟨m, rfl⟩, h1, h2, h3⟩ | ⟨rfl, ⟨w, h1, h2, h3⟩, h4⟩ | ⟨h1, h2, h3, h4, h5⟩
    · obtain ⟨hf, hj, hn⟩ := iv.life.fresh (.inr h1)
      have hst : s.task.starting = false := by
        cases hh : s.task.starting
        · rfl
        · have := (iv.life.start hh).2.1; simp [h1] at this
      have hl : ∀ n t, Ev.jobStart n t ∉ s.task.log := by
        intro n t hm
        obtain ⟨-, x, hx, -⟩ := iv.job.sta2 n t hm
        rw [hj] at hx; simp at hx
      rw [h3]
      generalize s'.task = t' at *
      simp only [step, h1, hst, hk] at hs
      simp at hs
      subst hs
      exact ⟨by simp, by simp, by simp [hf], by simp [hf], by simp [hf], by simp, by simp [hj], by simp [hl], by simp⟩
    · exact other (by simp) h3
    · exact other (by simp) h4
    · exact other h1 h5

/-- Deadlines of jobs. -/
structure Dead (s : State) : Prop where
  now : ∀ (j : Nat) x, s.jobs[j]? = some x → x.pc ≠ .begin → x.deadline ≤ s.now + s.timeout
  log : ∀ (j : Nat) x t, s.jobs[j]? = some x → Ev.jobStart (j + 1) t ∈ s.log → x.deadline ≤ t + s.timeout

set_option maxHeartbeats 4000000 in
theorem dead_step {s s' : State} {a : Action} (iv : Inv s) (hd : Dead s) (h : step s a = some s') : Dead s' := by
  obtain ⟨j1, j2, -, j4, -, -, j7, -, -, -, j11, -, -⟩ := iv.job
  have l8 := iv.life.fresh
  obtain ⟨d1, d2⟩ := hd
  cases a <;> simp only [step, State.setJob] at h <;> (repeat' split at h) <;> simp at h <;> subst h <;>
    (refine ⟨?_, ?_⟩ <;> grind [cancelEv, Job.finish])

theorem reach_dead {kind : Kind} {interval timeout : Int} {s : State} (h : Reach kind interval timeout s) : Dead s := by
  obtain ⟨s0, h0, hr⟩ := h
  refine (hr.inv (I := fun x => Reach kind interval timeout x ∧ Dead x) ⟨⟨s0, h0, Reachable.refl _⟩, ?_⟩ ?_).2
  · simp only [new] at h0
    split at h0 <;> [simp at h0; split at h0] <;> simp at h0
    subst h0
    exact ⟨by simp, by simp⟩
  · rintro s a s' ⟨⟨s0, h0, hr⟩, hd⟩ h
    exact ⟨⟨s0, h0, hr.trans (Reachable.step a h)⟩, dead_step (reach_inv ⟨s0, h0, hr⟩) hd h⟩

theorem since_le {kind : Kind} {interval timeout : Int} {s : Timed} (h : TReach kind interval timeout s) :
    s.since ≤ s.task.now := by
  obtain ⟨s0, h0, hr⟩ := h
  simp only [newTimed, Option.map_eq_some_iff] at h0
  obtain ⟨t, ht, rfl⟩ := h0
  refine hr.inv (I := fun x => x.since ≤ x.task.now) (by simp) ?_
  intro x a y hx hxy
  have hn := (step_const (tstep_task hxy)).2.2.2.1
  rcases tstep_cases hxy with ⟨_, _, _, h3⟩ | ⟨_, _, _, h3⟩ | ⟨_, _, h3⟩ | ⟨_, _, _, _, h3⟩ <;> rw [h3] <;> omega

/-! ## C127 -/

/-- C127: `since` is the time at which `Start` succeeded. -/
theorem C127_since (kind : Kind) (interval timeout : Int) (s s' s'' : Timed) (m : Bool) (h : TReach kind interval timeout s)
    (hn : ∀ m, Ev.startRes m .ok ∉ s.task.log) (hs : tstep s (.start m) = some s') (hr : Reachable tstep s' s'') :
    s''.since = s.task.now := by
  have hnew : s.task.status = .new := by
    have := (reach_inv (treach_reach h)).life.st
    by_cases hh : s.task.status = .new
    · exact hh
    · obtain ⟨m, hm⟩ := this.2 hh
      exact absurd hm (hn m)
  refine (hr.inv (I := fun x => x.since = s.task.now ∧ x.task.status ≠ .new) ?_ ?_).1
  · rcases tstep_cases hs with ⟨_, h1, h2, h3⟩ | ⟨⟨m', hm⟩, _⟩ | ⟨h1, _⟩ | ⟨h1, _⟩
    · refine ⟨h3, ?_⟩
      have ht := tstep_task hs
      generalize s'.task = t' at *
      simp only [step] at ht
      (repeat' split at ht) <;> simp at ht <;> subst ht <;> simp_all
    · cases hm
    · cases h1
    · exact absurd hnew (h1 ⟨m, rfl⟩)
  · rintro x a y ⟨hx, hx'⟩ hxy
    have ht := tstep_task hxy
    refine ⟨?_, ?_⟩
    · rcases tstep_cases hxy with ⟨_, h1, _⟩ | ⟨_, _, _, h3⟩ | ⟨_, _, h3⟩ | ⟨_, _, _, _, h3⟩
      · exact absurd h1 hx'
      · rw [h3, hx]
      · rw [h3, hx]
      · rw [h3, hx]
    · generalize y.task = t' at *
      cases a <;> simp only [step, State.setJob] at ht <;> (repeat' split at ht) <;> simp at ht <;> subst ht <;> simp_all

/-- C127: however its goroutines are scheduled, the n-th job of a FixedRateTask does not start before n - 1 intervals have
passed since `Start`; so at most one job more than full intervals have passed has been started. -/
theorem C127_rate_bound (interval timeout : Int) (s : Timed) (h : TReach .rate interval timeout s) :
    (∀ n t, Ev.jobStart n t ∈ s.task.log → 1 ≤ n ∧ (s.since : Int) + (n - 1) * interval ≤ t) ∧
    ((startNos s.task.log).length : Int) ≤ 1 + (s.task.now - s.since) / interval := by
  have hp := treach_pace h
  have hR := treach_reach h
  have iv := reach_inv hR
  have hi := (reach_const hR).2.1
  have hpos := new_pos hR
  have h1 : ∀ n t, Ev.jobStart n t ∈ s.task.log → 1 ≤ n ∧ (s.since : Int) + (n - 1) * interval ≤ t := by
    intro n t hm
    have h1 := (iv.job.sta2 n t hm).1
    have h2 := hp.log n t hm
    refine ⟨h1, ?_⟩
    simp only [Timed.due] at h2
    have : ((n - 1 : Nat) : Int) = (n : Int) - 1 := by omega
    rw [← hi, ← this]
    exact_mod_cast h2
  refine ⟨h1, ?_⟩
  have hsub : startNos s.task.log ⊆ List.range' 1 s.task.no := by
    intro n hn
    obtain ⟨t, ht⟩ := (mem_startNos _ _).1 hn
    obtain ⟨h2, x, hx, -⟩ := iv.job.sta2 n t ht
    have := (List.getElem?_eq_some_iff.1 hx).1
    have := iv.job.len
    exact List.mem_range'_1.2 ⟨h2, by omega⟩
  have hlen := (List.subperm_of_subset iv.nodup hsub).length_le
  simp only [List.length_range'] at hlen
  by_cases hz : s.task.no = 0
  · have hl0 : (startNos s.task.log).length = 0 := by omega
    rw [hl0]
    have := Int.ediv_nonneg (a := (s.task.now : Int) - s.since) (b := interval) (by have := since_le h; omega) (by omega)
    omega
  · have h2 := hp.all (s.task.no - 1) (by have := no_le_asked s.task; omega)
    simp only [Timed.due] at h2
    have h3 : ((s.task.no - 1 : Nat) : Int) ≤ (s.task.now - s.since) / interval := by
      rw [← hi]
      refine (Int.le_ediv_iff_mul_le (by omega)).2 ?_
      have : (s.since : Int) + ((s.task.no - 1 : Nat) : Int) * s.task.interval ≤ s.task.now := by exact_mod_cast h2
      omega
    omega

/-- C127: if the goroutines are prompt, the n-th job of a FixedRateTask starts exactly n - 1 intervals after `Start`, however
long the jobs run.  Whenever nothing is left to do and the task is not stopped, all jobs that are due have been started: no
tick is lost. -/
theorem C127_rate (interval timeout : Int) (s : Timed) (h : Prompt .rate interval timeout s) :
    (∀ n t, Ev.jobStart n t ∈ s.task.log → 1 ≤ n ∧ (t : Int) = s.since + (n - 1) * interval) ∧
    (Idle s → s.task.status = .started → ∀ n t, Ev.jobStart n t ∈ s.task.log ↔
      1 ≤ n ∧ (t : Int) = s.since + (n - 1) * interval ∧ t ≤ s.task.now) := by
  have hR := treach_reach h.treach
  have iv := reach_inv hR
  obtain ⟨hk, hi, -⟩ := reach_const hR
  have hpos := new_pos hR
  obtain ⟨⟨r1, r2, r3, r4, r5, r6, r7⟩, htk⟩ := prompt_rate h
  have cast : ∀ n t : Nat, 1 ≤ n → (t = s.due (n - 1) ↔ (t : Int) = s.since + (n - 1) * interval) := by
    intro n t hn
    have : ((n - 1 : Nat) : Int) = (n : Int) - 1 := by omega
    rw [← hi, ← this, Timed.due]
    exact ⟨fun h => by exact_mod_cast h, fun h => by exact_mod_cast h⟩
  have h1 : ∀ n t, Ev.jobStart n t ∈ s.task.log → 1 ≤ n ∧ (t : Int) = s.since + (n - 1) * interval := by
    intro n t hm
    have hn := (iv.job.sta2 n t hm).1
    exact ⟨hn, (cast n t hn).1 (r7 n t hm)⟩
  refine ⟨h1, fun hidle hst n t => ⟨fun hm => ⟨(h1 n t hm).1, (h1 n t hm).2, ?_⟩, ?_⟩⟩
  · have hn := (iv.job.sta2 n t hm).1
    rw [r7 n t hm]
    obtain ⟨-, x, hx, -⟩ := iv.job.sta2 n t hm
    have := (List.getElem?_eq_some_iff.1 hx).1
    have := iv.job.len
    exact (treach_pace h.treach).all _ (by have := no_le_asked s.task; omega)
  · rintro ⟨hn, ht, hle⟩
    have ht' := (cast n t hn).2 ht
    obtain ⟨i1, i2, i3, i4, i5⟩ := idle_rate hk iv hidle (by
      intro hb
      rcases r5 hb with h | h
      · simp [h]
      · exact h.1)
    obtain ⟨w, hw⟩ := Option.ne_none_iff_exists'.1 (htk.2 hst)
    obtain ⟨a1, a2, a3⟩ := r1 w hw
    have a4 := i5 w hw hst
    have hbuf : s.task.tickBuf = false := by
      cases hb : s.task.tickBuf
      · rfl
      · have := iv.life.dn (.inr (i3 hb)); rw [hst] at this; cases this
    have ha : asked s.task = s.task.no := by simp [asked, i1, i2, bPend, hbuf]
    have hlt : n - 1 < s.task.no := by
      apply Decidable.byContradiction
      intro hge
      have := due_le s (show s.task.no ≤ n - 1 by omega)
      rw [ha] at a3
      omega
    have hlen := iv.job.len
    have hx : s.task.jobs[n - 1]? = some (s.task.jobs[n - 1]'(by omega)) := List.getElem?_eq_getElem _
    obtain ⟨u, hu⟩ := iv.job.sta1 _ _ hx (i4 _ _ hx)
    rw [show n - 1 + 1 = n by omega] at hu
    have := r7 n u hu
    rw [ht', ← this]; exact hu

/-- C127: if the goroutines are prompt, the first job of a FixedDelayTask starts at the time of `Start`, and every other job
exactly `interval` after the one before it ended.  Whenever nothing is left to do and the task is not stopped, the last job
is running, or it ended less than `interval` ago. -/
theorem C127_delay (interval timeout : Int) (s : Timed) (h : Prompt .delay interval timeout s) :
    (∀ n t, Ev.jobStart n t ∈ s.task.log → (n = 1 ∧ t = s.since) ∨
      (2 ≤ n ∧ ∃ u, Ev.jobEnd (n - 1) u ∈ s.task.log ∧ (t : Int) = u + interval)) ∧
    (Idle s → s.task.status = .started → ∃ n, (∃ t, Ev.jobStart n t ∈ s.task.log) ∧
      (∀ m t, Ev.jobStart m t ∈ s.task.log → m ≤ n) ∧
      ((∀ u, Ev.jobEnd n u ∉ s.task.log) ∨ ∃ u, Ev.jobEnd n u ∈ s.task.log ∧ (s.task.now : Int) < u + interval)) := by
  have hR := treach_reach h.treach
  have iv := reach_inv hR
  obtain ⟨hk, hi, -⟩ := reach_const hR
  obtain ⟨r1, r2, r3, r4, r5, r6, r7, r8, r9⟩ := prompt_delay h
  refine ⟨fun n t hm => ?_, fun hidle hst => ?_⟩
  · have hn := (iv.job.sta2 n t hm).1
    rcases r8 n t hm with ⟨h1, h2⟩ | ⟨u, h1, h2⟩
    · exact .inl ⟨by omega, h2⟩
    · have := (iv.job.fnd2 _ _ h1).1
      exact .inr ⟨by omega, u, h1, by omega⟩
  · obtain ⟨i1, i2, i3, i4, i5⟩ := idle_delay hk iv hidle
    have hlen := iv.job.len
    have hmax : ∀ m t, Ev.jobStart m t ∈ s.task.log → m ≤ s.task.no := by
      intro m t hm
      obtain ⟨h1, x, hx, -⟩ := iv.job.sta2 m t hm
      have := (List.getElem?_eq_some_iff.1 hx).1
      omega
    have hstart : 0 < s.task.no → ∃ t, Ev.jobStart s.task.no t ∈ s.task.log := by
      intro h0
      have hx : s.task.jobs[s.task.no - 1]? = some (s.task.jobs[s.task.no - 1]'(by omega)) := List.getElem?_eq_getElem _
      obtain ⟨t, ht⟩ := iv.job.sta1 _ _ hx (idle_job hidle iv _ _ hx).1
      rw [show s.task.no - 1 + 1 = s.task.no by omega] at ht
      exact ⟨t, ht⟩
    rcases hc : s.task.cons with _ | _ | _ | _ | j | _
    · have := iv.life.cons.1 hc; rw [hst] at this; cases this
    · rcases r9 hst hc with h | ⟨i, f, hf, hd⟩
      · rw [i1] at h; cases h
      · obtain ⟨dl, rfl, hl⟩ := i5 i f hf hd
        obtain ⟨u, hu, rfl⟩ := (r4 i dl hf).2
        have h0 := (iv.job.fnd2 _ _ hu).1
        exact ⟨s.task.no, hstart h0, hmax, .inr ⟨u, hu, by omega⟩⟩
    · exact absurd hc i2
    · exact absurd hc i3
    · have hj := ((iv.delay hk).1.run j hc)
      have hx : s.task.jobs[j]? = some (s.task.jobs[j]'(by omega)) := List.getElem?_eq_getElem _
      have hrun := i4 j _ hc hx
      refine ⟨s.task.no, hstart (by omega), hmax, .inl fun u hu => ?_⟩
      obtain ⟨-, -, x, hx', hf⟩ := iv.job.fnd2 _ _ hu
      rw [show s.task.no - 1 = j by omega, hx] at hx'
      simp only [Option.some.injEq] at hx'
      rw [← hx', hrun] at hf; cases hf
    · have := iv.life.dn (.inl hc); rw [hst] at this; cases this

/-- C127: a job that has run for its timeout, or that runs after `Stop`, has been told to cancel before the task is idle. -/
theorem C127_cancel (kind : Kind) (interval timeout : Int) (s : Timed) (h : TReach kind interval timeout s) (hi : Idle s)
    (n t : Nat) (hs : Ev.jobStart n t ∈ s.task.log) (he : ∀ u, Ev.jobEnd n u ∉ s.task.log)
    (hw : (t : Int) + timeout ≤ s.task.now ∨ ∃ m, Ev.stopRes m .ok ∈ s.task.log) : Ev.cancel n ∈ s.task.log := by
  have hR := treach_reach h
  have iv := reach_inv hR
  obtain ⟨-, -, hto⟩ := reach_const hR
  obtain ⟨hn, x, hx, hf⟩ := iv.job.sta2 n t hs
  have hn' : n - 1 + 1 = n := by omega
  have hrun : x.fn = .running := by
    rcases hff : x.fn with _ | _ | _
    · exact absurd hff hf
    · rfl
    · obtain ⟨u, hu⟩ := iv.job.fnd1 _ x hx hff
      rw [hn'] at hu
      exact absurd hu (he u)
  obtain ⟨-, -, i3, i4⟩ := idle_job hi iv _ x hx
  have hdone : x.done = true := by
    rcases hw with hw | hw
    · cases hd : x.done
      · have h1 := i3 hd
        have h2 := (reach_dead hR).log _ x t hx (by rw [hn']; exact hs)
        omega
      · rfl
    · exact i4 (iv.life.sig.2 (iv.life.sp.1 hw)) hrun
  have := iv.job.can1 _ x hx hdone
  rwa [hn'] at this

/-- C127: if `Stop` is called when nothing is left to do, no job starts afterwards. -/
theorem C127_stop (kind : Kind) (interval timeout : Int) (s s' s'' : Timed) (m : Bool) (h : TReach kind interval timeout s)
    (hi : Idle s) (hs : tstep s (.stop m) = some s') (hok : Ev.stopRes m .ok ∈ s'.task.log) (hr : Reachable tstep s' s'')
    (n t : Nat) (hm : Ev.jobStart n t ∈ s''.task.log) : Ev.jobStart n t ∈ s.task.log := by
  have hR := treach_reach h
  have iv := reach_inv hR
  have ht := tstep_task hs
  have iv' := inv_step _ _ _ iv ht
  have hr' : Reachable step s'.task s''.task :=
    hr.inv (I := fun x => Reachable step s'.task x.task) (Reachable.refl _) fun x a y hx hxy =>
      hx.trans (Reachable.step a (tstep_task hxy))
  have hst : s.task.starting = false := by
    cases hh : s.task.starting
    · rfl
    · simp [step, hh] at ht
  have hchk : s.task.cons ≠ .checked := by
    intro hc
    have c3 := idle_none hi .consNext trivial (by simp)
    rcases hkk : s.task.kind with _ | _ <;> simp [step, hc, hst, hkk] at c3
  have hj := jobStart_step iv.job ht n t
  have hjobs : s'.task.jobs = s.task.jobs ∧ s'.task.cons = s.task.cons := by
    generalize s'.task = t' at ht
    simp only [step] at ht
    (repeat' split at ht) <;> simp at ht <;> subst ht <;> exact ⟨rfl, rfl⟩
  rcases C44_pending_partial s'.task s''.task (iv'.life.sp.1 ⟨m, hok⟩) hr' n t hm with h1 | ⟨j, x, hx, -, hf⟩ | ⟨hc, -⟩
  · rcases hj h1 with h2 | ⟨-, -, -, x, hx, hf⟩
    · exact h2
    · exact absurd hf (idle_job hi iv _ x hx).1
  · rw [hjobs.1] at hx
    exact absurd hf (idle_job hi iv j x hx).1
  · rw [hjobs.2] at hc
    exact absurd hc hchk

/-! ## Non-vacuity -/

/-- The steps of the task that could be enabled in `s`. -/
def candidates (s : State) : List Action :=
  [.handStart, .handProv, .startAbort, .provAbort, .consAbort, .consCheck, .consNext, .consSpawn, .tickerFire, .provTick] ++
  (List.range s.futs.length).flatMap (fun i => [.handFut i, .futAbort i, .futArm i, .futFire i]) ++
  (List.range s.jobs.length).flatMap (fun j => [.runBegin j, .jobStart j, .ctxTimeout j, .selDone j, .selStop j, .selFin j, .runFin j])

def idleB (s : Timed) : Bool := (candidates s.task).all fun a => (tstep s a).isNone

theorem idle_of (s : Timed) (h : idleB s = true) : Idle s := by
  intro a ha
  have h' : ∀ a ∈ candidates s.task, tstep s a = none := by simpa [idleB, List.all_eq_true] using h
  have none_of : step s.task a = none → tstep s a = none := by intro h; simp [tstep, h]
  cases a <;> simp only [Own] at ha
  all_goals first
    | (refine h' _ ?_; simp [candidates]; done)
    | (rename_i i
       by_cases hi : i < s.task.futs.length
       · refine h' _ ?_; simp [candidates, hi]
       · refine none_of ?_
         have : s.task.futs[i]? = none := by simp; omega
         simp [step, this])
    | (rename_i i
       by_cases hi : i < s.task.jobs.length
       · refine h' _ ?_; simp [candidates, hi]
       · refine none_of ?_
         have : s.task.jobs[i]? = none := by simp; omega
         simp [step, this])

def okNow (s : Timed) : Action → Bool
  | .pass dt => dt == 1 && idleB s
  | _ => true

/-- Runs a schedule in which time goes on only when the task is idle. -/
def prun (s : Timed) : List Action → Option Timed
  | [] => some s
  | a :: as =>
    if okNow s a then
      match tstep s a with
      | some s' => prun s' as
      | none => none
    else none

theorem prun_prompt {kind : Kind} {interval timeout : Int} : ∀ (as : List Action) (s s' : Timed),
    Prompt kind interval timeout s → prun s as = some s' → Prompt kind interval timeout s'
  | [], s, s', hp, h => by simp [prun] at h; exact h ▸ hp
  | a :: as, s, s', hp, h => by
    simp only [prun] at h
    split at h <;> [skip; simp at h]
    rename_i hc
    split at h <;> [skip; simp at h]
    rename_i s1 h1
    refine prun_prompt as s1 s' (.step s s1 a hp h1 ?_) h
    rintro dt rfl
    simp only [okNow, Bool.and_eq_true, beq_iff_eq] at hc
    exact ⟨hc.1, idle_of s hc.2⟩

/-- A new FixedRateTask, a new FixedDelayTask. -/
def fresh (kind : Kind) : Timed := ⟨⟨kind, 3, 2, 0, .new, false, false, 0, .none, .none, [], false, [], []⟩, none, 0⟩

theorem prompt_fresh (kind : Kind) : Prompt kind 3 2 (fresh kind) := .new _ (by cases kind <;> rfl)

/-- Non-vacuity of `C127_rate`, `C127_rate_bound`, `C127_cancel`: `Start` at time 1; the first job never ends, its cancel
channel is closed at time 3, the second job starts at time 4. -/
example : ∃ s, Prompt .rate 3 2 s ∧ Idle s ∧ s.task.status = .started ∧
    s.task.log = [.startRes false .ok, .jobStart 1 1, .cancel 1, .tick, .jobStart 2 4] ∧ s.since = 1 :=
  ⟨_, prun_prompt [.pass 1, .start false, .handProv, .consCheck, .consNext, .runBegin 0, .jobStart 0, .pass 1, .pass 1,
    .ctxTimeout 0, .selDone 0, .pass 1, .tickerFire, .provTick, .handProv, .consCheck, .consNext, .runBegin 1, .jobStart 1] _ _
    (prompt_fresh .rate) rfl, idle_of _ (by decide), by decide, by decide, by decide⟩

/-- Without promptness the second job may start later, and ticks get lost: only two of the jobs of the first 9 units of time
have been started. -/
example : ∃ s, TReach .rate 3 2 s ∧ s.task.log = [.startRes false .ok, .jobStart 1 0, .tick, .jobStart 2 9] ∧ s.task.tickBuf = false ∧
    s.tick = some 12 :=
  ⟨_, ⟨fresh .rate, rfl, [.start false, .handProv, .consCheck, .consNext, .runBegin 0, .jobStart 0, .pass 9, .tickerFire, .provTick,
    .handProv, .consCheck, .consNext, .runBegin 1, .jobStart 1], rfl⟩, by decide, by decide, by decide⟩

/-- Non-vacuity of `C127_delay`: the first job runs from 0 to 1, the second starts at 4. -/
example : ∃ s, Prompt .delay 3 2 s ∧ Idle s ∧ s.task.status = .started ∧
    s.task.log = [.startRes true .ok, .jobStart 1 0, .jobEnd 1 1, .cancel 1, .jobStart 2 4] :=
  ⟨_, prun_prompt [.start true, .handStart, .consCheck, .consNext, .runBegin 0, .jobStart 0, .pass 1, .jobEnd 0, .selFin 0,
    .consSpawn, .futArm 0, .pass 1, .pass 1, .pass 1, .futFire 0, .handFut 0, .consCheck, .consNext, .runBegin 1, .jobStart 1]
    _ _ (prompt_fresh .delay) rfl, idle_of _ (by decide), by decide, by decide⟩

/-- Non-vacuity of `C127_stop`: `Stop` while the first job runs. -/
example : ∃ s s', Prompt .delay 3 2 s ∧ Idle s ∧ tstep s (.stop false) = some s' ∧ Ev.stopRes false .ok ∈ s'.task.log :=
  ⟨_, _, prun_prompt [.start true, .handStart, .consCheck, .consNext, .runBegin 0, .jobStart 0] _ _ (prompt_fresh .delay) rfl,
    idle_of _ (by decide), rfl, by decide⟩

end Gears.Schedule
