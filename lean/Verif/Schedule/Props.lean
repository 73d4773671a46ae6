import Mathlib.Data.List.Perm.Subperm
import Verif.Schedule.Term

/-
Properties C41-C47 of the tasks.
-/

namespace Gears.Schedule

/-! ## C41 Life cycle -/

/-- C41: a `Start` that can be executed returns no error iff no earlier `Start` returned without error; otherwise it
returns an error, and `MustStart` panics. -/
theorem C41_start (kind : Kind) (interval timeout : Int) (s s' : State) (must : Bool) (h : Reach kind interval timeout s)
    (hs : step s (.start must) = some s') :
    ∃ r, s'.log = s.log ++ [.startRes must r] ∧ (r = .ok ↔ ∀ m, Ev.startRes m .ok ∉ s.log) ∧
      (r = .panic ↔ must = true ∧ ∃ m, Ev.startRes m .ok ∈ s.log) ∧
      (r = .err ↔ must = false ∧ ∃ m, Ev.startRes m .ok ∈ s.log) := by
  have st := (reach_inv h).life.st
  simp only [step] at hs
  (repeat' split at hs) <;> simp at hs <;> subst hs <;> refine ⟨_, rfl, ?_, ?_, ?_⟩ <;> cases must <;> grind [resOf]

/-- C41: a `Stop` that can be executed returns no error iff a `Start` returned without error and no earlier `Stop` did;
otherwise it returns an error, and `MustStop` panics. -/
theorem C41_stop (kind : Kind) (interval timeout : Int) (s s' : State) (must : Bool) (h : Reach kind interval timeout s)
    (hs : step s (.stop must) = some s') :
    ∃ r, s'.log = s.log ++ [.stopRes must r] ∧
      (r = .ok ↔ (∃ m, Ev.startRes m .ok ∈ s.log) ∧ ∀ m, Ev.stopRes m .ok ∉ s.log) ∧
      (r = .panic → must = true) ∧ (r = .err → must = false) := by
  obtain ⟨sig, -, st, sp, -⟩ := (reach_inv h).life
  simp only [step] at hs
  (repeat' split at hs) <;> simp at hs <;> subst hs
  · grind
  · refine ⟨_, rfl, ?_, ?_, ?_⟩ <;> cases must <;> grind [resOf]
  · refine ⟨_, rfl, ?_, ?_, ?_⟩ <;> cases must <;> cases hst : s.status <;> grind [resOf]

theorem once_step (s : State) (a : Action) (s' : State) (lf : Life s)
    (inv : s.log.countP (fun e => e matches .startRes _ .ok) = (if s.status = .new then 0 else 1) ∧
      s.log.countP (fun e => e matches .stopRes _ .ok) = (if s.status = .stopped then 1 else 0))
    (h : step s a = some s') :
    s'.log.countP (fun e => e matches .startRes _ .ok) = (if s'.status = .new then 0 else 1) ∧
      s'.log.countP (fun e => e matches .stopRes _ .ok) = (if s'.status = .stopped then 1 else 0) := by
  have sig := lf.sig
  obtain ⟨h1, h2⟩ := inv
  cases a <;> simp only [step, State.setJob] at h <;> (repeat' split at h) <;> simp at h <;> subst h <;>
    simp only [List.countP_append, h1, h2] <;> grind [resOf, cancelEv]

/-- C41: over a whole execution at most one `Start` and at most one `Stop` succeed, and `stopSig` is never closed
twice. -/
theorem C41_once (kind : Kind) (interval timeout : Int) (s : State) (h : Reach kind interval timeout s) :
    s.log.countP (fun e => e matches .startRes _ .ok) ≤ 1 ∧ s.log.countP (fun e => e matches .stopRes _ .ok) ≤ 1 ∧
    Ev.closePanic ∉ s.log := by
  have : s.log.countP (fun e => e matches .startRes _ .ok) = (if s.status = .new then 0 else 1) ∧
      s.log.countP (fun e => e matches .stopRes _ .ok) = (if s.status = .stopped then 1 else 0) := by
    obtain ⟨s0, h0, hr⟩ := h
    refine (hr.inv (I := fun s => Inv s ∧ (s.log.countP (fun e => e matches .startRes _ .ok) = (if s.status = .new then 0 else 1) ∧
      s.log.countP (fun e => e matches .stopRes _ .ok) = (if s.status = .stopped then 1 else 0))) ⟨inv_new h0, ?_⟩ ?_).2
    · simp only [new] at h0
      split at h0
      · simp at h0
      split at h0
      · simp at h0
      simp at h0; subst h0; simp
    · exact fun s a s' i hs => ⟨inv_step s a s' i.1 hs, once_step s a s' i.1.life i.2 hs⟩
  refine ⟨?_, ?_, (reach_inv h).life.nop⟩
  · rw [this.1]; split <;> omega
  · rw [this.2]; split <;> omega

/-- C41: a `Start` that is handing over the first job is never stuck: the consumer is ready to take it. -/
theorem C41_start_returns (kind : Kind) (interval timeout : Int) (s : State) (h : Reach kind interval timeout s)
    (hs : s.starting = true) : ∃ s', step s .handStart = some s' ∧ s'.starting = false :=
  ⟨_, by simp only [step, hs, ((reach_inv h).life.start hs).2.2, and_self, if_true]; rfl, rfl⟩

/-- Non-vacuity: Start, Start, Stop, Stop. -/
example : ∃ s, Reach .delay 5 7 s ∧
    s.log = [.startRes false .ok, .startRes true .panic, .stopRes false .ok, .stopRes false .err] :=
  ⟨_, ⟨_, rfl, [.start false, .handStart, .start true, .stop false, .stop false], rfl⟩, by decide⟩

/-! ## C42 FixedDelayTask jobs do not overlap -/

/-- C42: the starts and ends of the jobs of a FixedDelayTask are, in the order in which they happen, a prefix of
start 1, end 1, start 2, end 2, … -/
theorem C42_sequential (interval timeout : Int) (s : State) (h : Reach .delay interval timeout s) :
    ∃ k, jobEvs s.log = rounds k ∨ jobEvs s.log = rounds k ++ [(true, k + 1)] := by
  have inv := reach_inv h
  obtain ⟨sq, -, al⟩ := inv.delay (reach_const h).1
  by_cases hr : ∃ j, s.cons = .run j
  · obtain ⟨j, hj⟩ := hr
    have hx : s.jobs[j]? = some _ := List.getElem?_eq_getElem (run_lt inv j hj)
    rcases hf : (s.jobs[j]'(run_lt inv j hj)).fn with _ | _ | _
    · exact ⟨j, .inl (al.ns j _ hj hx hf)⟩
    · exact ⟨j, .inr (al.rn j _ hj hx hf)⟩
    · exact ⟨j + 1, .inl (al.rt j _ hj hx hf)⟩
  · exact ⟨_, .inl (al.no fun j hj => hr ⟨j, hj⟩)⟩

/-- C42: at most one job function of a FixedDelayTask is running at any moment. -/
theorem C42_no_overlap (interval timeout : Int) (s : State) (h : Reach .delay interval timeout s) (i j : Nat) (x y : Job)
    (hi : s.jobs[i]? = some x) (hj : s.jobs[j]? = some y) (hx : x.fn = .running) (hy : y.fn = .running) : i = j := by
  have inv := reach_inv h
  obtain ⟨sq, -, -⟩ := inv.delay (reach_const h).1
  have h1 := sq.last i x hi (fun h => by have := (inv.job.ret i x hi h).1; simp [hx] at this)
  have h2 := sq.last j y hj (fun h => by have := (inv.job.ret j y hj h).1; simp [hy] at this)
  rw [h1] at h2; simpa using h2

/-- Non-vacuity: a second job gets started. -/
example : ∃ s, Reach .delay 5 7 s ∧ jobEvs s.log = rounds 1 ++ [(true, 2)] :=
  ⟨_, ⟨_, rfl, [.start false, .handStart, .consCheck, .consNext, .runBegin 0, .jobStart 0, .jobEnd 0, .selFin 0, .consSpawn,
    .futArm 0, .pass 5, .futFire 0, .handFut 0, .consCheck, .consNext, .runBegin 1, .jobStart 1], rfl⟩, by decide⟩

/-! ## C43 interval between jobs -/

/-- C43: a job of a FixedDelayTask that starts after another job ended (all that ended before, in particular the one
before it) starts at least `interval` after that. -/
theorem C43_interval (interval timeout : Int) (s : State) (h : Reach .delay interval timeout s) :
    s.log.Pairwise fun e e' => ∀ (n t m u : Nat), e = .jobEnd n t → e' = .jobStart m u → (t : Int) + interval ≤ u := by
  obtain ⟨-, gp, -⟩ := (reach_inv h).delay (reach_const h).1
  have hi := (reach_const h).2.1
  refine gp.logg.imp ?_
  intro e e' hp n t m u h1 h2
  have := hp n t m u h1 h2
  omega

/-- Non-vacuity: the second job starts at 8, the first ended at 3. -/
example : ∃ s, Reach .delay 5 7 s ∧ Ev.jobEnd 1 3 ∈ s.log ∧ Ev.jobStart 2 8 ∈ s.log :=
  ⟨_, ⟨_, rfl, [.start false, .handStart, .consCheck, .consNext, .runBegin 0, .jobStart 0, .pass 3, .jobEnd 0, .selFin 0,
    .consSpawn, .futArm 0, .pass 5, .futFire 0, .handFut 0, .consCheck, .consNext, .runBegin 1, .jobStart 1], rfl⟩, by decide⟩

/-! ## C44 No job starts after Stop -/

/-- C44 is violated: the consumer has passed the status check when `Stop` returns, and starts the job afterwards. -/
theorem C44_violated (kind : Kind) : ∃ s s' : State, Reach kind 5 7 s ∧ s.status = .stopped ∧
    Ev.stopRes false .ok ∈ s.log ∧ startNos s.log = [] ∧ Reachable step s s' ∧ startNos s'.log = [1] := by
  cases kind
  · exact ⟨_, _, ⟨_, rfl, [.start false, .handStart, .consCheck, .stop false], rfl⟩, by decide, by decide, by decide,
      ⟨[.consNext, .runBegin 0, .jobStart 0], rfl⟩, by decide⟩
  · exact ⟨_, _, ⟨_, rfl, [.start false, .handProv, .consCheck, .stop false], rfl⟩, by decide, by decide, by decide,
      ⟨[.consNext, .runBegin 0, .jobStart 0], rfl⟩, by decide⟩

/-- C44, what does hold: after `Stop` only jobs start that were submitted before it: those for which the consumer had
passed the status check.  Missing for C44: that there is no such job. -/
theorem C44_pending_partial (s s' : State) (hs : s.status = .stopped) (hr : Reachable step s s') :
    ∀ n t, Ev.jobStart n t ∈ s'.log → Ev.jobStart n t ∈ s.log ∨ Pending s n := by
  have : After s s' := hr.inv (I := After s) ⟨hs, fun _ h => h, fun _ _ h => .inl h⟩ (after_step s)
  exact this.new

theorem log_step (s : State) (a : Action) (s' : State) (h : step s a = some s') : s.log <+: s'.log := by
  cases a <;> simp only [step, State.setJob] at h <;> (repeat' split at h) <;> simp at h <;> subst h <;> simp

theorem log_reach {s s' : State} (hr : Reachable step s s') : s.log <+: s'.log :=
  hr.inv (I := fun x => s.log <+: x.log) (List.prefix_refl _) fun a x b h hs => h.trans (log_step a x b hs)

/-- C44, what does hold: after `Stop` of a FixedDelayTask at most one job starts, and none if one is running at the
time of the `Stop`. -/
theorem C44_delay_partial (interval timeout : Int) (s s' : State) (h : Reach .delay interval timeout s)
    (hs : s.status = .stopped) (hr : Reachable step s s') :
    (startNos s'.log).length ≤ (startNos s.log).length + 1 ∧
    ((∃ x ∈ s.jobs, x.fn = .running) → startNos s'.log = startNos s.log) := by
  have inv := reach_inv h
  obtain ⟨sq, -, -⟩ := inv.delay (reach_const h).1
  have h' : Reach .delay interval timeout s' := by
    obtain ⟨s0, h0, hr0⟩ := h
    exact ⟨s0, h0, hr0.trans hr⟩
  have nd := (reach_inv h').nodup
  have new := C44_pending_partial s s' hs hr
  obtain ⟨l, hl⟩ := log_reach hr
  rw [← hl, startNos_append] at nd
  have hpend : ∀ n ∈ startNos l, Pending s n := by
    intro n hn
    obtain ⟨t, ht⟩ := (mem_startNos l n).1 hn
    rcases new n t (by rw [← hl]; exact List.mem_append_right _ ht) with h1 | h1
    · exact absurd rfl ((List.nodup_append.1 nd).2.2 n ((mem_startNos _ _).2 ⟨t, h1⟩) n hn)
    · exact h1
  have huniq : ∀ n m, Pending s n → Pending s m → n = m := by
    have j2 := inv.job.no; have j3 := inv.job.ret; have q2 := sq.last
    intro n m hn hm
    grind [Pending]
  rw [← hl, startNos_append, List.length_append]
  refine ⟨?_, ?_⟩
  · match hm : startNos l with
    | [] => simp
    | [_] => simp
    | a :: b :: r =>
      rw [hm] at hpend nd
      have := huniq a b (hpend a (by simp)) (hpend b (by simp))
      have := (List.nodup_append.1 nd).2.1
      simp_all
  · rintro ⟨x, hx, hf⟩
    obtain ⟨j, hj⟩ := List.mem_iff_getElem?.1 hx
    match hm : startNos l with
    | [] => simp
    | a :: r =>
      have := hpend a (by simp [hm])
      have j3 := inv.job.ret; have q2 := sq.last
      grind [Pending]

/-- Non-vacuity of `C44_pending_partial`, `C44_delay_partial`: a task is stopped while a job runs. -/
example : ∃ s, Reach .delay 5 7 s ∧ s.status = .stopped ∧ ∃ x ∈ s.jobs, x.fn = .running :=
  ⟨_, ⟨_, rfl, [.start false, .handStart, .consCheck, .consNext, .runBegin 0, .jobStart 0, .stop false], rfl⟩, by decide,
    by decide⟩

/-! ## C45 Running jobs are told to cancel -/

/-- C45: in every state reached after `Stop`, the cancel channel of a running job is closed, or the goroutine in
`runJob` can make a step that closes it. -/
theorem C45_stop (kind : Kind) (interval timeout : Int) (s : State) (h : Reach kind interval timeout s)
    (hs : ∃ m, Ev.stopRes m .ok ∈ s.log) (j : Nat) (x : Job) (hj : s.jobs[j]? = some x) (hx : x.fn = .running) :
    Ev.cancel x.no ∈ s.log ∨ ∃ s', step s (.selStop j) = some s' ∧ Ev.cancel x.no ∈ s'.log := by
  have inv := reach_inv h
  have hsig := inv.life.sig.2 (inv.life.sp.1 hs)
  have hno := inv.job.no j x hj
  cases hd : x.done with
  | true => exact .inl (hno ▸ inv.job.can1 j x hj hd)
  | false =>
    have hpc : x.pc = .sel := by
      have h1 := inv.job.ret j x hj; have h2 := inv.job.beg j x hj; have h3 := inv.job.fin j x hj
      cases hp : x.pc <;> simp_all
    refine .inr ⟨_, by simp only [step, hj, hpc, hsig, and_self, if_true]; rfl, ?_⟩
    simp [State.setJob, cancelEv, hd]

/-- C45: the same if the timeout of the job has passed. -/
theorem C45_timeout (kind : Kind) (interval timeout : Int) (s : State) (h : Reach kind interval timeout s)
    (j : Nat) (x : Job) (hj : s.jobs[j]? = some x) (hx : x.fn = .running) (ht : x.deadline ≤ s.now) :
    Ev.cancel x.no ∈ s.log ∨ ∃ s', step s (.ctxTimeout j) = some s' ∧ Ev.cancel x.no ∈ s'.log := by
  have inv := reach_inv h
  have hno := inv.job.no j x hj
  cases hd : x.done with
  | true => exact .inl (hno ▸ inv.job.can1 j x hj hd)
  | false =>
    have hpc : x.pc ≠ .begin := inv.job.beg' j x hj (by simp [hx])
    refine .inr ⟨_, by simp only [step, hj, hpc, hd, ht, ne_eq, not_false_eq_true, and_self, if_true]; rfl, ?_⟩
    simp [State.setJob, cancelEv, hd]

/-- C45: `runJob` begins before the job function is called and sets the deadline to `timeout` later. -/
theorem C45_deadline (kind : Kind) (interval timeout : Int) (s s' : State) (h : Reach kind interval timeout s) (j : Nat)
    (hs : step s (.runBegin j) = some s') :
    ∃ x y : Job, s.jobs[j]? = some x ∧ x.fn = .notStarted ∧ s'.jobs[j]? = some y ∧ (y.deadline : Int) = s.now + timeout := by
  have hc := (reach_const h).2.2
  have hb := (reach_inv h).job.beg
  simp only [step, State.setJob] at hs
  split at hs <;> [skip; simp at hs]
  rename_i x hx
  split at hs <;> [skip; simp at hs]
  rename_i hp
  simp at hs; subst hs
  refine ⟨x, { x with pc := .sel, deadline := s.now + s.timeout }, hx, (hb j x hx hp).1, by grind, ?_⟩
  simp; omega

/-- C45: nothing else changes the deadline of a job. -/
theorem C45_deadline_const (s s' : State) (a : Action) (j : Nat) (x : Job) (ha : a ≠ .runBegin j)
    (hx : s.jobs[j]? = some x) (hs : step s a = some s') : ∃ y, s'.jobs[j]? = some y ∧ y.deadline = x.deadline := by
  cases a <;> simp only [step, State.setJob] at hs <;> (repeat' split at hs) <;> simp at hs <;> subst hs <;>
    grind [Job.finish]

/-- C45: the goroutine in `runJob` returns only after the job function has returned; a FixedDelayTask goes on to the next
job only then. -/
theorem C45_waits (kind : Kind) (interval timeout : Int) (s : State) (h : Reach kind interval timeout s)
    (j : Nat) (x : Job) (hj : s.jobs[j]? = some x) (hx : x.pc = .ret) :
    x.fn = .returned ∧ ∃ t, Ev.jobEnd x.no t ∈ s.log := by
  have inv := reach_inv h
  have := (inv.job.ret j x hj hx).1
  exact ⟨this, inv.job.no j x hj ▸ inv.job.fnd1 j x hj this⟩

/-- C45: the cancel channel of a job is closed only after `Stop`, or at or after its deadline, or after the job
returned. -/
theorem C45_not_before (kind : Kind) (interval timeout : Int) (s : State) (h : Reach kind interval timeout s)
    (n : Nat) (hc : Ev.cancel n ∈ s.log) :
    (∃ m, Ev.stopRes m .ok ∈ s.log) ∨ (∃ x ∈ s.jobs, x.no = n ∧ x.deadline ≤ s.now) ∨ (∃ t, Ev.jobEnd n t ∈ s.log) := by
  have inv := reach_inv h
  obtain ⟨hn, x, hx, hd⟩ := inv.job.can2 n hc
  have hno : x.no = n := by rw [inv.job.no _ x hx]; omega
  rcases inv.job.why _ x hx hd with h1 | h1 | h1
  · exact .inl (inv.life.sp.2 (inv.life.sig.1 h1))
  · exact .inr (.inl ⟨x, List.mem_iff_getElem?.2 ⟨_, hx⟩, hno, h1⟩)
  · obtain ⟨t, ht⟩ := inv.job.fnd1 _ x hx h1
    exact .inr (.inr ⟨t, by rwa [show n - 1 + 1 = n by omega] at ht⟩)

/-- Non-vacuity of C45: a running job gets cancelled by `Stop`, and one by its timeout. -/
example : ∃ s, Reach .delay 5 7 s ∧ Ev.stopRes false .ok ∈ s.log ∧ Ev.cancel 1 ∈ s.log ∧ ∃ x ∈ s.jobs, x.fn = .running :=
  ⟨_, ⟨_, rfl, [.start false, .handStart, .consCheck, .consNext, .runBegin 0, .jobStart 0, .stop false, .selStop 0], rfl⟩,
    by decide⟩

example : ∃ s, Reach .rate 5 7 s ∧ s.status = .started ∧ Ev.cancel 1 ∈ s.log ∧ ∃ x ∈ s.jobs, x.fn = .running :=
  ⟨_, ⟨_, rfl, [.start false, .handProv, .consCheck, .consNext, .runBegin 0, .jobStart 0, .pass 7, .ctxTimeout 0], rfl⟩,
    by decide⟩

/-- Non-vacuity of `C45_stop`, `C45_timeout`: running jobs whose cancel channel is not closed yet. -/
example : ∃ s, Reach .rate 5 7 s ∧ s.status = .stopped ∧ Ev.cancel 1 ∉ s.log ∧ ∃ x ∈ s.jobs, x.fn = .running ∧ x.deadline ≤ s.now :=
  ⟨_, ⟨_, rfl, [.start false, .handProv, .consCheck, .consNext, .runBegin 0, .jobStart 0, .pass 7, .stop true], rfl⟩,
    by decide⟩

/-! ## C46 FixedRateTask -/

/-- C46: a FixedRateTask starts at most one job more than the ticks it received; the numbers of the jobs are distinct
and between 1 and that bound. -/
theorem C46_bound (interval timeout : Int) (s : State) (h : Reach .rate interval timeout s) :
    (startNos s.log).length ≤ 1 + ticks s.log ∧ (startNos s.log).Nodup ∧
    ∀ n ∈ startNos s.log, 1 ≤ n ∧ n ≤ 1 + ticks s.log := by
  have inv := reach_inv h
  have hb := (inv.rate (reach_const h).1).bound
  have hno : s.no ≤ 1 + ticks s.log := by split at hb <;> split at hb <;> split at hb <;> omega
  have hmem : ∀ n ∈ startNos s.log, 1 ≤ n ∧ n ≤ s.no := by
    intro n hn
    obtain ⟨t, ht⟩ := (mem_startNos _ _).1 hn
    obtain ⟨h1, x, hx, -⟩ := inv.job.sta2 n t ht
    have := (List.getElem?_eq_some_iff.1 hx).1
    have := inv.job.len
    omega
  refine ⟨?_, inv.nodup, fun n hn => ⟨(hmem n hn).1, by have := (hmem n hn).2; omega⟩⟩
  have hsub : startNos s.log ⊆ List.range' 1 s.no := by
    intro n hn
    have := hmem n hn
    exact List.mem_range'_1.2 ⟨this.1, by omega⟩
  have := (List.subperm_of_subset inv.nodup hsub).length_le
  simp at this; omega

/-- C46: while a FixedRateTask is not stopped, a job offered by the provider is taken and submitted within at most five
steps of the consumer, none of which waits for a job. -/
theorem C46_submission (interval timeout : Int) (s : State) (h : Reach .rate interval timeout s)
    (hs : s.status = .started) (hp : s.prov = .first ∨ s.prov = .send) :
    ∃ as s', as.length ≤ 5 ∧ (∀ a ∈ as, a = .consCheck ∨ a = .consNext ∨ a = .handProv) ∧ .handProv ∈ as ∧
      exec step s as = some s' ∧ s'.prov = .loop ∧ s'.cons = .wait ∧ s.no < s'.no := by
  have inv := reach_inv h
  have hk := (reach_const h).1
  have hst : s.starting = false := by
    have := inv.life.start; have := inv.life.rate hk
    cases hh : s.starting <;> simp_all
  rcases hc : s.cons with _ | _ | _ | _ | j | _
  · have := inv.life.cons.1 hc; simp [hs] at this
  · exact ⟨[.handProv, .consCheck, .consNext], _, by simp, by simp, by simp,
      by simp [exec, step, hc, hp, hst, hs, hk]; rfl, rfl, rfl, by simp⟩
  · exact ⟨[.consCheck, .consNext, .handProv, .consCheck, .consNext], _, by simp, by simp, by simp,
      by simp [exec, step, hc, hp, hst, hs, hk]; rfl, rfl, rfl, by simp; omega⟩
  · exact ⟨[.consNext, .handProv, .consCheck, .consNext], _, by simp, by simp, by simp,
      by simp [exec, step, hc, hp, hst, hs, hk]; rfl, rfl, rfl, by simp; omega⟩
  · exact absurd hc ((inv.life.rate hk).2 j)
  · have := inv.life.dn (.inl hc); simp [hs] at this

/-- C46: the goroutine of a submitted job can always go on to call the job function, whatever other jobs do. -/
theorem C46_job_starts (s : State) (j : Nat) (x : Job) (hx : s.jobs[j]? = some x) (hp : x.pc = .begin)
    (hf : x.fn = .notStarted) : ∃ s', exec step s [.runBegin j, .jobStart j] = some s' ∧ Ev.jobStart x.no s.now ∈ s'.log := by
  have hl := (List.getElem?_eq_some_iff.1 hx).1
  have h1 : step s (.runBegin j) = some (s.setJob j { x with pc := .sel, deadline := s.now + s.timeout } []) := by
    simp only [step, hx, hp, if_true]
  have h2 : (s.setJob j { x with pc := .sel, deadline := s.now + s.timeout } []).jobs[j]? =
      some { x with pc := .sel, deadline := s.now + s.timeout } := by
    simp [State.setJob, hl]
  refine ⟨_, by simp only [exec, h1]; simp only [step, h2]; simp only [hf, ne_eq, reduceCtorEq, not_false_eq_true, and_self, if_true]; rfl, ?_⟩
  simp [State.setJob]

/-- Non-vacuity: the second job starts while the first is running. -/
example : ∃ s, Reach .rate 5 7 s ∧ startNos s.log = [1, 2] ∧ ticks s.log = 1 ∧ (s.jobs.map Job.fn) = [.running, .running] :=
  ⟨_, ⟨_, rfl, [.start false, .handProv, .consCheck, .consNext, .runBegin 0, .jobStart 0, .tickerFire, .provTick, .handProv,
    .consCheck, .consNext, .runBegin 1, .jobStart 1], rfl⟩, by decide⟩

/-! ## C47 Stopping leaves no goroutine behind -/

theorem stopped_step (s : State) (a : Action) (s' : State) (hs : s.status = .stopped) (h : step s a = some s') :
    s'.status = .stopped := by
  cases a <;> simp only [step, State.setJob] at h <;> (repeat' split at h) <;> simp at h <;> subst h <;> simp_all

/-- C47: from every state after `Stop`, the consumer, the provider, the timers and the jobs can all finish. -/
theorem C47_can_finish (kind : Kind) (interval timeout : Int) (s : State) (h : Reach kind interval timeout s)
    (hs : s.status = .stopped) :
    ∃ as s', exec step s as = some s' ∧ (∀ a ∈ as, Internal a ∨ ∃ dt, a = .pass dt) ∧ Quiet s' := by
  have inv := reach_inv h
  clear h
  generalize hw : weight s = w
  induction w using Nat.strongRecOn generalizing s with
  | ind w ih =>
    by_cases hq : Quiet s
    · exact ⟨[], s, rfl, by simp, hq⟩
    · obtain ⟨dt, a, s2, ha, h2⟩ := progress s inv.life inv.job hs (run_lt inv) hq
      have h1 : step s (.pass dt) = some { s with now := s.now + dt } := rfl
      have inv1 := inv_step _ _ _ inv h1
      have hlt : weight s2 < weight s := weight_step { s with now := s.now + dt } _ _ inv1.life inv1.job hs ha h2
      obtain ⟨as, s', he, hA, hQ⟩ := ih (weight s2) (hw ▸ hlt) s2 (stopped_step { s with now := s.now + dt } a s2 hs h2) (inv_step _ _ _ inv1 h2) rfl
      refine ⟨.pass dt :: a :: as, s', by simp only [exec, h1, h2, he], ?_, hQ⟩
      intro b hb
      rcases List.mem_cons.1 hb with rfl | hb
      · exact .inr ⟨_, rfl⟩
      · rcases List.mem_cons.1 hb with rfl | hb
        · exact .inl ha
        · exact hA b hb

/-- C47: none is blocked for ever: as long as not all have finished, some step of theirs is enabled (timers: when time
has passed). -/
theorem C47_not_blocked (kind : Kind) (interval timeout : Int) (s : State) (h : Reach kind interval timeout s)
    (hs : s.status = .stopped) (hq : ¬ Quiet s) :
    ∃ dt a s', Internal a ∧ exec step s [.pass dt, a] = some s' := by
  have inv := reach_inv h
  obtain ⟨dt, a, s2, ha, h2⟩ := progress s inv.life inv.job hs (run_lt inv) hq
  refine ⟨dt, a, s2, ha, ?_⟩
  have h1 : step s (.pass dt) = some { s with now := s.now + dt } := rfl
  simp only [exec, h1, h2]

instance : DecidablePred Quiet := fun s => by unfold Quiet; infer_instance

instance : DecidablePred Internal := fun a => by cases a <;> simp only [Internal] <;> infer_instance

/-- C47: and they cannot go on for ever: however they are scheduled, they make at most `weight s` steps (a number that
depends only on the state at the time of `Stop`); calls of the methods and the passing of time in between do not add to
it. -/
theorem C47_terminates (kind : Kind) (interval timeout : Int) (s : State) (h : Reach kind interval timeout s)
    (hs : s.status = .stopped) (as : List Action) (s' : State) (he : exec step s as = some s') :
    (as.filter (Internal ·)).length ≤ weight s := by
  have inv := reach_inv h
  clear h
  induction as generalizing s with
  | nil => simp
  | cons a as ih =>
    simp only [exec] at he
    split at he <;> [skip; simp at he]
    rename_i s1 h1
    have := ih s1 (stopped_step _ a s1 hs h1) he (inv_step _ _ _ inv h1)
    by_cases ha : Internal a
    · have := weight_step s a s1 inv.life inv.job hs ha h1
      simp [ha]; omega
    · have : weight s1 = weight s := by
        cases a <;> simp only [Internal, not_true_eq_false] at ha
        all_goals
          simp only [step, hs] at h1
          (repeat' split at h1) <;> simp at h1 <;> subst h1 <;> rfl
      simp [ha]; omega

/-- Non-vacuity: a stopped task with a timer running, and one with a running job, are not quiet. -/
example : ∃ s, Reach .delay 5 7 s ∧ s.status = .stopped ∧ ¬ Quiet s :=
  ⟨_, ⟨_, rfl, [.start false, .handStart, .consCheck, .consNext, .runBegin 0, .jobStart 0, .jobEnd 0, .selFin 0, .consSpawn,
    .futArm 0, .stop false, .consAbort], rfl⟩, by decide, by decide⟩

end Gears.Schedule
