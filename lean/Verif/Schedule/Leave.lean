import Verif.Schedule.Props

/-
C151: jobs that do not come back.  `runJob` (schedule/task.go:98-139) waits for `fin`, which only the goroutine of the job closes, after
the job function has returned (108-113).  A job function that hangs, or that ends its goroutine with `runtime.Goexit`, never gets there:
its `jobEnd` does not happen.  A job function that panics ends the process (nothing recovers).
-/

namespace Gears.Schedule

/-- Steps of `runJob` and of the goroutine of the `j`-th job. -/
def Action.onJob (j : Nat) : Action → Bool
  | .runBegin i | .jobStart i | .jobEnd i | .ctxTimeout i | .selDone i | .selStop i | .selFin i | .runFin i => i == j
  | _ => false

/-- What the log says about job number `n`. -/
def Ev.onJob (n : Nat) : Ev → Bool
  | .jobStart m _ | .jobEnd m _ | .cancel m => m == n
  | _ => false

/-- Number of jobs the log has seen starting. -/
def startsOf (l : List Ev) : Nat := l.countP fun e => match e with
  | .jobStart _ _ => true
  | _ => false

/-- **C151**, the claim: a job that does not come back does not hold up its task: from every moment at which it runs, the next job can
still be started without its return. -/
def C151Claim (kind : Kind) : Prop :=
  ∀ (interval timeout : Int) (s : State) (j : Nat) (x : Job), Reach kind interval timeout s → s.status = .started → s.jobs[j]? = some x → x.fn = .running →
    ∃ as s', (∀ a ∈ as, a ≠ .jobEnd j) ∧ exec step s as = some s' ∧ startsOf s.log < startsOf s'.log

theorem startsOf_append (a b : List Ev) : startsOf (a ++ b) = startsOf a + startsOf b := List.countP_append

/-- The job runs, and the consumer waits for it. -/
structure Stuck (j n l : Nat) (s : State) : Prop where
  kind : s.kind = .delay
  st   : s.status ≠ .new
  cons : s.cons = .run j
  len  : s.jobs.length = l
  num  : startsOf s.log = n
  run  : ∃ x, s.jobs[j]? = some x ∧ x.fn = .running ∧ x.pc ≠ .ret
  rest : ∀ (i : Nat) x, s.jobs[i]? = some x → i ≠ j → x.fn ≠ .notStarted

theorem startsOf_nil : startsOf [] = 0 := rfl
theorem startsOf_cancel (n : Nat) : startsOf [.cancel n] = 0 := rfl
theorem startsOf_end (n t : Nat) : startsOf [.jobEnd n t] = 0 := rfl
theorem startsOf_tick : startsOf [.tick] = 0 := rfl
theorem startsOf_close : startsOf [.closePanic] = 0 := rfl
theorem startsOf_startRes (b : Bool) (r : Res) : startsOf [.startRes b r] = 0 := rfl
theorem startsOf_stopRes (b : Bool) (r : Res) : startsOf [.stopRes b r] = 0 := rfl

set_option maxHeartbeats 4000000 in
theorem stuck_step {j n l : Nat} (s : State) (a : Action) (s' : State) (h : Stuck j n l s) (ha : a ≠ .jobEnd j) (hs : step s a = some s') :
    Stuck j n l s' := by
  obtain ⟨h1, h2, h3, h4, h5, h6, h7⟩ := h
  cases a <;> simp only [step, State.setJob] at hs <;> (repeat' split at hs) <;> simp at hs <;> subst hs <;>
    (refine ⟨?_, ?_, ?_, ?_, ?_, ?_, ?_⟩ <;> grind [cancelEv, Job.finish, startsOf_append, startsOf_nil, startsOf_cancel, startsOf_end, startsOf_tick, startsOf_close,
      startsOf_startRes, startsOf_stopRes])

/-- **C151, violated**: a job of a FixedDelayTask that does not come back holds up its task for good: whatever happens (its timeout passes, the task is stopped),
no other job starts, and the consumer stays in `runJob`. -/
theorem C151_delay_violated (interval timeout : Int) (s : State) (j : Nat) (x : Job) (h : Reach .delay interval timeout s) (hx : s.jobs[j]? = some x)
    (hf : x.fn = .running) (as : List Action) (s' : State) (has : ∀ a ∈ as, a ≠ .jobEnd j) (he : exec step s as = some s') :
    s'.cons = .run j ∧ s'.jobs.length = s.jobs.length ∧ startsOf s'.log = startsOf s.log := by
  have inv := reach_inv h
  obtain ⟨sq, -, -⟩ := inv.delay (reach_const h).1
  have notRet : ∀ (i : Nat) y, s.jobs[i]? = some y → y.fn ≠ .returned → s.cons = .run i := by
    intro i y hy hn
    exact sq.last i y hy fun hr => hn (inv.job.ret i y hy hr).1
  have hc := notRet j x hx (by simp [hf])
  have h0 : Stuck j (startsOf s.log) s.jobs.length s := by
    refine ⟨(reach_const h).1, ?_, hc, rfl, rfl, ⟨x, hx, hf, fun hr => by simp [(inv.job.ret j x hx hr).1] at hf⟩, ?_⟩
    · intro hn
      have := (inv.life.fresh (.inr hn)).2.1
      simp [this] at hx
    · intro i y hy hij hn
      have := notRet i y hy (by simp [hn])
      rw [hc] at this
      simp at this
      exact hij this.symm
  have := exec_inv_on (I := Stuck j (startsOf s.log) s.jobs.length) (P := fun a => a ≠ .jobEnd j)
    (fun s a s' ha hi hs => stuck_step s a s' hi ha hs) as s s' has h0 he
  exact ⟨this.cons, this.len, this.num⟩

/-- So the claim is false for FixedDelayTask. -/
theorem C151_violated : ¬ C151Claim .delay := by
  intro h
  have hr : Reach .delay 5 7 _ := ⟨_, rfl, [.start false, .handStart, .consCheck, .consNext, .runBegin 0, .jobStart 0], rfl⟩
  obtain ⟨as, s', h1, h2, h3⟩ := h 5 7 _ 0 _ hr rfl rfl rfl
  have := (C151_delay_violated 5 7 _ 0 _ hr rfl rfl as s' h1 h2).2.2
  omega

theorem startsOf_start (n t : Nat) : startsOf [.jobStart n t] = 1 := rfl

/-- **C151, partial**: a FixedRateTask goes on. -/
theorem C151_rate_partial : C151Claim .rate := by
  intro interval timeout s j x h hst hx hf
  have inv := reach_inv h
  have hk := (reach_const h).1
  have hsig : s.stopSig = false := by
    have := inv.life.sig
    rw [hst] at this
    simpa using this
  have hnst : s.starting = false := by
    cases hb : s.starting
    · rfl
    · have := (inv.life.start hb).1
      rw [hk] at this; cases this
  have hj : j < s.jobs.length := (List.getElem?_eq_some_iff.1 hx).1
  -- from the moment at which the consumer has checked the status
  have A : ∀ s : State, s.kind = .rate → s.starting = false → s.cons = .checked → j < s.jobs.length →
      ∃ as s', (∀ a ∈ as, a ≠ .jobEnd j) ∧ exec step s as = some s' ∧ startsOf s.log < startsOf s'.log := by
    intro s hk hs hc hj
    refine ⟨[.consNext, .runBegin s.jobs.length, .jobStart s.jobs.length], ?_⟩
    simp [exec, step, hk, hs, hc, State.setJob, startsOf_append, startsOf_start]
  have B : ∀ s : State, s.kind = .rate → s.starting = false → s.status = .started → s.cons = .got → j < s.jobs.length →
      ∃ as s', (∀ a ∈ as, a ≠ .jobEnd j) ∧ exec step s as = some s' ∧ startsOf s.log < startsOf s'.log := by
    intro s hk hs ht hc hj
    obtain ⟨as, s', h1, h2, h3⟩ := A { s with cons := .checked } hk hs rfl hj
    exact ⟨.consCheck :: as, s', by simpa using h1, by simpa [exec, step, hc, hs, ht] using h2, h3⟩
  have C : ∀ s : State, s.kind = .rate → s.starting = false → s.status = .started → s.cons = .wait → (s.prov = .first ∨ s.prov = .send) → j < s.jobs.length →
      ∃ as s', (∀ a ∈ as, a ≠ .jobEnd j) ∧ exec step s as = some s' ∧ startsOf s.log < startsOf s'.log := by
    intro s hk hs ht hc hp hj
    obtain ⟨as, s', h1, h2, h3⟩ := B { s with prov := .loop, cons := .got } hk hs ht rfl hj
    exact ⟨.handProv :: as, s', by simpa using h1, by simpa [exec, step, hc, hp] using h2, h3⟩
  rcases hc : s.cons with _ | _ | _ | _ | i | _
  · have := inv.life.cons.1 hc
    rw [hst] at this; cases this
  · rcases hp : s.prov with _ | _ | _ | _ | _
    · have := inv.life.prov.1 hp
      rw [hst, hk] at this
      simp at this
    · exact C s hk hnst hst hc (.inl hp) hj
    · obtain ⟨as, s', h1, h2, h3⟩ := C { s with prov := .send, tickBuf := false, log := s.log ++ [.tick] } hk hnst hst hc (.inr rfl) hj
      refine ⟨.tickerFire :: .provTick :: as, s', by simpa using h1, by simpa [exec, step, hk, hst, hp] using h2, ?_⟩
      simpa [startsOf_append, startsOf_tick] using h3
    · exact C s hk hnst hst hc (.inr hp) hj
    · have := inv.life.dn (.inr hp)
      rw [hst] at this; cases this
  · exact B s hk hnst hst hc hj
  · exact A s hk hnst hc hj
  · exact absurd hc ((inv.life.rate hk).2 i)
  · have := inv.life.dn (.inl hc)
    rw [hst] at this; cases this

/-! ### A job of a FixedRateTask does not matter to the rest -/

/-- Two states of a FixedRateTask that differ at most in the `j`-th job, whose number is `n`, and in what the log says
about it; in the second one it is `x0`. -/
structure Same (j n : Nat) (x0 : Job) (s t : State) : Prop where
  rest : { s with jobs := [], log := [] } = { t with jobs := [], log := [] }
  len  : s.jobs.length = t.jobs.length
  has  : j < s.jobs.length
  jobs : ∀ i : Nat, i ≠ j → s.jobs[i]? = t.jobs[i]?
  log  : s.log.filter (fun e => !e.onJob n) = t.log.filter (fun e => !e.onJob n)
  num  : ∀ x, s.jobs[j]? = some x → x.no = n
  rate : s.kind = .rate
  nrun : ∀ i, s.cons ≠ .run i
  froz : t.jobs[j]? = some x0

set_option maxHeartbeats 4000000 in
theorem same_step {j n : Nat} {x0 : Job} {s t s' : State} (hS : Same j n x0 s t) (a : Action) (ha : a.onJob j = false) (h : step s a = some s') :
    ∃ t', step t a = some t' ∧ Same j n x0 s' t' := by
  obtain ⟨k, iv, tmo, now, st, sig, sg, no, cons, prov, futs, tb, js, ls⟩ := s
  obtain ⟨k', iv', tmo', now', st', sig', sg', no', cons', prov', futs', tb', jt, lt⟩ := t
  obtain ⟨h1, h2, h3, h4, h5, h6, h7, h8, h9⟩ := hS
  simp only [State.mk.injEq, and_true] at h1
  obtain ⟨rfl, rfl, rfl, rfl, rfl, rfl, rfl, rfl, rfl, rfl, rfl, rfl⟩ := h1
  simp only at h2 h3 h4 h5 h6 h7 h8 h9
  subst h7
  have app : ∀ (x : Job) (i : Nat), i ≠ j → (js ++ [x])[i]? = (jt ++ [x])[i]? := by
    intro x i hi
    rw [List.getElem?_append, List.getElem?_append, h2, h4 i hi]
  have set : ∀ (x : Job) (k i : Nat), i ≠ j → (js.set k x)[i]? = (jt.set k x)[i]? := by
    intro x k i hi
    rw [List.getElem?_set, List.getElem?_set, h2, h4 i hi]
  have num : ∀ (x : Job) (k : Nat), k ≠ j → ∀ y, (js.set k x)[j]? = some y → y.no = n := by
    intro x k hk y hy
    rw [List.getElem?_set_ne hk] at hy
    exact h6 y hy
  have num' : ∀ (x y : Job), (js ++ [x])[j]? = some y → y.no = n := by
    intro x y hy
    rw [List.getElem?_append_left h3] at hy
    exact h6 y hy
  have fr : ∀ (x : Job) (k : Nat), k ≠ j → (jt.set k x)[j]? = some x0 := by
    intro x k hk
    rw [List.getElem?_set_ne hk]
    exact h9
  have fr' : ∀ (x : Job), (jt ++ [x])[j]? = some x0 := by
    intro x
    rw [List.getElem?_append_left (by omega)]
    exact h9
  have logs : ∀ l : List Ev, (ls ++ l).filter (fun e => !e.onJob n) = (lt ++ l).filter (fun e => !e.onJob n) := by
    intro l
    rw [List.filter_append, List.filter_append, h5]
  cases a <;> simp only [step, State.setJob, Action.onJob, beq_eq_false_iff_ne] at h ha ⊢ <;>
    (try rw [← h4 _ ha]) <;>
    (repeat' split at h) <;> (try (simp at h; done)) <;> simp only [Option.some.injEq] at h <;> subst h <;>
    (try rename_i hq; rw [hq]; simp only) <;>
    (try rw [if_pos (by assumption)]) <;> (try rw [if_neg (by assumption)]) <;>
    (try rw [if_pos (by assumption)]) <;> (try rw [if_neg (by assumption)]) <;>
    (try exact ⟨_, rfl, ⟨rfl, by simp [h2], by simp; omega, by first | exact h4 | exact app _ | exact set _ _, by first | exact h5 | exact logs _,
      by first | exact h6 | exact num' _ | exact num _ _ ha, rfl, by first | exact h8 | simp, by first | exact h9 | exact fr' _ | exact fr _ _ ha⟩⟩)

theorem onJob_num {n : Nat} {x : Job} (h : x.no = n) : (cancelEv x).filter (fun e => !e.onJob n) = [] := by
  unfold cancelEv
  split <;> simp [Ev.onJob, h]

set_option maxHeartbeats 4000000 in
/-- A step of job `j` itself is not seen by the rest. -/
theorem same_skip {j n : Nat} {x0 : Job} {s t s' : State} (hS : Same j n x0 s t) (a : Action) (ha : a.onJob j = true) (h : step s a = some s') :
    Same j n x0 s' t := by
  obtain ⟨h1, h2, h3, h4, h5, h6, h7, h8, h9⟩ := hS
  have set : ∀ (x : Job) (l : List Ev), x.no = n → l.filter (fun e => !e.onJob n) = [] → Same j n x0 (s.setJob j x l) t := by
    intro x l hx hl
    refine ⟨by rw [← h1]; rfl, by simpa [State.setJob] using h2, by simpa [State.setJob] using h3, ?_, ?_, ?_, h7, h8, h9⟩
    · intro i hi
      rw [← h4 i hi]
      simp only [State.setJob]
      exact List.getElem?_set_ne (Ne.symm hi)
    · simp [State.setJob, List.filter_append, hl, h5]
    · intro y hy
      simp only [State.setJob] at hy
      rw [List.getElem?_set_self h3] at hy
      cases hy
      exact hx
  cases a <;> simp only [step, Action.onJob, beq_iff_eq, Bool.false_eq_true] at h ha <;> subst ha <;>
    (repeat' split at h) <;> (try (simp at h; done)) <;> simp only [Option.some.injEq] at h <;> subst h <;>
    rename_i x hx _ <;> have hn := h6 x hx <;> refine set _ _ ?_ ?_ <;> (try exact hn) <;> (try exact onJob_num hn) <;> simp [Ev.onJob, hn]

theorem same_exec {j n : Nat} {x0 : Job} (as : List Action) : ∀ s t s' : State, Same j n x0 s t → exec step s as = some s' →
    ∃ t', exec step t (as.filter fun a => !a.onJob j) = some t' ∧ Same j n x0 s' t' := by
  induction as with
  | nil =>
    intro s t s' hS h
    cases h
    exact ⟨t, rfl, hS⟩
  | cons a as ih =>
    intro s t s' hS h
    simp only [exec] at h
    rcases hs : step s a with _ | s1
    · simp [hs] at h
    · simp only [hs] at h
      cases ha : a.onJob j
      · obtain ⟨t1, h1, h2⟩ := same_step hS a ha hs
        obtain ⟨t', h3, h4⟩ := ih s1 t1 s' h2 h
        refine ⟨t', ?_, h4⟩
        simp [ha, exec, h1, h3]
      · obtain ⟨t', h3, h4⟩ := ih s1 t s' (same_skip hS a ha hs) h
        refine ⟨t', ?_, h4⟩
        simp [ha, h3]

/-- **C151, partial**: what becomes of a job of a FixedRateTask is of no account to everything else: every continuation is also one in which that job stays
where it is for good (hangs, or has not come to its first step), with the same other jobs at the same times, the same `Start`s, `Stop`s and
ticks. -/
theorem C151_others_partial (interval timeout : Int) (s : State) (j : Nat) (x : Job) (h : Reach .rate interval timeout s) (hx : s.jobs[j]? = some x)
    (as : List Action) (s' : State) (he : exec step s as = some s') :
    ∃ t, exec step s (as.filter fun a => !a.onJob j) = some t ∧ t.jobs[j]? = some x ∧ t.jobs.length = s'.jobs.length ∧
      (∀ i, i ≠ j → t.jobs[i]? = s'.jobs[i]?) ∧ t.log.filter (fun e => !e.onJob x.no) = s'.log.filter (fun e => !e.onJob x.no) ∧
      t.status = s'.status ∧ t.cons = s'.cons ∧ t.prov = s'.prov ∧ t.now = s'.now := by
  have inv := reach_inv h
  have h0 : Same j x.no x s s :=
    ⟨rfl, rfl, (List.getElem?_eq_some_iff.1 hx).1, fun _ _ => rfl, rfl, fun y hy => by rw [hx] at hy; cases hy; rfl, (reach_const h).1,
      (inv.life.rate (reach_const h).1).2, hx⟩
  obtain ⟨t, h1, h2⟩ := same_exec as s s s' h0 he
  refine ⟨t, h1, h2.froz, h2.len.symm, fun i hi => (h2.jobs i hi).symm, h2.log.symm, ?_⟩
  have := h2.rest
  obtain ⟨k, iv, tmo, now, st, sig, sg, no, cons, prov, futs, tb, js, ls⟩ := s'
  obtain ⟨k', iv', tmo', now', st', sig', sg', no', cons', prov', futs', tb', jt, lt⟩ := t
  simp only [State.mk.injEq] at this
  obtain ⟨rfl, rfl, rfl, rfl, rfl, rfl, rfl, rfl, rfl, rfl, rfl, rfl, -⟩ := this
  exact ⟨rfl, rfl, rfl, rfl⟩

/-- The job and its `runJob` are there. -/
def Held (j : Nat) (s : State) : Prop := ∃ x, s.jobs[j]? = some x ∧ x.fn = .running ∧ x.pc ≠ .ret

set_option maxHeartbeats 4000000 in
theorem held_step {j : Nat} (s : State) (a : Action) (s' : State) (h : Held j s) (ha : a ≠ .jobEnd j) (hs : step s a = some s') : Held j s' := by
  unfold Held at h ⊢
  cases a <;> simp only [step, State.setJob] at hs <;> (repeat' split at hs) <;> simp at hs <;> subst hs <;> grind [Job.finish]

/-- **C151, violated**: neither the timeout nor `Stop` takes a job away that does not come back: its goroutine and the one that waits for it in `runJob`
stay. -/
theorem C151_held_violated (kind : Kind) (interval timeout : Int) (s : State) (j : Nat) (x : Job) (h : Reach kind interval timeout s) (hx : s.jobs[j]? = some x)
    (hf : x.fn = .running) (as : List Action) (s' : State) (has : ∀ a ∈ as, a ≠ .jobEnd j) (he : exec step s as = some s') :
    ∃ y, s'.jobs[j]? = some y ∧ y.fn = .running ∧ y.pc ≠ .ret := by
  have h0 : Held j s := ⟨x, hx, hf, fun hr => by simp [((reach_inv h).job.ret j x hx hr).1] at hf⟩
  exact exec_inv_on (I := Held j) (P := fun a => a ≠ .jobEnd j) (fun s a s' ha hi hs => held_step s a s' hi ha hs) as s s' has h0 he

/-- `n` jobs that do not come back, all over their timeout, and the next one about to be handed over. -/
structure Leak (n : Nat) (s : State) : Prop where
  kind : s.kind = .rate
  st   : s.status = .started
  sig  : s.stopSig = false
  lock : s.starting = false
  cons : s.cons = .wait
  prov : s.prov = .first ∨ s.prov = .send
  len  : s.jobs.length = n
  jobs : ∀ (i : Nat) (x : Job), s.jobs[i]? = some x → x.fn = .running ∧ x.done = true ∧ x.pc = .waitFin

def leakRound (n timeout : Nat) : List Action :=
  [.handProv, .consCheck, .consNext, .runBegin n, .jobStart n, .pass timeout, .ctxTimeout n, .selDone n, .tickerFire, .provTick]

theorem leak_round (n : Nat) (s : State) (h : Leak n s) : ∃ s', exec step s (leakRound n s.timeout) = some s' ∧ Leak (n + 1) s' := by
  obtain ⟨k, iv, tmo, now, st, sig, sg, no, cons, prov, futs, tb, js, ls⟩ := s
  obtain ⟨rfl, rfl, rfl, rfl, rfl, hp, rfl, hj⟩ := h
  simp only at hp hj
  refine ⟨_, by
    simp [leakRound, exec, step, hp, State.setJob]
    exact rfl, ?_⟩
  refine ⟨rfl, rfl, rfl, rfl, rfl, .inr rfl, by simp, ?_⟩
  intro i x hx
  simp only at hx
  rcases Nat.lt_trichotomy i js.length with hi | hi | hi
  · rw [List.getElem?_append_left hi] at hx
    exact hj i x hx
  · subst hi
    simp at hx
    subst hx
    exact ⟨rfl, rfl, rfl⟩
  · rw [List.getElem?_eq_none (by simp; omega)] at hx
    cases hx

/-- **C151, violated**: and there is no bound on their number: a FixedRateTask can have any number of them, each over its timeout, when `Stop` has been called. -/
theorem C151_leak_violated (interval timeout : Int) (hi : 0 < interval) (ht : 0 < timeout) (n : Nat) :
    ∃ s, Reach .rate interval timeout s ∧ s.status = .stopped ∧ s.jobs.length = n ∧
      ∀ (i : Nat) (x : Job), s.jobs[i]? = some x → x.fn = .running ∧ x.done = true := by
  have key : ∀ n, ∃ s, Reach .rate interval timeout s ∧ Leak n s := by
    intro n
    induction n with
    | zero =>
      refine ⟨_, ⟨_, by unfold new; rw [if_neg (by omega), if_neg (by omega)], [.start false], rfl⟩, ⟨rfl, rfl, rfl, rfl, rfl, .inl rfl, rfl, ?_⟩⟩
      intro i x hx
      simp at hx
    | succ n ih =>
      obtain ⟨s, ⟨s0, h0, as, ha⟩, hl⟩ := ih
      obtain ⟨s', h1, h2⟩ := leak_round n s hl
      exact ⟨s', ⟨s0, h0, as ++ leakRound n s.timeout, by rw [exec_append, ha]; exact h1⟩, h2⟩
  obtain ⟨s, ⟨s0, h0, as, ha⟩, hl⟩ := key n
  refine ⟨{ s with status := .stopped, stopSig := true, log := s.log ++ [.stopRes false .ok] }, ⟨s0, h0, as ++ [.stop false], ?_⟩, rfl, hl.len, ?_⟩
  · rw [exec_append, ha]
    simp [exec, step, hl.lock, hl.st, hl.sig]
  · intro i x hx
    exact ⟨(hl.jobs i x hx).1, (hl.jobs i x hx).2.1⟩

/-- A process: its tasks; it runs until a job function panics (nothing in /repo but testutil recovers: the goroutine of task.go:105-127 has no
deferred `recover`). -/
structure Proc where
  alive : Bool
  tasks : List State

inductive PAct where
  | task (i : Nat) (a : Action)
  /-- job `j` of task `i` panics -/
  | panic (i j : Nat)

def pstep (p : Proc) : PAct → Option Proc
  | .task i a =>
    if p.alive then
      match p.tasks[i]? with
      | some s => (step s a).map fun s' => { p with tasks := p.tasks.set i s' }
      | none => none
    else none
  | .panic i j =>
    if p.alive then
      match p.tasks[i]? with
      | some s =>
        match s.jobs[j]? with
        | some x => if x.fn = .running then some { p with alive := false } else none
        | none => none
      | none => none
    else none

/-- The claim for panics: a panic in a job of one task leaves the other tasks able to do what they could do. -/
def C151PanicClaim : Prop :=
  ∀ (p p' : Proc) (i j k : Nat) (a : Action) (q : Proc), pstep p (.panic i j) = some p' → i ≠ k → pstep p (.task k a) = some q → ∃ q', pstep p' (.task k a) = some q'

/-- **C151, violated**: a job that panics stops every task of the process, in the middle of what their jobs do. -/
theorem C151_panic_violated (p p' : Proc) (i j : Nat) (h : pstep p (.panic i j) = some p') : p'.tasks = p.tasks ∧ ∀ a, pstep p' a = none := by
  simp only [pstep] at h
  (repeat' split at h) <;> simp at h
  subst h
  exact ⟨rfl, fun a => by cases a <;> rfl⟩

theorem C151_panic_claim_violated : ¬ C151PanicClaim := by
  intro h
  have hs : ∃ s, exec step ⟨.rate, 5, 7, 0, .new, false, false, 0, .none, .none, [], false, [], []⟩
      [.start false, .handProv, .consCheck, .consNext, .runBegin 0, .jobStart 0] = some s ∧ s.jobs[0]? = some ⟨1, 7, false, .running, .sel⟩ := ⟨_, rfl, rfl⟩
  obtain ⟨s, -, hs⟩ := hs
  have h1 : pstep ⟨true, [s, s]⟩ (.panic 0 0) = some ⟨false, [s, s]⟩ := by simp [pstep, hs]
  obtain ⟨q, hq⟩ := h _ _ 0 0 1 (.pass 1) ⟨true, [s, { s with now := s.now + 1 }]⟩ h1 (by decide) (by simp [pstep, step])
  cases hq

/-- The theorems speak about something: a FixedRateTask whose first job hangs while its second runs and comes back. -/
example : ∃ s, Reach .rate 5 7 s ∧ s.jobs = [⟨1, 7, false, .running, .sel⟩, ⟨2, 12, true, .returned, .ret⟩] :=
  ⟨_, ⟨_, rfl, [.start false, .handProv, .consCheck, .consNext, .runBegin 0, .jobStart 0, .pass 5, .tickerFire, .provTick, .handProv, .consCheck, .consNext,
    .runBegin 1, .jobStart 1, .jobEnd 1, .selFin 1], rfl⟩, rfl⟩

end Gears.Schedule
