import Verif.Schedule.Props

/-
Tasks in time (C127).

`Model.lean` lets the ticker of a FixedRateTask fire at any moment.  Here the ticker has its period: `tick` is the time at
which it is due (`when` of the runtime timer), and a value is put into its channel at that time or any time later.

`Prompt` are the executions on a machine with time to spare: time goes on only when no goroutine of the task, no timer and
no job goroutine can take a step.  Only the callers of `Start` and `Stop` and the job functions take their time.
-/

namespace Gears.Schedule

/-- A task, the time at which its ticker is due (`none`: not created, or stopped), and the time of the successful `Start`. -/
structure Timed where
  task  : State
  tick  : Option Nat
  since : Nat
deriving DecidableEq

/-- The next time of a ticker that was due at `w` and fires at `now` (package runtime, `runOneTimer`: the times that have
been missed are left out). -/
def nextTick (w now period : Nat) : Nat := w + period * (1 + (now - w) / period)

/-- `step` with the times of the ticker: `time.NewTicker` (fixed_rate_task.go 87), `ticker.Stop` (112). -/
def tstep (s : Timed) (a : Action) : Option Timed :=
  match step s.task a with
  | none => none
  | some t =>
    match a with
    | .start _ =>
      if s.task.status = .new then
        some ⟨t, if s.task.kind = .rate then some (s.task.now + s.task.interval) else none, s.task.now⟩
      else some ⟨t, s.tick, s.since⟩
    | .stop _ => if s.task.status = .started then some ⟨t, none, s.since⟩ else some ⟨t, s.tick, s.since⟩
    | .tickerFire =>
      match s.tick with
      | some w => if w ≤ s.task.now then some ⟨t, some (nextTick w s.task.now s.task.interval), s.since⟩ else none
      | none => none
    | _ => some ⟨t, s.tick, s.since⟩

/-- A new task at time 0. -/
def newTimed (kind : Kind) (interval timeout : Int) : Option Timed :=
  (new kind interval timeout).map fun t => ⟨t, none, 0⟩

/-- What a new task can reach. -/
def TReach (kind : Kind) (interval timeout : Int) (s : Timed) : Prop :=
  ∃ s0, newTimed kind interval timeout = some s0 ∧ Reachable tstep s0 s

/-- Steps that are not those of a caller of the task, of a job function or of the clock. -/
def Own : Action → Prop
  | .start _ | .stop _ | .jobEnd _ | .pass _ => False
  | _ => True

/-- No goroutine of the task can take a step, and no timer is due. -/
def Idle (s : Timed) : Prop := ∀ a, Own a → tstep s a = none

/-- Executions in which time goes on, by one unit, only when the task is idle. -/
inductive Prompt (kind : Kind) (interval timeout : Int) : Timed → Prop
  | new (s : Timed) : newTimed kind interval timeout = some s → Prompt kind interval timeout s
  | step (s s' : Timed) (a : Action) : Prompt kind interval timeout s → tstep s a = some s' →
      (∀ dt, a = .pass dt → dt = 1 ∧ Idle s) → Prompt kind interval timeout s'

/-! ## Timed tasks are tasks -/

theorem tstep_task {s s' : Timed} {a : Action} (h : tstep s a = some s') : step s.task a = some s'.task := by
  unfold tstep at h
  split at h
  · simp at h
  · rename_i t ht
    rw [ht]
    (repeat' split at h) <;> simp at h <;> subst h <;> rfl

theorem treach_reach {kind : Kind} {interval timeout : Int} {s : Timed} (h : TReach kind interval timeout s) :
    Reach kind interval timeout s.task := by
  obtain ⟨s0, h0, hr⟩ := h
  simp only [newTimed, Option.map_eq_some_iff] at h0
  obtain ⟨t, ht, rfl⟩ := h0
  refine ⟨t, ht, hr.inv (I := fun x => Reachable step t x.task) (Reachable.refl _) ?_⟩
  intro s a s' hs h
  exact hs.trans (Reachable.step a (tstep_task h))

theorem Prompt.treach {kind : Kind} {interval timeout : Int} {s : Timed} (h : Prompt kind interval timeout s) :
    TReach kind interval timeout s := by
  induction h with
  | new s h => exact ⟨s, h, Reachable.refl _⟩
  | step s s' a _ h _ ih =>
    obtain ⟨s0, h0, hr⟩ := ih
    exact ⟨s0, h0, hr.trans (Reachable.step a h)⟩

theorem new_pos {kind : Kind} {interval timeout : Int} {s : State} (h : Reach kind interval timeout s) :
    0 < s.interval := by
  obtain ⟨s0, h0, hr⟩ := h
  refine hr.inv (I := fun s => 0 < s.interval) ?_ ?_
  · simp only [new] at h0
    split at h0 <;> [simp at h0; split at h0] <;> simp at h0
    subst h0; simp; omega
  · intro s a s' hs h
    cases a <;> simp only [step, State.setJob] at h <;> (repeat' split at h) <;> simp at h <;> subst h <;> exact hs

/-! ## The invariants -/

/-- `n` intervals after `Start`. -/
def Timed.due (s : Timed) (n : Nat) : Nat := s.since + n * s.task.interval

/-- Jobs the consumer has taken but not yet given a goroutine, the provider has in hand, the ticker has in its channel. -/
def cPend (s : State) : Nat := if s.cons = .got ∨ s.cons = .checked then 1 else 0
def pPend (s : State) : Nat := if s.prov = .first ∨ s.prov = .send then 1 else 0
def bPend (s : State) : Nat := if s.tickBuf then 1 else 0

theorem due_le (s : Timed) {m n : Nat} (h : m ≤ n) : s.due m ≤ s.due n :=
  Nat.add_le_add_left (Nat.mul_le_mul_right _ h) _

theorem due_succ (s : Timed) (n : Nat) : s.due (n + 1) = s.due n + s.task.interval := by
  simp only [Timed.due, Nat.add_mul]; omega

theorem nextTick_ge (w now p : Nat) : w + p ≤ nextTick w now p := by
  unfold nextTick; rw [Nat.mul_add]; omega

/-- What a step of a timed task is, for the proofs: a `Start`, a `Stop`, a tick or another step. -/
theorem tstep_cases {s s' : Timed} {a : Action} (h : tstep s a = some s') :
    ((∃ m, a = .start m) ∧ s.task.status = .new ∧
      s'.tick = (if s.task.kind = .rate then some (s.task.now + s.task.interval) else none) ∧ s'.since = s.task.now) ∨
    ((∃ m, a = .stop m) ∧ s.task.status = .started ∧ s'.tick = none ∧ s'.since = s.since) ∨
    (a = .tickerFire ∧ (∃ w, s.tick = some w ∧ w ≤ s.task.now ∧ s'.tick = some (nextTick w s.task.now s.task.interval)) ∧
      s'.since = s.since) ∨
    (((∃ m, a = .start m) → s.task.status ≠ .new) ∧ ((∃ m, a = .stop m) → s.task.status ≠ .started) ∧ a ≠ .tickerFire ∧
      s'.tick = s.tick ∧ s'.since = s.since) := by
  unfold tstep at h
  split at h
  · simp at h
  · cases a <;> simp only [] at h <;> (repeat' split at h) <;> simp at h <;> subst h <;> simp_all

theorem step_const {s s' : State} {a : Action} (h : step s a = some s') :
    s'.interval = s.interval ∧ s'.kind = s.kind ∧ s'.timeout = s.timeout ∧ s.now ≤ s'.now ∧
    ((∀ dt, a ≠ .pass dt) → s'.now = s.now) := by
  cases a <;> simp only [step, State.setJob] at h <;> (repeat' split at h) <;> simp at h <;> subst h <;> simp

/-- Jobs that have been asked for: the pending ones and those with a goroutine. -/
def asked (s : State) : Nat := s.no + cPend s + pPend s + bPend s

set_option maxHeartbeats 4000000 in
theorem asked_step {s s' : State} {a : Action} (hk : s.kind = .rate) (lf : Life s) (h : step s a = some s')
    (ha : a ≠ .tickerFire) (hn : (∃ m, a = .start m) → s.status ≠ .new) : asked s' ≤ asked s := by
  obtain ⟨-, -, -, -, l5, l6, l7, l8, l9, -⟩ := lf
  cases a <;> simp only [step, State.setJob] at h <;> (repeat' split at h) <;> simp at h <;> subst h <;>
    simp only [asked, cPend, pPend, bPend] <;> grind

theorem jobStart_step {s s' : State} {a : Action} (ji : JobInv s) (h : step s a = some s') (n t : Nat)
    (hm : Ev.jobStart n t ∈ s'.log) : Ev.jobStart n t ∈ s.log ∨ (t = s.now ∧ 0 < n ∧ n ≤ s.no ∧ ∃ x, s.jobs[n - 1]? = some x ∧ x.fn = .notStarted) := by
  obtain ⟨j1, j2, -, -, -, -, -, -, -, -, -, -, -⟩ := ji
  cases a <;> simp only [step, State.setJob] at h <;> (repeat' split at h) <;> simp at h <;> subst h <;>
    grind [cancelEv]

/-- All executions of a FixedRateTask: `n` jobs take `n - 1` intervals. -/
structure Pace (s : Timed) : Prop where
  tick : ∀ w, s.tick = some w → s.due (asked s.task) ≤ w
  all  : ∀ n, n < asked s.task → s.due n ≤ s.task.now
  log  : ∀ n t, Ev.jobStart n t ∈ s.task.log → s.due (n - 1) ≤ t

theorem no_le_asked (s : State) : s.no ≤ asked s := by unfold asked; omega

theorem asked_new {s : State} (hk : s.kind = .rate) (lf : Life s) (hs : s.status = .new) (m : Bool) (s' : State)
    (h : step s (.start m) = some s') : asked s' = 1 := by
  have h1 := (lf.fresh (.inr hs)).2.2
  have h2 : s.starting = false := by
    cases hh : s.starting
    · rfl
    · have := (lf.start hh).2.1; simp [hs] at this
  simp [step, h2, hs, hk] at h
  subst h
  simp [asked, cPend, pPend, bPend, h1]

theorem asked_fire {s s' : State} (h : step s .tickerFire = some s') : asked s' ≤ asked s + 1 := by
  simp only [step] at h
  split at h <;> simp at h
  subst h
  simp only [asked, cPend, pPend, bPend, if_true]; omega

theorem pace_step {s s' : Timed} {a : Action} (hk : s.task.kind = .rate) (iv : Inv s.task) (hp : Pace s)
    (h : tstep s a = some s') : Pace s' := by
  have ht := tstep_task h
  obtain ⟨ci, -, -, cn, -⟩ := step_const ht
  have hj := jobStart_step iv.job ht
  have hno := no_le_asked s.task
  have due_eq : s'.since = s.since → ∀ n, s'.due n = s.due n := by
    intro h n; simp only [Timed.due, h, ci]
  rcases tstep_cases h with ⟨⟨m, rfl⟩, h1, h2, h3⟩ | ⟨⟨m, rfl⟩, h1, h2, h3⟩ | ⟨rfl, ⟨w, h1, h2, h3⟩, h4⟩ | ⟨h1, h2, h3, h4, h5⟩
  · have ha := asked_new hk iv.life h1 m s'.task ht
    have h0 := (iv.life.fresh (.inr h1)).2.2
    have hl : ∀ n t, Ev.jobStart n t ∉ s'.task.log := by
      intro n t hm
      rcases hj n t hm with h | h
      · obtain ⟨-, x, hx, -⟩ := iv.job.sta2 n t h
        rw [(iv.life.fresh (.inr h1)).2.1] at hx; simp at hx
      · omega
    refine ⟨?_, ?_, fun n t hm => absurd hm (hl n t)⟩
    · intro w hw
      rw [h2, if_pos hk] at hw
      simp only [Option.some.injEq] at hw
      simp only [Timed.due, ha, ci, h3]; omega
    · intro n hn
      have : n = 0 := by omega
      subst this
      simp only [Timed.due, h3]; omega
  · have ha := asked_step hk iv.life ht (by simp) (by simp)
    refine ⟨by simp [h2], fun n hn => ?_, fun n t hm => ?_⟩
    · rw [due_eq h3]; exact Nat.le_trans (hp.all n (by omega)) cn
    · rw [due_eq h3]
      rcases hj n t hm with h | ⟨rfl, h, h', -⟩
      · exact hp.log n t h
      · exact hp.all _ (by omega)
  · have ha := asked_fire ht
    have hw := hp.tick w h1
    refine ⟨?_, fun n hn => ?_, fun n t hm => ?_⟩
    · intro w' hw'
      rw [h3] at hw'
      simp only [Option.some.injEq] at hw'
      have := nextTick_ge w s.task.now s.task.interval
      have h5 := due_le s ha
      rw [due_succ] at h5
      rw [due_eq h4]; omega
    · rw [due_eq h4]
      by_cases hn' : n < asked s.task
      · exact Nat.le_trans (hp.all n hn') cn
      · have : n = asked s.task := by omega
        subst this; omega
    · rw [due_eq h4]
      rcases hj n t hm with h | ⟨rfl, h, h', -⟩
      · exact hp.log n t h
      · exact hp.all _ (by omega)
  · have ha := asked_step hk iv.life ht h3 h1
    refine ⟨?_, fun n hn => ?_, fun n t hm => ?_⟩
    · intro w hw
      rw [due_eq h5]
      exact Nat.le_trans (due_le s ha) (hp.tick w (h4 ▸ hw))
    · rw [due_eq h5]; exact Nat.le_trans (hp.all n (by omega)) cn
    · rw [due_eq h5]
      rcases hj n t hm with h | ⟨rfl, h, h', -⟩
      · exact hp.log n t h
      · exact hp.all _ (by omega)

theorem treach_pace {interval timeout : Int} {s : Timed} (h : TReach .rate interval timeout s) : Pace s := by
  obtain ⟨s0, h0, hr⟩ := h
  have h0' := h0
  simp only [newTimed, Option.map_eq_some_iff] at h0'
  obtain ⟨t, ht, rfl⟩ := h0'
  refine (hr.inv (I := fun x => TReach .rate interval timeout x ∧ Pace x) ⟨⟨_, h0, Reachable.refl _⟩, ?_⟩ ?_).2
  · have : t.log = [] ∧ asked t = 0 := by
      simp only [new] at ht
      split at ht <;> [simp at ht; split at ht] <;> simp at ht
      subst ht; simp [asked, cPend, pPend, bPend]
    exact ⟨by simp, by simp [this.2], by simp [this.1]⟩
  · rintro s a s' ⟨⟨s0, h0, hr⟩, hp⟩ h
    have hR := treach_reach ⟨s0, h0, hr⟩
    exact ⟨⟨s0, h0, hr.trans (Reachable.step a h)⟩, pace_step (reach_const hR).1 (reach_inv hR) hp h⟩

/-! ## Prompt executions of a FixedRateTask -/

/-- The invariant; `D n` is `n` intervals after `Start`. -/
structure RP (s : State) (tk : Option Nat) (D : Nat → Nat) : Prop where
  /-- no tick is lost -/
  tick : ∀ w, tk = some w → s.now ≤ w ∧ w ≤ s.now + s.interval ∧ w = D (asked s)
  som  : s.status = .started → tk ≠ none
  cons : s.cons = .got ∨ s.cons = .checked → s.now = D s.no
  prov : s.prov = .first ∨ s.prov = .send → s.now = D (s.no + cPend s)
  buf  : s.tickBuf = true → s.prov = .done ∨ (s.prov ≠ .none ∧ s.now = D (s.no + cPend s + pPend s))
  job  : ∀ (j : Nat) x, s.jobs[j]? = some x → x.fn = .notStarted → s.now = D j
  log  : ∀ n t, Ev.jobStart n t ∈ s.log → t = D (n - 1)

/-- What an idle FixedRateTask looks like. -/
theorem idle_rate {s : Timed} (hk : s.task.kind = .rate) (iv : Inv s.task) (hi : Idle s)
    (hb : s.task.tickBuf = true → s.task.prov ≠ .none) :
    cPend s.task = 0 ∧ pPend s.task = 0 ∧ (s.task.tickBuf = true → s.task.prov = .done) ∧
    (∀ (j : Nat) x, s.task.jobs[j]? = some x → x.fn ≠ .notStarted) ∧
    (∀ w, s.tick = some w → s.task.status = .started → s.task.now < w) := by
  obtain ⟨sig, -, -, -, l5, l6, l7, l8, l9, l10⟩ := iv.life
  have hst : s.task.starting = false := by
    cases hh : s.task.starting <;> simp_all
  have e : ∀ a, Own a → a ≠ .tickerFire → step s.task a = none := by
    intro a ha hf
    have := hi a ha
    unfold tstep at this
    cases hs : step s.task a with
    | none => rfl
    | some t => rw [hs] at this; cases a <;> simp_all [Own]
  have c1 := e .consCheck trivial (by simp)
  have c2 := e .consNext trivial (by simp)
  have c3 := e .handProv trivial (by simp)
  have c4 := e .provAbort trivial (by simp)
  have c5 := e .provTick trivial (by simp)
  have hc : cPend s.task = 0 := by
    simp only [cPend]
    refine if_neg ?_
    rintro (h | h)
    · simp only [step, h, hst, and_self, if_true] at c1
      split at c1 <;> simp at c1
    · simp [step, h, hst, hk] at c2
  have hp : pPend s.task = 0 := by
    simp only [pPend]
    refine if_neg fun h => ?_
    have h1 : s.task.cons ≠ .wait := fun h' => by simp [step, h, h'] at c3
    have h2 : s.task.stopSig = false := by
      cases hh : s.task.stopSig
      · rfl
      · simp only [step] at c4
        rw [if_pos ⟨by rcases h with h | h <;> simp [h], hh⟩] at c4
        simp at c4
    have h3 : s.task.status ≠ .new := fun h' => by have := l7.2 (.inl h'); simp [this] at h
    simp only [cPend] at hc
    have hr := (l9 hk).2
    rcases hcc : s.task.cons with _ | _ | _ | _ | j | _
    · exact h3 (l6.1 hcc)
    · exact h1 hcc
    · simp [hcc] at hc
    · simp [hcc] at hc
    · exact hr j hcc
    · have := sig.2 (l10 (.inl hcc)); simp [h2] at this
  refine ⟨hc, hp, ?_, ?_, ?_⟩
  · intro h
    simp only [pPend] at hp
    rcases hpp : s.task.prov with _ | _ | _ | _ | _
    · exact absurd hpp (hb h)
    · simp [hpp] at hp
    · simp [step, hpp, h] at c5
    · simp [hpp] at hp
    · rfl
  · intro j x hx hf
    have c6 := e (.runBegin j) trivial (by simp)
    have c7 := e (.jobStart j) trivial (by simp)
    simp only [step, hx] at c6 c7
    grind
  · intro w hw hs
    have := hi .tickerFire trivial
    simp only [tstep, step, hk, hs, hw, and_self, if_true] at this
    split at this
    · simp at this
    · omega


set_option maxHeartbeats 4000000 in
/-- A step other than `Start`, `Stop`, a tick or the passing of time. -/
theorem rp_other {s s' : State} {a : Action} {tick : Option Nat} {D : Nat → Nat} (hk : s.kind = .rate) (iv : Inv s)
    (hr : RP s tick D) (h : step s a = some s') (h1 : (∃ m, a = .start m) → s.status ≠ .new)
    (h2 : (∃ m, a = .stop m) → s.status ≠ .started) (h3 : a ≠ .tickerFire) (h4 : ∀ dt, a ≠ .pass dt) (hD : ∀ n, D n < D (n + 1))
    (ht : ∀ w, tick = some w → s.status = .started) :
    RP s' tick D := by
  obtain ⟨-, -, -, -, l5, l6, l7, l8, l9, l10⟩ := iv.life
  obtain ⟨j1, j2, -, -, -, -, -, -, -, -, -, -, -⟩ := iv.job
  obtain ⟨r1, r2, r3, r4, r5, r6, r7⟩ := hr
  have sig := iv.life.sig
  cases a <;> simp only [step, State.setJob] at h <;> (repeat' split at h) <;> simp at h <;> subst h <;>
    (refine ⟨?_, ?_, ?_, ?_, ?_, ?_, ?_⟩ <;> simp only [asked, cPend, pPend, bPend] at * <;> grind [cancelEv, Job.finish])


/-- The ticker runs while the task is started. -/
theorem tick_started {s s' : Timed} {a : Action} (iv : Inv s.task) (hk : s.task.kind = .rate) (ht : s.tick ≠ none ↔ s.task.status = .started)
    (h : tstep s a = some s') : s'.tick ≠ none ↔ s'.task.status = .started := by
  have hs := tstep_task h
  obtain ⟨-, -, -, -, l5, -, -, -, l9, -⟩ := iv.life
  rcases tstep_cases h with ⟨⟨m, rfl⟩, h1, h2, h3⟩ | ⟨⟨m, rfl⟩, h1, h2, h3⟩ | ⟨rfl, ⟨w, h1, h2, h3⟩, h4⟩ | ⟨h1, h2, h3, h4, h5⟩
  · generalize s'.task = t' at *
    simp only [step, h1, hk] at hs
    split at hs <;> simp at hs
    subst hs; simp [h2, hk]
  · generalize s'.task = t' at *
    simp only [step, h1] at hs
    (repeat' split at hs) <;> simp at hs <;> subst hs <;> simp [h2]
  · generalize s'.task = t' at *
    simp only [step] at hs
    split at hs <;> simp at hs
    rename_i hh
    subst hs; simp [h3, hh.2]
  · rw [h4]
    generalize s'.task = t' at *
    rw [ht]
    cases a <;> simp only [step, State.setJob] at hs <;> (repeat' split at hs) <;> simp at hs <;> subst hs <;> simp_all

theorem rp_start {s s' : Timed} {m : Bool} (hk : s.task.kind = .rate) (iv : Inv s.task) (h1 : s.task.status = .new)
    (hs : step s.task (.start m) = some s'.task) (h2 : s'.tick = some (s.task.now + s.task.interval))
    (h3 : s'.since = s.task.now) : RP s'.task s'.tick s'.due := by
  obtain ⟨hf, hj, hn⟩ := iv.life.fresh (.inr h1)
  have hst : s.task.starting = false := by
    cases hh : s.task.starting
    · rfl
    · have := (iv.life.start hh).2.1; simp [h1] at this
  have hl : ∀ n t, Ev.jobStart n t ∉ s.task.log := by
    intro n t hm
    obtain ⟨-, x, hx, -⟩ := iv.job.sta2 n t hm
    rw [hj] at hx; simp at hx
  have hci := (step_const hs).1
  have hD0 : s'.due 0 = s.task.now := by simp [Timed.due, h3]
  have hD1 : s'.due 1 = s.task.now + s.task.interval := by simp [Timed.due, h3, hci]
  generalize s'.due = D at *
  generalize s'.tick = tk at *
  generalize s'.task = t' at *
  simp only [step, h1, hst, hk] at hs
  simp at hs
  subst hs
  subst h2
  refine ⟨?_, by simp, by simp, ?_, by simp, ?_, ?_⟩
  · intro w hw
    simp only [Option.some.injEq] at hw
    simp [asked, cPend, pPend, bPend, hn, hD1, ← hw]
  · intro _
    simp [cPend, hn, hD0]
  · simp [hj]
  · intro n t hm
    simp at hm
    exact absurd hm (hl n t)

theorem rp_stop {s s' : State} {m : Bool} {tk : Option Nat} {D : Nat → Nat} (hr : RP s tk D)
    (h1 : s.status = .started) (hs : step s (.stop m) = some s') : RP s' none D := by
  obtain ⟨r1, r2, r3, r4, r5, r6, r7⟩ := hr
  simp only [step, h1] at hs
  (repeat' split at hs) <;> simp at hs <;> subst hs <;>
    exact ⟨by simp, by simp, r3, r4, r5, r6, fun n t hm => r7 n t (by simpa using hm)⟩

theorem rp_fire {s s' : State} {w : Nat} {D : Nat → Nat} (hr : RP s (some w) D) (hp : 0 < s.interval) (lf : Life s)
    (hD : ∀ n, D (n + 1) = D n + s.interval) (hw : w ≤ s.now) (hs : step s .tickerFire = some s') :
    RP s' (some (nextTick w s.now s.interval)) D := by
  obtain ⟨r1, r2, r3, r4, r5, r6, r7⟩ := hr
  obtain ⟨a1, a2, a3⟩ := r1 w rfl
  have hw' : w = s.now := by omega
  subst hw'
  have hn : nextTick s.now s.now s.interval = s.now + s.interval := by simp [nextTick]
  simp only [step] at hs
  split at hs <;> simp at hs
  rename_i hh
  have hpn : s.prov ≠ .none := by
    intro h'
    rcases lf.prov.1 h' with h' | h'
    · rw [hh.2] at h'; cases h'
    · rw [hh.1] at h'; cases h'
  have hpd : s.prov ≠ .done := by
    intro h'
    have := lf.dn (.inr h')
    rw [hh.2] at this; cases this
  have hb : s.tickBuf = false := by
    cases hb : s.tickBuf
    · rfl
    · rcases r5 hb with h | ⟨-, h⟩
      · exact absurd h hpd
      · simp only [asked, bPend, hb, if_true] at a3
        rw [hD] at a3; omega
  have ha : asked s = s.no + cPend s + pPend s := by simp [asked, bPend, hb]
  subst hs
  refine ⟨?_, by simp, r3, r4, ?_, r6, r7⟩
  · intro w' hw'
    simp only [Option.some.injEq] at hw'
    subst hw'
    rw [hn]
    have : asked { s with tickBuf := true } = asked s + 1 := by simp [asked, cPend, pPend, bPend, hb]
    rw [this, hD, ← a3]
    exact ⟨Nat.le_add_right _ _, Nat.le_refl _, rfl⟩
  · intro _
    refine .inr ⟨hpn, ?_⟩
    rw [ha] at a3
    exact a3

theorem rp_pass {s : Timed} (hk : s.task.kind = .rate) (iv : Inv s.task) (hr : RP s.task s.tick s.due)
    (ht : s.tick ≠ none ↔ s.task.status = .started) (hi : Idle s) :
    RP { s.task with now := s.task.now + 1 } s.tick s.due := by
  obtain ⟨r1, r2, r3, r4, r5, r6, r7⟩ := hr
  obtain ⟨i1, i2, i3, i4, i5⟩ := idle_rate hk iv hi (by
    intro hb
    rcases r5 hb with h | h
    · simp [h]
    · exact h.1)
  refine ⟨?_, r2, ?_, ?_, fun hb => .inl (i3 hb), fun j x hx hf => absurd hf (i4 j x hx), r7⟩
  · intro w hw
    have h1 := i5 w hw (ht.1 (by simp [hw]))
    obtain ⟨a1, a2, a3⟩ := r1 w hw
    exact ⟨h1, by simp only []; omega, a3⟩
  · intro h
    rw [show cPend s.task = 1 from if_pos h] at i1; simp at i1
  · intro h
    rw [show pPend s.task = 1 from if_pos h] at i2; simp at i2

/-- Everything about prompt executions of a FixedRateTask. -/
theorem prompt_rate {interval timeout : Int} {s : Timed} (h : Prompt .rate interval timeout s) :
    RP s.task s.tick s.due ∧ (s.tick ≠ none ↔ s.task.status = .started) := by
  induction h with
  | new s h =>
    simp only [newTimed, Option.map_eq_some_iff] at h
    obtain ⟨t, ht, rfl⟩ := h
    simp only [new] at ht
    split at ht <;> [simp at ht; split at ht] <;> simp at ht
    subst ht
    exact ⟨⟨by simp, by simp, by simp, by simp, by simp, by simp, by simp⟩, by simp⟩
  | step s s' a hp h hpass ih =>
    obtain ⟨hr, htk⟩ := ih
    have hR := treach_reach hp.treach
    have hk := (reach_const hR).1
    have iv := reach_inv hR
    have hpos := new_pos hR
    have hs := tstep_task h
    have hci := (step_const hs).1
    refine ⟨?_, tick_started iv hk htk h⟩
    · rcases tstep_cases h with ⟨⟨m, rfl⟩, h1, h2, h3⟩ | ⟨⟨m, rfl⟩, h1, h2, h3⟩ | ⟨rfl, ⟨w, h1, h2, h3⟩, h4⟩ | ⟨h1, h2, h3, h4, h5⟩
      · exact rp_start hk iv h1 hs (by rw [h2, if_pos hk]) h3
      · have : s'.due = s.due := by funext n; simp [Timed.due, h3, hci]
        rw [this, h2]
        exact rp_stop hr h1 hs
      · have : s'.due = s.due := by funext n; simp [Timed.due, h4, hci]
        rw [this, h3]
        rw [h1] at hr
        exact rp_fire hr hpos iv.life (due_succ s) h2 hs
      · have : s'.due = s.due := by funext n; simp [Timed.due, h5, hci]
        rw [this, h4]
        by_cases hpa : ∃ dt, a = .pass dt
        · obtain ⟨dt, rfl⟩ := hpa
          obtain ⟨rfl, hi⟩ := hpass dt rfl
          simp only [step, Option.some.injEq] at hs
          rw [← hs]
          exact rp_pass hk iv hr htk hi
        · exact rp_other hk iv hr hs h1 h2 h3 (fun dt h => hpa ⟨dt, h⟩) (fun n => by rw [due_succ]; omega)
            (fun w hw => htk.1 (by simp [hw]))

/-! ## Prompt executions of a FixedDelayTask -/

/-- `T` is the time for the job after the first `n` jobs: the time of `Start` for the first one, `interval` after the end
of the one before for the others. -/
def Turn (s : State) (since n T : Nat) : Prop :=
  (n = 0 ∧ T = since) ∨ ∃ u, Ev.jobEnd n u ∈ s.log ∧ T = u + s.interval

structure DP (s : State) (since : Nat) : Prop where
  start : s.starting = true → s.now = since
  ended : ∀ (j : Nat) x, s.cons = .run j → s.jobs[j]? = some x → x.fn = .returned → Ev.jobEnd (j + 1) s.now ∈ s.log
  spawn : ∀ (i : Nat), s.futs[i]? = some .spawned → Ev.jobEnd s.no s.now ∈ s.log
  timer : ∀ (i : Nat) dl, s.futs[i]? = some (.timer dl) → s.now ≤ dl ∧ ∃ u, Ev.jobEnd s.no u ∈ s.log ∧ dl = u + s.interval
  send  : ∀ (i : Nat), s.futs[i]? = some .sending → ∃ u, Ev.jobEnd s.no u ∈ s.log ∧ s.now = u + s.interval
  got   : s.cons = .got ∨ s.cons = .checked → Turn s since s.no s.now
  job   : ∀ (j : Nat) x, s.jobs[j]? = some x → x.fn = .notStarted → Turn s since j s.now
  log   : ∀ n t, Ev.jobStart n t ∈ s.log → Turn s since (n - 1) t
  wait  : s.status = .started → s.cons = .wait → s.starting = true ∨ ∃ (i : Nat) (f : Fut), s.futs[i]? = some f ∧ f ≠ .done

set_option maxHeartbeats 8000000 in
/-- A step other than the first `Start` and the passing of time. -/
theorem dp_other {s s' : State} {a : Action} {since : Nat} (hk : s.kind = .delay) (iv : Inv s)
    (hr : DP s since) (h : step s a = some s') (h1 : (∃ m, a = .start m) → s.status ≠ .new) (h4 : ∀ dt, a ≠ .pass dt) :
    DP s' since := by
  obtain ⟨sig, -, -, -, l5, l6, l7, l8, l9, l10⟩ := iv.life
  obtain ⟨j1, j2, j3, j4, j5, -, j7, -, -, -, -, -, -⟩ := iv.job
  obtain ⟨⟨q1, q2, q3⟩, -, -⟩ := iv.delay hk
  obtain ⟨r1, r2, r3, r4, r5, r6, r7, r8, r9⟩ := hr
  cases a <;> simp only [step, State.setJob] at h <;> (repeat' split at h) <;> simp at h <;> subst h <;>
    (refine ⟨?_, ?_, ?_, ?_, ?_, ?_, ?_, ?_, ?_⟩ <;> simp only [Turn] at * <;> try grind [cancelEv, Job.finish])
  · rename_i hc _ _
    intro j x hx hf
    by_cases hj : j < s.jobs.length
    · exact r7 j x (by rwa [List.getElem?_append_left hj] at hx) hf
    · have hjl : j = s.no := by
        have := (List.getElem?_eq_some_iff.1 hx).1
        simp at this; omega
      subst hjl
      exact r6 (.inr hc.1)
  · intro _ _
    exact .inr ⟨s.futs.length, .spawned, by simp, by simp⟩
  · rename_i i hi
    intro _ _
    exact .inr ⟨i, .timer (s.now + s.interval), by have := (List.getElem?_eq_some_iff.1 hi).1; simp [this], by simp⟩
  · rename_i i _ _ hi _
    intro _ _
    exact .inr ⟨i, .sending, by have := (List.getElem?_eq_some_iff.1 hi).1; simp [this], by simp⟩
  · rename_i j _ x hx hc
    intro n t hm
    simp only [List.mem_append, List.mem_singleton, Ev.jobStart.injEq] at hm
    rcases hm with hm | ⟨rfl, rfl⟩
    · rcases r8 n t hm with h | ⟨u, h, h'⟩
      · exact .inl h
      · exact .inr ⟨u, by simp [h], h'⟩
    · rw [j2 j x hx]
      rcases r7 j x hx hc.2 with h | ⟨u, h, h'⟩
      · exact .inl h
      · exact .inr ⟨u, by simp [h], h'⟩

end Gears.Schedule
