import Verif.Schedule.Props
import Verif.Common.Fair

/-
C161: what the goroutines of a task (/repo/schedule/task.go, fixed_delay_task.go, fixed_rate_task.go) do some time, in infinite executions
of the model of `Schedule/Model`.

Hypotheses: time does not stand still, and a step of a goroutine, a timer or the ticker that is possible from some time on is taken
(`Just`; for `jobEnd` this means that job functions return).  Calls of the methods may come at any time.
-/

namespace Gears.Schedule.Live

open Gears.Schedule

/-- What is possible from some time on is done. -/
def Just (s : Nat → State) (a : Nat → Option Action) : Prop :=
  ∀ x k, Internal x → (∀ j, k ≤ j → (step (s j) x).isSome = true) → ∃ j, k ≤ j ∧ a j = some x

structure Fair (kind : Kind) (interval timeout : Int) (s : Nat → State) (a : Nat → Option Action) : Prop where
  run   : IsRun step s a
  init  : Reach kind interval timeout (s 0)
  just  : Just s a
  clock : ∀ T, ∃ j, T ≤ (s j).now

section

variable {kind : Kind} {interval timeout : Int} {s : Nat → State} {a : Nat → Option Action}

theorem Fair.reach (h : Fair kind interval timeout s a) (i : Nat) : Reach kind interval timeout (s i) := by
  obtain ⟨s0, e, hr⟩ := h.init
  exact ⟨s0, e, h.run.reach hr i⟩

theorem Fair.inv (h : Fair kind interval timeout s a) (i : Nat) : Inv (s i) := reach_inv (h.reach i)

theorem Fair.kind_eq (h : Fair kind interval timeout s a) (i : Nat) : (s i).kind = kind := (reach_const (h.reach i)).1

theorem mono_step {st st' : State} {x : Action} (h : step st x = some st') : st.now ≤ st'.now ∧ st.no ≤ st'.no := by
  cases x <;> simp only [step, State.setJob] at h <;> (repeat' split at h) <;> simp at h <;> subst h <;> simp

theorem Fair.mono (h : Fair kind interval timeout s a) {i j : Nat} (hij : i ≤ j) : (s i).now ≤ (s j).now ∧ (s i).no ≤ (s j).no := by
  obtain ⟨n, rfl⟩ := Nat.exists_eq_add_of_le hij
  clear hij
  induction n with
  | zero => exact ⟨Nat.le_refl _, Nat.le_refl _⟩
  | succ n ih =>
    rcases h.run.next (i + n) with e | ⟨x, -, e⟩
    · rw [← Nat.add_assoc, e]; exact ih
    · have := mono_step e
      rw [← Nat.add_assoc]; omega

/-- While `P` holds, `x` is possible from time `T` on; then `Q` holds some time. -/
theorem ensures (h : Fair kind interval timeout s a) {k : Nat} (x : Action) (hx : Internal x) (P Q : State → Prop) (T : Nat)
    (hstep : ∀ j y, k ≤ j → P (s j) → step (s j) y = some (s (j + 1)) → Q (s (j + 1)) ∨ (P (s (j + 1)) ∧ y ≠ x))
    (hen : ∀ j, k ≤ j → P (s j) → T ≤ (s j).now → (step (s j) x).isSome = true) (hP : P (s k)) : ∃ j, k ≤ j ∧ Q (s j) := by
  refine Classical.byContradiction fun hno => ?_
  have hall : ∀ n, P (s (k + n)) := by
    intro n
    induction n with
    | zero => exact hP
    | succ n ih =>
      rcases h.run.next (k + n) with e | ⟨y, -, e⟩
      · rw [← Nat.add_assoc, e]; exact ih
      · rcases hstep (k + n) y (by omega) ih e with hq | ⟨hp, -⟩
        · exact absurd ⟨k + n + 1, by omega, hq⟩ hno
        · exact hp
  obtain ⟨j0, hj0⟩ := h.clock T
  obtain ⟨j, hj, ha⟩ := h.just x (max k j0) hx (by
    intro j hj
    obtain ⟨n, rfl⟩ := Nat.exists_eq_add_of_le (Nat.le_trans (Nat.le_max_left k j0) hj)
    have := (h.mono (Nat.le_trans (Nat.le_max_right k j0) hj)).1
    exact hen _ (by omega) (hall n) (by omega))
  obtain ⟨n, rfl⟩ := Nat.exists_eq_add_of_le (Nat.le_trans (Nat.le_max_left k j0) hj)
  have hst := h.run (k + n)
  rw [ha] at hst
  rcases hstep (k + n) x (by omega) (hall n) hst with hq | ⟨-, hne⟩
  · exact hno ⟨k + n + 1, by omega, hq⟩
  · exact hne rfl

/-! ### Jobs -/

/-- Job `j` is at a place described by `P`. -/
def At (j : Nat) (P : Job → Prop) (st : State) : Prop := ∃ x, st.jobs[j]? = some x ∧ P x

/-- What a step does to job `j`. -/
theorem job_tr {st st' : State} {y : Action} (h : step st y = some st') {j : Nat} {x : Job} (hx : st.jobs[j]? = some x) :
    ∃ x', st'.jobs[j]? = some x' ∧
      ((x' = x ∧ y ≠ .runBegin j ∧ y ≠ .jobStart j ∧ y ≠ .jobEnd j ∧ y ≠ .selFin j ∧ y ≠ .runFin j) ∨
       (y = .runBegin j ∧ x.pc = .begin ∧ x'.pc = .sel ∧ x'.fn = x.fn) ∨
       (y = .jobStart j ∧ x.pc ≠ .begin ∧ x.fn = .notStarted ∧ x'.pc = x.pc ∧ x'.fn = .running) ∨
       (y = .jobEnd j ∧ x.fn = .running ∧ x'.pc = x.pc ∧ x'.fn = .returned) ∨
       (y = .ctxTimeout j ∧ x'.pc = x.pc ∧ x'.fn = x.fn) ∨
       ((y = .selDone j ∨ y = .selStop j) ∧ x.pc = .sel ∧ x'.pc = .waitFin ∧ x'.fn = x.fn) ∨
       ((y = .selFin j ∨ y = .runFin j) ∧ x.fn = .returned ∧ x'.pc = .ret ∧ x'.fn = .returned)) := by
  have hlt : j < st.jobs.length := (List.getElem?_eq_some_iff.mp hx).1
  cases y <;> simp only [step, State.setJob] at h <;> (repeat' split at h) <;> simp at h <;> subst h <;>
    grind [Job.finish]

theorem at_step (h : Fair kind interval timeout s a) {k j : Nat} (x : Action) (hx : Internal x) (P Q : Job → Prop)
    (hstep : ∀ st st' y c c', Inv st → step st y = some st' → st.jobs[j]? = some c → st'.jobs[j]? = some c' → P c → Q c' ∨ (P c' ∧ y ≠ x))
    (hen : ∀ st c, Inv st → st.jobs[j]? = some c → P c → (step st x).isSome = true) (hP : At j P (s k)) : ∃ i, k ≤ i ∧ At j Q (s i) := by
  refine ensures h x hx (At j P) (At j Q) 0 ?_ ?_ hP
  · rintro i y hi ⟨c, hc, hp⟩ hs
    obtain ⟨c', hc', -⟩ := job_tr hs hc
    rcases hstep _ _ y c c' (h.inv i) hs hc hc' hp with hq | ⟨hp', hne⟩
    · exact .inl ⟨c', hc', hq⟩
    · exact .inr ⟨⟨c', hc', hp'⟩, hne⟩
  · rintro i hi ⟨c, hc, hp⟩ -
    exact hen _ c (h.inv i) hc hp

/-- **C161**: every job that the consumer has begun with is executed: its function is called, and returns, and the goroutines end. -/
theorem C161_job (h : Fair kind interval timeout s a) (k j : Nat) (hj : j < (s k).jobs.length) :
    ∃ i, k ≤ i ∧ At j (fun x => x.pc = .ret ∧ x.fn = .returned) (s i) := by
  -- the last two steps
  have l5 : ∀ k, At j (fun x => x.pc = .waitFin ∧ x.fn = .returned) (s k) → ∃ i, k ≤ i ∧ At j (fun x => x.pc = .ret ∧ x.fn = .returned) (s i) := by
    intro k hk
    refine at_step h (.runFin j) trivial _ _ ?_ ?_ hk
    · rintro st st' y c c' - hs hc hc' ⟨h1, h2⟩
      obtain ⟨c'', e, hcs⟩ := job_tr hs hc
      rw [hc'] at e; cases e
      grind
    · rintro st c - hc ⟨h1, h2⟩
      simp [step, hc, h1, h2]
  have l4 : ∀ k, At j (fun x => x.pc ≠ .begin ∧ x.fn = .returned) (s k) → ∃ i, k ≤ i ∧ At j (fun x => x.pc = .ret ∧ x.fn = .returned) (s i) := by
    rintro k ⟨c, hc, h1, h2⟩
    cases hp : c.pc with
    | begin => exact absurd hp h1
    | ret => exact ⟨k, Nat.le_refl _, c, hc, hp, h2⟩
    | waitFin => exact l5 k ⟨c, hc, hp, h2⟩
    | sel =>
      obtain ⟨i, hi, c', hc', hcs⟩ := at_step h (k := k) (j := j) (.selFin j) trivial (fun x => x.pc = .sel ∧ x.fn = .returned)
        (fun x => (x.pc = .ret ∨ x.pc = .waitFin) ∧ x.fn = .returned) (by
          rintro st st' y c c' - hs hc hc' ⟨h1, h2⟩
          obtain ⟨c'', e, hcs⟩ := job_tr hs hc
          rw [hc'] at e; cases e
          grind) (by
          rintro st c - hc ⟨h1, h2⟩
          simp [step, hc, h1, h2]) ⟨c, hc, hp, h2⟩
      obtain ⟨e | e, e2⟩ := hcs
      · exact ⟨i, hi, c', hc', e, e2⟩
      · obtain ⟨i', hi', hq⟩ := l5 i ⟨c', hc', e, e2⟩
        exact ⟨i', by omega, hq⟩
  have l3 : ∀ k, At j (fun x => x.pc ≠ .begin ∧ x.fn = .running) (s k) → ∃ i, k ≤ i ∧ At j (fun x => x.pc = .ret ∧ x.fn = .returned) (s i) := by
    intro k hk
    obtain ⟨i, hi, hq⟩ := at_step h (k := k) (j := j) (.jobEnd j) trivial _ (fun x => x.pc ≠ .begin ∧ x.fn = .returned) (by
        rintro st st' y c c' - hs hc hc' ⟨h1, h2⟩
        obtain ⟨c'', e, hcs⟩ := job_tr hs hc
        rw [hc'] at e; cases e
        grind) (by
        rintro st c - hc ⟨h1, h2⟩
        simp [step, hc, h2]) hk
    obtain ⟨i', hi', hr⟩ := l4 i hq
    exact ⟨i', by omega, hr⟩
  have l2 : ∀ k, At j (fun x => x.pc ≠ .begin ∧ x.fn = .notStarted) (s k) → ∃ i, k ≤ i ∧ At j (fun x => x.pc = .ret ∧ x.fn = .returned) (s i) := by
    intro k hk
    obtain ⟨i, hi, hq⟩ := at_step h (k := k) (j := j) (.jobStart j) trivial _ (fun x => x.pc ≠ .begin ∧ x.fn = .running) (by
        rintro st st' y c c' - hs hc hc' ⟨h1, h2⟩
        obtain ⟨c'', e, hcs⟩ := job_tr hs hc
        rw [hc'] at e; cases e
        grind) (by
        rintro st c - hc ⟨h1, h2⟩
        simp [step, hc, h1, h2]) hk
    obtain ⟨i', hi', hr⟩ := l3 i hq
    exact ⟨i', by omega, hr⟩
  have hc : (s k).jobs[j]? = some (s k).jobs[j] := List.getElem?_eq_getElem hj
  generalize (s k).jobs[j] = c at hc
  by_cases hb : c.pc = .begin
  · have hns := ((h.inv k).job.beg j c hc hb).1
    obtain ⟨i, hi, hq⟩ := at_step h (k := k) (j := j) (.runBegin j) trivial (fun x => x.pc = .begin ∧ x.fn = .notStarted)
      (fun x => x.pc ≠ .begin ∧ x.fn = .notStarted) (by
        rintro st st' y c c' - hs hc hc' ⟨h1, h2⟩
        obtain ⟨c'', e, hcs⟩ := job_tr hs hc
        rw [hc'] at e; cases e
        grind) (by
        rintro st c - hc ⟨h1, h2⟩
        simp [step, hc, h1]) ⟨c, hc, hb, hns⟩
    obtain ⟨i', hi', hr⟩ := l2 i hq
    exact ⟨i', by omega, hr⟩
  · cases hf : c.fn with
    | notStarted => exact l2 k ⟨c, hc, hb, hf⟩
    | running => exact l3 k ⟨c, hc, hb, hf⟩
    | returned => exact l4 k ⟨c, hc, hb, hf⟩

/-! ### The consumer -/

/-- The task has been started and is not stopped. -/
def Runs (s : Nat → State) (m : Nat) : Prop := ∀ j, m ≤ j → (s j).status = .started

theorem got_checked (h : Fair kind interval timeout s a) {m k : Nat} (hr : Runs s m) (hm : m ≤ k) (hk : (s k).cons = .got) :
    ∃ j, k ≤ j ∧ (s j).cons = .checked := by
  refine ensures h .consCheck trivial (fun st => st.cons = .got) (fun st => st.cons = .checked) 0 ?_ ?_ hk
  · intro j y hj hp hs
    have hst := hr j (by omega)
    have hl := (h.inv j).life.sig
    have hrun : ∀ i, (s j).cons ≠ .run i := by simp [hp]
    generalize s (j + 1) = st' at hs
    cases y <;> simp only [step, State.setJob] at hs <;> (repeat' split at hs) <;> simp at hs <;> subst hs <;> simp_all
  · intro j hj hp _
    have hst := hr j (by omega)
    have hn : (s j).starting = false := by
      cases e : (s j).starting with
      | false => rfl
      | true => have := ((h.inv j).life.start e).2.2; rw [hp] at this; cases this
    simp [step, hp, hn, hst]

theorem checked_next (h : Fair kind interval timeout s a) {k : Nat} (hk : (s k).cons = .checked) :
    ∃ j, k ≤ j ∧ (s k).no < (s j).no := by
  refine ensures h .consNext trivial (fun st => st.cons = .checked ∧ st.no = (s k).no) (fun st => (s k).no < st.no) 0 ?_ ?_ ⟨hk, rfl⟩
  · rintro j y hj ⟨hp, hn⟩ hs
    have hnew : (s j).status ≠ .new := fun e => by have := (h.inv j).life.cons.mpr e; rw [hp] at this; cases this
    generalize s (j + 1) = st' at hs
    rw [← hn]
    cases y <;> simp only [step, State.setJob] at hs <;> (repeat' split at hs) <;> simp at hs <;> subst hs <;> simp_all
  · rintro j hj ⟨hp, -⟩ _
    have hn : (s j).starting = false := by
      cases e : (s j).starting with
      | false => rfl
      | true => have := ((h.inv j).life.start e).2.2; rw [hp] at this; cases this
    simp only [step, hp, hn, and_self, if_true]
    split <;> rfl

/-! ### FixedRateTask -/

theorem rate_send (h : Fair .rate interval timeout s a) {m k : Nat} (hr : Runs s m) (hm : m ≤ k) (hk : (s k).cons = .wait)
    (hp : (s k).prov = .first ∨ (s k).prov = .send) : ∃ j, k ≤ j ∧ (s j).cons = .got := by
  refine ensures h .handProv trivial (fun st => st.cons = .wait ∧ (st.prov = .first ∨ st.prov = .send)) (fun st => st.cons = .got) 0 ?_ ?_ ⟨hk, hp⟩
  · rintro j y hj ⟨hc, hp⟩ hs
    have hst := hr j (by omega)
    have hl := (h.inv j).life.sig
    generalize s (j + 1) = st' at hs
    cases y <;> simp only [step, State.setJob] at hs <;> (repeat' split at hs) <;> simp at hs <;> subst hs <;> simp_all
  · rintro j hj ⟨hc, hp⟩ _
    simp [step, hc, hp]

theorem rate_starting (h : Fair .rate interval timeout s a) (j : Nat) : (s j).starting = false := by
  cases e : (s j).starting with
  | false => rfl
  | true => have := ((h.inv j).life.start e).1; rw [h.kind_eq j] at this; cases this

theorem rate_wait (h : Fair .rate interval timeout s a) {m k : Nat} (hr : Runs s m) (hm : m ≤ k) (hk : (s k).cons = .wait) :
    ∃ j, k ≤ j ∧ (s j).cons = .got := by
  have l2 : ∀ k, m ≤ k → (s k).cons = .wait → (s k).prov = .loop → (s k).tickBuf = true → ∃ j, k ≤ j ∧ (s j).cons = .got := by
    intro k hm hk hp hb
    obtain ⟨j, hj, e1, e2⟩ := ensures h (k := k) .provTick trivial (fun st => st.cons = .wait ∧ st.prov = .loop ∧ st.tickBuf = true)
      (fun st => st.cons = .wait ∧ (st.prov = .first ∨ st.prov = .send)) 0 (by
        rintro j y hj ⟨hc, hp, hb⟩ hs
        have hst := hr j (by omega)
        have hl := (h.inv j).life.sig
        have hfut := ((h.inv j).life.rate (h.kind_eq j)).1
        have hnst : (s j).starting = false := rate_starting h j
        generalize s (j + 1) = st' at hs
        cases y <;> simp only [step, State.setJob] at hs <;> (repeat' split at hs) <;> simp at hs <;> subst hs <;> simp_all) (by
        rintro j hj ⟨hc, hp, hb⟩ _
        simp [step, hp, hb]) ⟨hk, hp, hb⟩
    obtain ⟨j', hj', e⟩ := rate_send h hr (by omega) e1 e2
    exact ⟨j', by omega, e⟩
  have hnone : (s k).prov ≠ .none := by
    intro e
    have := (h.inv k).life.prov.mp e
    rw [hr k hm, h.kind_eq k] at this
    simp at this
  have hdone : (s k).prov ≠ .done := by
    intro e
    have := (h.inv k).life.dn (.inr e)
    rw [hr k hm] at this; cases this
  cases hp : (s k).prov with
  | none => exact absurd hp hnone
  | done => exact absurd hp hdone
  | first => exact rate_send h hr hm hk (.inl hp)
  | send => exact rate_send h hr hm hk (.inr hp)
  | loop =>
    cases hb : (s k).tickBuf with
    | true => exact l2 k hm hk hp hb
    | false =>
      obtain ⟨j, hj, e1, e2, e3⟩ := ensures h (k := k) .tickerFire trivial (fun st => st.cons = .wait ∧ st.prov = .loop ∧ st.tickBuf = false)
        (fun st => st.cons = .wait ∧ st.prov = .loop ∧ st.tickBuf = true) 0 (by
          rintro j y hj ⟨hc, hp, hb⟩ hs
          have hst := hr j (by omega)
          have hl := (h.inv j).life.sig
          have hfut := ((h.inv j).life.rate (h.kind_eq j)).1
          have hnst : (s j).starting = false := rate_starting h j
          generalize s (j + 1) = st' at hs
          cases y <;> simp only [step, State.setJob] at hs <;> (repeat' split at hs) <;> simp at hs <;> subst hs <;> simp_all) (by
          rintro j hj ⟨hc, hp, hb⟩ _
          simp [step, h.kind_eq j, hr j (by omega)]) ⟨hk, hp, hb⟩
      obtain ⟨j', hj', e⟩ := l2 j (by omega) e1 e2 e3
      exact ⟨j', by omega, e⟩

/-! ### FixedDelayTask -/

/-- While the consumer waits and `Start` has returned, a timer is there. -/
def Token (st : State) : Prop :=
  st.kind = .delay → st.status = .started → st.cons = .wait → st.starting = false → ∃ (i : Nat) (f : Fut), st.futs[i]? = some f ∧ f ≠ .done

theorem token_step (st : State) (x : Action) (st' : State) (inv : Inv st) (ht : Token st) (h : step st x = some st') : Token st' := by
  have hl := inv.life.sig
  have hst := inv.life.start
  unfold Token at ht ⊢
  have set : ∀ (i : Nat) (f g : Fut), st.futs[i]? = some f → g ≠ .done → ∃ (i' : Nat) (f' : Fut), (st.futs.set i g)[i']? = some f' ∧ f' ≠ .done := by
    intro i f g hi hg
    exact ⟨i, g, by simp [(List.getElem?_eq_some_iff.mp hi).1], hg⟩
  have app : ∃ (i' : Nat) (f' : Fut), (st.futs ++ [Fut.spawned])[i']? = some f' ∧ f' ≠ .done := ⟨st.futs.length, .spawned, by simp, by simp⟩
  cases x <;> simp only [step, State.setJob] at h <;> (repeat' split at h) <;> simp at h <;> subst h <;> (intro a1 a2 a3 a4; first | exact set _ _ _ (by assumption) (by simp) | exact app | grind)

theorem Fair.token (h : Fair kind interval timeout s a) (i : Nat) : Token (s i) := by
  obtain ⟨s0, h0, hr⟩ := h.reach i
  refine (hr.inv (I := fun st => Inv st ∧ Token st) ⟨inv_new h0, ?_⟩ fun st x st' hi hs => ⟨inv_step _ _ _ hi.1 hs, token_step _ _ _ hi.1 hi.2 hs⟩).2
  intro _ hs
  simp only [new] at h0
  split at h0
  · cases h0
  split at h0
  · cases h0
  cases h0; cases hs

theorem delay_start (h : Fair kind interval timeout s a) {k : Nat} (hk : (s k).starting = true) : ∃ j, k ≤ j ∧ (s j).cons = .got := by
  refine ensures h .handStart trivial (fun st => st.starting = true) (fun st => st.cons = .got) 0 ?_ ?_ hk
  · intro j y hj hp hs
    have hl := (h.inv j).life.sig
    have hst := (h.inv j).life.start hp
    have hfr := (h.inv j).life.fresh (.inl hp)
    generalize s (j + 1) = st' at hs
    cases y <;> simp only [step, State.setJob] at hs <;> (repeat' split at hs) <;> simp at hs <;> subst hs <;> simp_all
  · intro j hj hp _
    simp [step, hp, ((h.inv j).life.start hp).2.2]

/-- A timer step: the consumer still waits, or it has got a job. -/
theorem fut_tr {st st' : State} {y : Action} (inv : Inv st) (hs : st.status = .started) (hc : st.cons = .wait) (hn : st.starting = false)
    (h : step st y = some st') {i : Nat} {f : Fut} (hi : st.futs[i]? = some f) :
    st'.cons = .got ∨ (st'.cons = .wait ∧ st'.starting = false ∧
      ((st'.futs[i]? = some f ∧ y ≠ .futArm i ∧ y ≠ .futFire i ∧ y ≠ .handFut i) ∨
       (y = .futArm i ∧ f = .spawned ∧ st'.futs[i]? = some (.timer (st.now + st.interval))) ∨
       (y = .futFire i ∧ (∃ dl, f = .timer dl) ∧ st'.futs[i]? = some .sending))) := by
  have hl := inv.life.sig
  have hlt : i < st.futs.length := (List.getElem?_eq_some_iff.mp hi).1
  cases y <;> simp only [step, State.setJob] at h <;> (repeat' split at h) <;> simp at h <;> subst h <;> grind

theorem delay_sending (h : Fair kind interval timeout s a) {m k i : Nat} (hr : Runs s m) (hm : m ≤ k) (hk : (s k).cons = .wait)
    (hn : (s k).starting = false) (hf : (s k).futs[i]? = some .sending) : ∃ j, k ≤ j ∧ (s j).cons = .got := by
  refine ensures h (.handFut i) trivial (fun st => st.cons = .wait ∧ st.starting = false ∧ st.futs[i]? = some .sending) (fun st => st.cons = .got) 0
    ?_ ?_ ⟨hk, hn, hf⟩
  · rintro j y hj ⟨h1, h2, h3⟩ hs
    have := fut_tr (h.inv j) (hr j (by omega)) h1 h2 hs h3
    grind
  · rintro j hj ⟨h1, h2, h3⟩ _
    simp [step, h1, h3]

theorem delay_timer (h : Fair kind interval timeout s a) {m k i dl : Nat} (hr : Runs s m) (hm : m ≤ k) (hk : (s k).cons = .wait)
    (hn : (s k).starting = false) (hf : (s k).futs[i]? = some (.timer dl)) : ∃ j, k ≤ j ∧ (s j).cons = .got := by
  obtain ⟨j, hj, hq⟩ := ensures h (k := k) (.futFire i) trivial (fun st => st.cons = .wait ∧ st.starting = false ∧ st.futs[i]? = some (.timer dl))
    (fun st => st.cons = .got ∨ (st.cons = .wait ∧ st.starting = false ∧ st.futs[i]? = some .sending)) dl (by
      rintro j y hj ⟨h1, h2, h3⟩ hs
      have := fut_tr (h.inv j) (hr j (by omega)) h1 h2 hs h3
      grind) (by
      rintro j hj ⟨h1, h2, h3⟩ ht
      simp [step, h3, ht]) ⟨hk, hn, hf⟩
  rcases hq with e | ⟨e1, e2, e3⟩
  · exact ⟨j, hj, e⟩
  · obtain ⟨j', hj', e⟩ := delay_sending h hr (by omega) e1 e2 e3
    exact ⟨j', by omega, e⟩

theorem delay_wait (h : Fair .delay interval timeout s a) {m k : Nat} (hr : Runs s m) (hm : m ≤ k) (hk : (s k).cons = .wait) :
    ∃ j, k ≤ j ∧ (s j).cons = .got := by
  cases hn : (s k).starting with
  | true => exact delay_start h hn
  | false =>
    obtain ⟨i, f, hf, hd⟩ := h.token k (h.kind_eq k) (hr k hm) hk hn
    cases f with
    | done => exact absurd rfl hd
    | sending => exact delay_sending h hr hm hk hn hf
    | timer dl => exact delay_timer h hr hm hk hn hf
    | spawned =>
      obtain ⟨j, hj, hq⟩ := ensures h (k := k) (.futArm i) trivial (fun st => st.cons = .wait ∧ st.starting = false ∧ st.futs[i]? = some .spawned)
        (fun st => st.cons = .got ∨ (st.cons = .wait ∧ st.starting = false ∧ ∃ dl, st.futs[i]? = some (.timer dl))) 0 (by
          rintro j y hj ⟨h1, h2, h3⟩ hs
          have := fut_tr (h.inv j) (hr j (by omega)) h1 h2 hs h3
          grind) (by
          rintro j hj ⟨h1, h2, h3⟩ ht
          simp [step, h3]) ⟨hk, hn, hf⟩
      rcases hq with e | ⟨e1, e2, dl, e3⟩
      · exact ⟨j, hj, e⟩
      · obtain ⟨j', hj', e⟩ := delay_timer h hr (by omega) e1 e2 e3
        exact ⟨j', by omega, e⟩

theorem run_tr {st st' : State} {y : Action} (h : step st y = some st') {i : Nat} (hc : st.cons = .run i) :
    st'.cons = .wait ∨ (st'.cons = .run i ∧ y ≠ .consSpawn) := by
  cases y <;> simp only [step, State.setJob] at h <;> (repeat' split at h) <;> simp at h <;> subst h <;> simp_all

/-- The consumer of a FixedDelayTask comes back from its job. -/
theorem run_wait (h : Fair kind interval timeout s a) {k i : Nat} (hk : (s k).cons = .run i) : ∃ j, k ≤ j ∧ (s j).cons = .wait := by
  refine Classical.byContradiction fun hno => ?_
  have hall : ∀ n, (s (k + n)).cons = .run i := by
    intro n
    induction n with
    | zero => exact hk
    | succ n ih =>
      rcases h.run.next (k + n) with e | ⟨y, -, e⟩
      · rw [← Nat.add_assoc, e]; exact ih
      · rcases run_tr e ih with e | ⟨e, -⟩
        · exact absurd ⟨k + n + 1, by omega, e⟩ hno
        · exact e
  obtain ⟨j, hj, hret⟩ := C161_job h k i (run_lt (h.inv k) i hk)
  obtain ⟨n, rfl⟩ := Nat.exists_eq_add_of_le hj
  obtain ⟨j', hj', e⟩ := ensures h (k := k + n) .consSpawn trivial (fun st => st.cons = .run i ∧ At i (fun x => x.pc = .ret ∧ x.fn = .returned) st)
    (fun st => st.cons = .wait) 0 (by
      rintro j y hj ⟨h1, c, hc, h2⟩ hs
      rcases run_tr hs h1 with e | ⟨e, hne⟩
      · exact .inl e
      · obtain ⟨c', hc', hcs⟩ := job_tr hs hc
        exact .inr ⟨⟨e, c', hc', by grind⟩, hne⟩) (by
      rintro j hj ⟨h1, c, hc, h2, -⟩ _
      simp [step, h1, hc, h2]) ⟨hall n, hret⟩
  exact hno ⟨j', by omega, e⟩

/-- The consumer gets on to the next job. -/
theorem next_job (h : Fair kind interval timeout s a) {m k : Nat} (hr : Runs s m) (hm : m ≤ k) : ∃ j, k ≤ j ∧ (s k).no < (s j).no := by
  have l1 : ∀ k', k ≤ k' → (s k').cons = .got → ∃ j, k ≤ j ∧ (s k).no < (s j).no := by
    intro k' hk' hg
    obtain ⟨j, hj, e⟩ := got_checked h hr (by omega) hg
    obtain ⟨j', hj', e'⟩ := checked_next h e
    have := (h.mono (show k ≤ j by omega)).2
    exact ⟨j', by omega, by omega⟩
  have l2 : ∀ k', k ≤ k' → (s k').cons = .wait → ∃ j, k ≤ j ∧ (s k).no < (s j).no := by
    intro k' hk' hg
    have : ∃ j, k' ≤ j ∧ (s j).cons = .got := by
      cases kind with
      | delay => exact delay_wait h hr (by omega) hg
      | rate => exact rate_wait h hr (by omega) hg
    obtain ⟨j, hj, e⟩ := this
    exact l1 j (by omega) e
  cases hc : (s k).cons with
  | none => have := (h.inv k).life.cons.mp hc; rw [hr k hm] at this; cases this
  | done => have := (h.inv k).life.dn (.inl hc); rw [hr k hm] at this; cases this
  | got => exact l1 k (Nat.le_refl _) hc
  | wait => exact l2 k (Nat.le_refl _) hc
  | checked => exact checked_next h hc
  | run i =>
    obtain ⟨j, hj, e⟩ := run_wait h hc
    exact l2 j hj e

/-- **C161**: a task that has been started and is not stopped runs for ever: job number `n` starts and ends, for every `n`. -/
theorem C161_runs (h : Fair kind interval timeout s a) (m : Nat) (hr : Runs s m) (n : Nat) (hn : 0 < n) :
    ∃ j t t', Ev.jobStart n t ∈ (s j).log ∧ Ev.jobEnd n t' ∈ (s j).log := by
  have hno : ∀ n, ∃ j, m ≤ j ∧ n ≤ (s j).no := by
    intro n
    induction n with
    | zero => exact ⟨m, Nat.le_refl _, Nat.zero_le _⟩
    | succ n ih =>
      obtain ⟨j, hj, e⟩ := ih
      obtain ⟨j', hj', e'⟩ := next_job h hr hj
      exact ⟨j', by omega, by omega⟩
  obtain ⟨k, hk, e⟩ := hno n
  have hl := (h.inv k).job.len
  obtain ⟨i, hi, c, hc, h1, h2⟩ := C161_job h k (n - 1) (by omega)
  have hji := (h.inv i).job
  obtain ⟨t, ht⟩ := hji.sta1 _ c hc (by rw [h2]; simp)
  obtain ⟨t', ht'⟩ := hji.fnd1 _ c hc h2
  rw [show n - 1 + 1 = n by omega] at ht ht'
  exact ⟨i, t, t', ht, ht'⟩

/-- **C161**: `Start` of a FixedDelayTask, which offers the first job to the consumer while it holds the lock, returns. -/
theorem C161_start (h : Fair kind interval timeout s a) (k : Nat) : ∃ j, k ≤ j ∧ (s j).starting = false := by
  cases hk : (s k).starting with
  | false => exact ⟨k, Nat.le_refl _, hk⟩
  | true =>
    obtain ⟨j, hj, e⟩ := delay_start h hk
    refine ⟨j, hj, ?_⟩
    cases hs : (s j).starting with
    | false => rfl
    | true => have := ((h.inv j).life.start hs).2.2; rw [e] at this; cases this

/-! ### Stop -/

/-- Calls and the passing of time change nothing that goroutines look at, once the task is stopped. -/
structure Same (st st' : State) : Prop where
  jobs : st'.jobs = st.jobs
  futs : st'.futs = st.futs
  cons : st'.cons = st.cons
  prov : st'.prov = st.prov
  buf  : st'.tickBuf = st.tickBuf
  sts  : st'.status = st.status
  sig  : st'.stopSig = st.stopSig
  strt : st'.starting = st.starting
  kind : st'.kind = st.kind
  now  : st.now ≤ st'.now

theorem outer_step {st st' : State} {y : Action} (hs : st.status = .stopped) (hy : ¬ Internal y) (h : step st y = some st') : Same st st' := by
  cases y <;> simp only [Internal, not_true_eq_false] at hy <;> simp only [step] at h <;> (repeat' split at h) <;> simp at h <;> subst h <;>
    (constructor <;> simp_all)

theorem same_can {st st' : State} {x : Action} (hx : Internal x) (h : Same st st') (hs : (step st x).isSome = true) : (step st' x).isSome = true := by
  obtain ⟨h1, h2, h3, h4, h5, h6, h7, h8, h9, h10⟩ := h
  cases x <;> simp only [Internal] at hx <;> simp only [step, h1, h2, h3, h4, h5, h6, h7, h8, h9] at hs ⊢ <;>
    (repeat' split at hs) <;> simp_all <;> omega

/-- **C161**: after `Stop` all goroutines of a task end. -/
theorem C161_stop (h : Fair kind interval timeout s a) (m : Nat) (hs : (s m).status = .stopped) : ∃ k, m ≤ k ∧ ∀ j, k ≤ j → Quiet (s j) := by
  have hst : ∀ n, (s (m + n)).status = .stopped := by
    intro n
    induction n with
    | zero => exact hs
    | succ n ih =>
      rcases h.run.next (m + n) with e | ⟨y, -, e⟩
      · rw [← Nat.add_assoc, e]; exact ih
      · exact stopped_step _ y _ ih e
  -- from some time on goroutines do nothing
  have hk : ∃ k, m ≤ k ∧ ∀ j, k ≤ j → ∀ y, a j = some y → ¬ Internal y := by
    generalize hw : weight (s m) = w
    induction w using Nat.strongRecOn generalizing m with
    | ind w ih =>
      by_cases hno : ∀ j, m ≤ j → ∀ y, a j = some y → ¬ Internal y
      · exact ⟨m, Nat.le_refl _, hno⟩
      · simp only [Classical.not_forall, Decidable.not_not] at hno
        obtain ⟨j, hj, y, ha, hy⟩ := hno
        obtain ⟨n, rfl⟩ := Nat.exists_eq_add_of_le hj
        have hle : ∀ n, weight (s (m + n)) ≤ w := by
          intro n
          induction n with
          | zero => exact Nat.le_of_eq hw
          | succ n ihn =>
            rcases h.run.next (m + n) with e | ⟨y, -, e⟩
            · rw [← Nat.add_assoc, e]; exact ihn
            · by_cases hy : Internal y
              · have := weight_step _ y _ (h.inv (m + n)).life (h.inv (m + n)).job (hst n) hy e
                rw [← Nat.add_assoc]; omega
              · obtain ⟨h1, h2, h3, h4, h5, -⟩ := outer_step (hst n) hy e
                rw [← Nat.add_assoc]
                unfold weight at ihn ⊢
                rw [h1, h2, h3, h4, h5]; exact ihn
        have hst' := h.run (m + n)
        rw [ha] at hst'
        have hlt := weight_step _ y _ (h.inv (m + n)).life (h.inv (m + n)).job (hst n) hy hst'
        obtain ⟨k, hk, hq⟩ := ih _ (Nat.lt_of_lt_of_le hlt (hle n)) (m + n + 1) (by
          have := hst (n + 1); rwa [← Nat.add_assoc] at this) (fun n' => by
          have := hst (n + 1 + n'); rwa [← Nat.add_assoc, ← Nat.add_assoc] at this) rfl
        exact ⟨k, by omega, hq⟩
  obtain ⟨k, hmk, hno⟩ := hk
  obtain ⟨nk, rfl⟩ := Nat.exists_eq_add_of_le hmk
  have hsame : ∀ n, Same (s (m + nk)) (s (m + nk + n)) := by
    intro n
    induction n with
    | zero => exact ⟨rfl, rfl, rfl, rfl, rfl, rfl, rfl, rfl, rfl, Nat.le_refl _⟩
    | succ n ih =>
      rcases h.run.next (m + nk + n) with e | ⟨y, ha, e⟩
      · rw [← Nat.add_assoc, e]; exact ih
      · obtain ⟨a1, a2, a3, a4, a5, a6, a7, a8, a9, a10⟩ := outer_step (by have := hst (nk + n); rwa [← Nat.add_assoc] at this) (hno _ (by omega) y ha) e
        obtain ⟨b1, b2, b3, b4, b5, b6, b7, b8, b9, b10⟩ := ih
        exact ⟨a1.trans b1, a2.trans b2, a3.trans b3, a4.trans b4, a5.trans b5, a6.trans b6, a7.trans b7, a8.trans b8, a9.trans b9,
          Nat.le_trans b10 a10⟩
  have hq : Quiet (s (m + nk)) := by
    refine Classical.byContradiction fun hq => ?_
    have inv := h.inv (m + nk)
    obtain ⟨dt, x, s2, hx, h2⟩ := progress _ inv.life inv.job (hst nk) (run_lt inv) hq
    obtain ⟨j0, hj0⟩ := h.clock ((s (m + nk)).now + dt)
    obtain ⟨j, hj, ha⟩ := h.just x (max (m + nk) j0) hx (by
      intro j hj
      obtain ⟨n, rfl⟩ := Nat.exists_eq_add_of_le (Nat.le_trans (Nat.le_max_left (m + nk) j0) hj)
      have hnow := (h.mono (Nat.le_trans (Nat.le_max_right (m + nk) j0) hj)).1
      obtain ⟨b1, b2, b3, b4, b5, b6, b7, b8, b9, b10⟩ := hsame n
      exact same_can hx (st := { s (m + nk) with now := (s (m + nk)).now + dt }) ⟨b1, b2, b3, b4, b5, b6, b7, b8, b9, by dsimp only; omega⟩ (by rw [h2]; rfl))
    exact hno j (Nat.le_trans (Nat.le_max_left _ _) hj) x ha hx
  refine ⟨m + nk, by omega, fun j hj => ?_⟩
  obtain ⟨n, rfl⟩ := Nat.exists_eq_add_of_le hj
  obtain ⟨b1, b2, b3, b4, -⟩ := hsame n
  unfold Quiet at hq ⊢
  rw [b1, b2, b3, b4]; exact hq

end

/-! ### Executions -/

/-- A FixedDelayTask after `N + 1` jobs: the consumer waits, and the next timer is about to be started. -/
structure Base (N : Nat) (st : State) : Prop where
  kind : st.kind = .delay
  iv   : st.interval = 1
  sts  : st.status = .started
  sig  : st.stopSig = false
  strt : st.starting = false
  cons : st.cons = .wait
  prov : st.prov = .none
  futs : st.futs = List.replicate N .done ++ [.spawned]
  len  : st.jobs.length = N + 1
  jobs : ∀ x ∈ st.jobs, x.pc = .ret ∧ x.fn = .returned ∧ x.done = true

def period (N : Nat) : List Action :=
  [.futArm N, .pass 1, .futFire N, .handFut N, .consCheck, .consNext, .runBegin (N + 1), .jobStart (N + 1), .jobEnd (N + 1), .selFin (N + 1), .consSpawn]

theorem period_step {N : Nat} {st : State} (h : Base N st) : ∃ st', exec step st (period N) = some st' ∧ Base (N + 1) st' ∧ st'.now = st.now + 1 := by
  obtain ⟨kind, iv, tmo, now, sts, sig, strt, no, cons, prov, futs, buf, jobs, log⟩ := st
  obtain ⟨h1, h2, h3, h4, h5, h6, h7, h8, h9, h10⟩ := h
  simp only at h1 h2 h3 h4 h5 h6 h7 h8 h9 h10
  subst h1 h2 h3 h4 h5 h6 h7 h8
  have e : (List.replicate N Fut.done ++ [Fut.spawned])[N]? = some .spawned := by simp
  have ej : ∀ x : Job, (jobs ++ [x])[N + 1]? = some x := fun x => by rw [List.getElem?_append_right (by omega)]; simp [h9]
  have sj : ∀ x y : Job, (jobs ++ [x]).set (N + 1) y = jobs ++ [y] := fun x y => by rw [List.set_append_right _ _ (by omega)]; simp [h9]
  have sf : ∀ x y : Fut, (List.replicate N Fut.done ++ [x]).set N y = List.replicate N Fut.done ++ [y] := fun x y => by
    rw [List.set_append_right _ _ (by simp)]; simp
  refine ⟨_, by simp [period, exec, step, State.setJob, e, ej, sj, sf, h9, Job.finish, cancelEv]; rfl, ?_, rfl⟩
  constructor <;> try rfl
  · simp [List.replicate_succ']
  · simp [h9]
  · intro x hx
    simp only [List.mem_append, List.mem_singleton] at hx
    rcases hx with hx | rfl
    · exact h10 x hx
    · exact ⟨rfl, rfl, rfl⟩

/-- What is possible at the beginning of a period. -/
theorem base_only {N : Nat} {st : State} (h : Base N st) {x : Action} (hx : Internal x) (hs : (step st x).isSome = true) : x = .futArm N := by
  obtain ⟨h1, h2, h3, h4, h5, h6, h7, h8, h9, h10⟩ := h
  have hf : ∀ (i : Nat) f, st.futs[i]? = some f → f = .done ∨ (f = .spawned ∧ i = N) := by
    intro i f hi
    rw [h8] at hi
    by_cases hl : i < N
    · rw [List.getElem?_append_left (by simpa using hl)] at hi
      simp [List.getElem?_replicate, hl] at hi
      exact .inl hi.symm
    · rw [List.getElem?_append_right (by simpa using hl)] at hi
      simp only [List.length_replicate] at hi
      cases hd : i - N with
      | zero => rw [hd] at hi; simp at hi; exact .inr ⟨hi.symm, by omega⟩
      | succ n => rw [hd] at hi; simp at hi
  have hj : ∀ (j : Nat) x, st.jobs[j]? = some x → x.pc = .ret ∧ x.fn = .returned ∧ x.done = true := fun j x e => h10 x (List.mem_of_getElem? e)
  cases x <;> simp only [Internal] at hx <;> simp only [step] at hs <;> (repeat' split at hs) <;> grind

/-- Start, and the first job. -/
def begin_ : List Action := [.start false, .handStart, .consCheck, .consNext, .runBegin 0, .jobStart 0, .jobEnd 0, .selFin 0, .consSpawn]

def task0 (k : Kind) : State := ⟨k, 1, 1, 0, .new, false, false, 0, .none, .none, [], false, [], []⟩

def first_ : State := (exec step (task0 .delay) begin_).getD (task0 .delay)

theorem first_exec : exec step (task0 .delay) begin_ = some first_ := by decide

theorem first_base : Base 0 first_ := by constructor <;> decide

def periods : Nat → State
  | 0 => first_
  | N + 1 => (exec step (periods N) (period N)).getD first_

theorem periods_base (N : Nat) : Base N (periods N) := by
  induction N with
  | zero => exact first_base
  | succ N ih =>
    obtain ⟨st', e, hb, -⟩ := period_step ih
    rw [periods, e]; exact hb

theorem periods_exec (N : Nat) : exec step (periods N) (period N) = some (periods (N + 1)) := by
  obtain ⟨st', e, -, -⟩ := period_step (periods_base N)
  rw [periods, e]; rfl

theorem periods_now (N : Nat) : (periods (N + 1)).now = (periods N).now + 1 := by
  obtain ⟨st', e, -, hn⟩ := period_step (periods_base N)
  rw [periods, e]; exact hn

theorem periods_fair : Fair .delay 1 1 (blockS step 11 periods period) (fun i => (period (i / 11))[i % 11]?) := by
  have hrun : IsRun step (blockS step 11 periods period) (fun i => (period (i / 11))[i % 11]?) := block_run (by decide) (fun _ => rfl) periods_exec
  refine ⟨hrun, ⟨task0 .delay, by decide, begin_, first_exec⟩, ?_, ?_⟩
  · intro x k hx hen
    have h1 := hen (11 * k) (by omega)
    have h2 := hen (11 * (k + 1)) (by omega)
    rw [block_at (by decide)] at h1 h2
    have e1 := base_only (periods_base _) hx h1
    have e2 := base_only (periods_base _) hx h2
    rw [e1] at e2
    simp at e2
  · intro T
    refine ⟨11 * T, ?_⟩
    rw [block_at (by decide)]
    induction T with
    | zero => omega
    | succ T ih => rw [periods_now]; omega

/-- Steps other than `Stop` keep the task running. -/
theorem started_step {st st' : State} {x : Action} (hs : st.status = .started) (hx : ∀ m, x ≠ .stop m) (h : step st x = some st') : st'.status = .started := by
  cases x <;> simp only [step, State.setJob] at h <;> (repeat' split at h) <;> simp at h <;> subst h <;> simp_all

/-- Non-vacuity: a FixedDelayTask that runs for ever. -/
example : ∃ (s : Nat → State) (a : Nat → Option Action), Fair .delay 1 1 s a ∧ Runs s 0 := by
  refine ⟨_, _, periods_fair, ?_⟩
  intro j _
  induction j with
  | zero => exact first_base.sts
  | succ j ih =>
    rcases periods_fair.run.next j with e | ⟨x, hx, e⟩
    · rw [e]; exact ih (Nat.zero_le _)
    · refine started_step (ih (Nat.zero_le _)) ?_ e
      intro m hm
      subst hm
      have := List.mem_of_getElem? hx
      simp [period] at this

/-- A FixedRateTask that is stopped at once; the provider and the consumer end, then time passes. -/
def halt (N : Nat) : List Action := if N = 0 then [.provAbort] else if N = 1 then [.consAbort] else [.pass 1]

def haltS : Nat → State
  | 0 => (exec step (task0 .rate) [.start false, .stop false]).getD (task0 .rate)
  | N + 1 => (exec step (haltS N) (halt N)).getD (task0 .rate)

theorem halt_at (N : Nat) : haltS (N + 2) = { haltS 2 with now := N } := by
  induction N with
  | zero => decide
  | succ N ih =>
    rw [haltS, ih]
    simp [halt, exec, step]

theorem halt_exec (N : Nat) : exec step (haltS N) (halt N) = some (haltS (N + 1)) := by
  match N with
  | 0 => decide
  | 1 => decide
  | N + 2 => rw [halt_at, halt_at (N + 1)]; simp [halt, exec, step]

/-- Non-vacuity: a task that is stopped while its goroutines wait. -/
example : ∃ (s : Nat → State) (a : Nat → Option Action), Fair .rate 1 1 s a ∧ (s 0).status = .stopped ∧ ¬ Quiet (s 0) := by
  have hrun : IsRun step (blockS step 1 haltS halt) (fun i => (halt (i / 1))[i % 1]?) :=
    block_run (by decide) (fun N => by unfold halt; split; rfl; split <;> rfl) halt_exec
  have hat : ∀ N, blockS step 1 haltS halt N = haltS N := fun N => by
    have := block_at (step := step) (b := haltS) (l := halt) (show 0 < 1 by decide) N
    rwa [Nat.one_mul] at this
  have e2 : haltS 2 = ⟨.rate, 1, 1, 0, .stopped, true, false, 0, .done, .done, [], false, [], [.startRes false .ok, .stopRes false .ok]⟩ := by decide
  refine ⟨_, _, ⟨hrun, ⟨task0 .rate, by decide, [.start false, .stop false], by rw [hat]; decide⟩, ?_, ?_⟩, by rw [hat]; decide, by rw [hat]; decide⟩
  · intro x k hx hen
    have h1 := hen (k + 2) (by omega)
    rw [hat, halt_at, e2] at h1
    cases x <;> simp [Internal] at hx <;> simp [step] at h1
  · intro T
    refine ⟨T + 2, ?_⟩
    rw [hat, halt_at]
    exact Nat.le_refl _

end Gears.Schedule.Live
