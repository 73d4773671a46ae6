import Verif.Schedule.Log

/-
After `Stop` the goroutines of a task terminate.
-/

namespace Gears.Schedule

def Cons.weight : Cons → Nat
  | .none => 0 | .done => 0 | .wait => 1 | .got => 1 | .run _ => 6 | .checked => 13

def Prov.weight : Prov → Nat
  | .none => 0 | .done => 0 | .loop => 1 | .first => 2 | .send => 2

def Fut.weight : Fut → Nat
  | .done => 0 | .sending => 1 | .timer _ => 2 | .spawned => 3

def Fn.weight : Fn → Nat
  | .returned => 0 | .running => 1 | .notStarted => 2

def RunPC.weight : RunPC → Nat
  | .ret => 0 | .waitFin => 1 | .sel => 2 | .begin => 3

def Job.weight (x : Job) : Nat := x.fn.weight + x.pc.weight + if x.done then 0 else 1

/-- A bound on the number of steps the goroutines of a stopped task can make. -/
def weight (s : State) : Nat :=
  s.cons.weight + s.prov.weight + (if s.tickBuf then 2 else 0) + (s.futs.map Fut.weight).sum + (s.jobs.map Job.weight).sum

theorem sum_set {α : Type} (w : α → Nat) : ∀ (l : List α) (i : Nat) (x y : α), l[i]? = some x →
    ((l.set i y).map w).sum + w x = (l.map w).sum + w y
  | a :: l, 0, x, y, h => by simp at h; subst h; simp; omega
  | a :: l, i + 1, x, y, h => by
    simp only [List.getElem?_cons_succ] at h
    have := sum_set w l i x y h
    simp only [List.set_cons_succ, List.map_cons, List.sum_cons]; omega

theorem sum_app {α : Type} (w : α → Nat) (l : List α) (x : α) : ((l ++ [x]).map w).sum = (l.map w).sum + w x := by simp

/-- A step of a goroutine of the task, a timer or a job; not a call of its methods, and not the passing of time. -/
def Internal : Action → Prop
  | .start _ | .stop _ | .pass _ => False
  | _ => True

set_option maxHeartbeats 4000000 in
theorem weight_step (s : State) (a : Action) (s' : State) (lf : Life s) (ji : JobInv s) (hs : s.status = .stopped)
    (ha : Internal a) (h : step s a = some s') : weight s' < weight s := by
  obtain ⟨-, -, -, -, l5, l6, l7, l8, l9, -⟩ := lf
  obtain ⟨j1, j2, j3, j4, j5, -, j7, -, -, -, -, -, -⟩ := ji
  cases a <;> simp only [Internal] at ha <;> simp only [step, State.setJob] at h <;> (repeat' split at h) <;> simp at h <;>
    subst h <;> simp only [weight] <;>
    grind [sum_set, sum_app, Job.weight, Job.finish, Cons.weight, Prov.weight, Fut.weight, Fn.weight, RunPC.weight]

/-- The goroutines of the task (consumer, provider, timers, jobs) have all returned. -/
def Quiet (s : State) : Prop :=
  (s.cons = .none ∨ s.cons = .done) ∧ (s.prov = .none ∨ s.prov = .done) ∧ (∀ f ∈ s.futs, f = .done) ∧
  (∀ x ∈ s.jobs, x.pc = .ret ∧ x.fn = .returned)

/-- Some goroutine of a stopped task that is not quiet can make a step, if need be after time has passed. -/
theorem progress (s : State) (lf : Life s) (ji : JobInv s) (hs : s.status = .stopped)
    (hrun : ∀ j, s.cons = .run j → j < s.jobs.length) (hq : ¬ Quiet s) :
    ∃ dt a s', Internal a ∧ step { s with now := s.now + dt } a = some s' := by
  have hsig := lf.sig.2 hs
  have hst : s.starting = false := by
    have := lf.start
    grind
  by_cases hj : ∃ (j : Nat) (x : Job), s.jobs[j]? = some x ∧ ¬ (x.pc = .ret ∧ x.fn = .returned)
  · obtain ⟨j, x, hx, hn⟩ := hj
    have h1 := ji.ret j x hx
    rcases hp : x.pc with _ | _ | _ | _
    · exact ⟨0, .runBegin j, _, trivial, by simp [step, hx, hp]; rfl⟩
    · exact ⟨0, .selStop j, _, trivial, by simp [step, hx, hp, hsig]; rfl⟩
    · rcases hf : x.fn with _ | _ | _
      · exact ⟨0, .jobStart j, _, trivial, by simp [step, hx, hp, hf]; rfl⟩
      · exact ⟨0, .jobEnd j, _, trivial, by simp [step, hx, hf]; rfl⟩
      · exact ⟨0, .runFin j, _, trivial, by simp [step, hx, hp, hf]; rfl⟩
    · exact absurd ⟨hp, (h1 hp).1⟩ hn
  · replace hj : ∀ (j : Nat) x, s.jobs[j]? = some x → x.pc = .ret ∧ x.fn = .returned := by
      intro j x hx
      exact Decidable.byContradiction fun h => hj ⟨j, x, hx, h⟩
    by_cases hf : ∃ (i : Nat) (f : Fut), s.futs[i]? = some f ∧ f ≠ .done
    · obtain ⟨i, f, hi, hn⟩ := hf
      cases f with
      | spawned => exact ⟨0, .futArm i, _, trivial, by simp [step, hi]; rfl⟩
      | timer dl => exact ⟨dl, .futFire i, _, trivial, by simp [step, hi]; rfl⟩
      | sending => exact ⟨0, .futAbort i, _, trivial, by simp [step, hi, hsig]; rfl⟩
      | done => exact absurd rfl hn
    · simp only [not_exists, not_and, Decidable.not_not] at hf
      by_cases hp : s.prov = .none ∨ s.prov = .done
      · rcases hc : s.cons with _ | _ | _ | _ | j | _
        · refine absurd ⟨.inl hc, hp, ?_, ?_⟩ hq
          · intro f hf'; obtain ⟨i, hi⟩ := List.mem_iff_getElem?.1 hf'; exact hf i f hi
          · intro x hx; obtain ⟨i, hi⟩ := List.mem_iff_getElem?.1 hx; exact hj i x hi
        · exact ⟨0, .consAbort, _, trivial, by simp [step, hc, hsig]; rfl⟩
        · exact ⟨0, .consCheck, _, trivial, by simp [step, hc, hst, hs]; rfl⟩
        · cases hk : s.kind with
          | delay => exact ⟨0, .consNext, _, trivial, by simp [step, hc, hst, hk]; rfl⟩
          | rate => exact ⟨0, .consNext, _, trivial, by simp [step, hc, hst, hk]; rfl⟩
        · have hl := hrun j hc
          have hx : s.jobs[j]? = some s.jobs[j] := List.getElem?_eq_getElem hl
          have := (hj j _ hx).1
          exact ⟨0, .consSpawn, _, trivial, by simp only [step, hc, hx, this, if_true]; rfl⟩
        · refine absurd ⟨.inr hc, hp, ?_, ?_⟩ hq
          · intro f hf'; obtain ⟨i, hi⟩ := List.mem_iff_getElem?.1 hf'; exact hf i f hi
          · intro x hx; obtain ⟨i, hi⟩ := List.mem_iff_getElem?.1 hx; exact hj i x hi
      · have : s.prov = .first ∨ s.prov = .send ∨ s.prov = .loop := by
          cases h : s.prov <;> simp_all
        exact ⟨0, .provAbort, _, trivial, by simp [step, hsig, this]; rfl⟩

/-- All invariants of a reachable state. -/
structure Inv (s : State) : Prop where
  life  : Life s
  job   : JobInv s
  nodup : (startNos s.log).Nodup
  delay : s.kind = .delay → Seq s ∧ Gap s ∧ AltInv s
  rate  : s.kind = .rate → RateInv s

theorem kind_step (s : State) (a : Action) (s' : State) (h : step s a = some s') :
    s'.kind = s.kind ∧ s'.interval = s.interval ∧ s'.timeout = s.timeout := by
  cases a <;> simp only [step, State.setJob] at h <;> (repeat' split at h) <;> simp at h <;> subst h <;> exact ⟨rfl, rfl, rfl⟩

theorem inv_step (s : State) (a : Action) (s' : State) (inv : Inv s) (h : step s a = some s') : Inv s' := by
  have hk := (kind_step s a s' h).1
  refine ⟨life_step s a s' inv.life h, job_step s a s' inv.life inv.job h, nodup_step s a s' inv.job inv.nodup h, ?_, ?_⟩
  · intro hd; rw [hk] at hd
    obtain ⟨h1, h2, h3⟩ := inv.delay hd
    exact ⟨seq_step s a s' hd inv.life inv.job h1 h, gap_step s a s' hd inv.life inv.job h1 h2 h,
      alt_step s a s' hd inv.life inv.job h1 h3 h⟩
  · intro hd; rw [hk] at hd
    exact rate_step s a s' hd inv.life (inv.rate hd) h

theorem inv_new {kind : Kind} {interval timeout : Int} {s : State} (h : new kind interval timeout = some s) : Inv s := by
  simp only [new] at h
  split at h
  · simp at h
  split at h
  · simp at h
  simp at h; subst h
  refine ⟨?_, ?_, ?_, fun _ => ⟨?_, ?_, ?_⟩, fun _ => ?_⟩
  · constructor <;> simp
  · constructor <;> simp
  · simp [startNos]
  · constructor <;> simp
  · constructor <;> simp [GapLog]
  · constructor <;> simp [jobEvs, rounds]
  · constructor; simp [ticks]

theorem reach_inv {kind : Kind} {interval timeout : Int} {s : State} (h : Reach kind interval timeout s) : Inv s := by
  obtain ⟨s0, h0, hr⟩ := h
  exact hr.inv (inv_new h0) inv_step

theorem reach_const {kind : Kind} {interval timeout : Int} {s : State} (h : Reach kind interval timeout s) :
    s.kind = kind ∧ (s.interval : Int) = interval ∧ (s.timeout : Int) = timeout := by
  obtain ⟨s0, h0, hr⟩ := h
  refine hr.inv (I := fun s => s.kind = kind ∧ (s.interval : Int) = interval ∧ (s.timeout : Int) = timeout) ?_ ?_
  · simp only [new] at h0
    split at h0
    · simp at h0
    split at h0
    · simp at h0
    simp at h0; subst h0
    exact ⟨rfl, by simp; omega, by simp; omega⟩
  · intro s a s' hi h
    have := kind_step s a s' h
    rw [this.1, this.2.1, this.2.2]; exact hi

theorem run_lt {s : State} (inv : Inv s) (j : Nat) (h : s.cons = .run j) : j < s.jobs.length := by
  cases hk : s.kind with
  | delay => have := (inv.delay hk).1.run j h; omega
  | rate => exact absurd h ((inv.life.rate hk).2 j)

end Gears.Schedule
