import Verif.TaskManager.Instr

/-
C143: the task manager at instruction level.
-/

namespace Gears.TaskManager.Instr

open Gears.Schedule (Status Kind resOf)
open Gears.Schedule.Instr (IState IAction CPC Call iStep IReach iNew LockOk ireach_sim holder_caller)

/-! ### Single tasks -/

/-- What a step of a task does to a call `c` of it, which becomes `c'`; `v`, `v'` are the status before and after. -/
def Moves (v v' : Status) (c c' : Call) : Prop :=
  c'.isStart = c.isStart ∧ c'.must = c.must ∧ c'.fits = true ∧
  (c'.result = c.result ∨
   c.result = none ∧ c.isStart = true ∧ c'.result = some (.startRes c.must .ok) ∧ v = .new ∧ v' = .started ∨
   c.result = none ∧ c.isStart = true ∧ c'.result = some (.startRes c.must (resOf c.must)) ∧ v ≠ .new ∧ v' = v ∨
   c.result = none ∧ c.isStart = false ∧ c'.result ≠ none ∧ v' ≠ .started)

def Goes (v v' : Status) : Prop := v' = v ∨ (v = .new ∧ v' = .started) ∨ (v = .started ∧ v' = .stopped)

theorem moves_refl {v v' : Status} {c : Call} (h : c.fits = true) : Moves v v' c c := ⟨rfl, rfl, h, .inl rfl⟩

/-- The calls of a task when one of them goes on. -/
theorem moves_set {x x' : Task} {i : Nat} {c : Call} {pc : CPC} (hc : x.callers[i]? = some c)
    (hcs : x'.callers = x.callers.set i { c with pc := pc }) (hm : c.fits = true → Moves (absStatus x) (absStatus x') c { c with pc := pc })
    (k : Nat) (d : Call) (hd : x.callers[k]? = some d) (hf : d.fits = true) :
    ∃ d', x'.callers[k]? = some d' ∧ Moves (absStatus x) (absStatus x') d d' := by
  rw [hcs]
  by_cases hk : i = k
  · subst hk
    rw [hc] at hd; cases hd
    refine ⟨_, ?_, hm hf⟩
    rw [List.getElem?_set_self (List.getElem?_eq_some_iff.1 hc).1]
  · exact ⟨d, by rw [List.getElem?_set_ne hk]; exact hd, moves_refl hf⟩

theorem absStatus_free {x : Task} (h : x.holder ≠ some .p91) : absStatus x = x.st.status := by simp [absStatus, h]

theorem holder_set {x : Task} {i : Nat} {c : Call} {pc : CPC} {x' : Task} (hc : x.callers[i]? = some c)
    (hl : x'.lock = some (.caller i)) (hcs : x'.callers = x.callers.set i { c with pc := pc }) : x'.holder = some pc := by
  refine (holder_caller hl (c := { c with pc := pc }) ?_).trans rfl
  rw [hcs, List.getElem?_set_self (List.getElem?_eq_some_iff.1 hc).1]

theorem abs_of {x x' : Task} (h : x'.holder = x.holder) (hs : x'.st.status = x.st.status) : absStatus x' = absStatus x := by
  simp only [absStatus, h, hs]

theorem holder_none {x : Task} (h : x.lock = none ∨ x.lock = some .cons) : x.holder = none := by
  rcases h with h | h <;> simp [IState.holder, h]

theorem abs_before {x : Task} {i : Nat} {c : Call} (ok : LockOk x) (hc : x.callers[i]? = some c) (h : c.pc.crit = true) :
    absStatus x = if c.pc = .p91 then .started else x.st.status := by
  simp [absStatus, holder_caller ((ok.call i c hc).1 h) hc]

theorem abs_after {x : Task} {i : Nat} {c : Call} {pc : CPC} {x' : Task} (hc : x.callers[i]? = some c)
    (hl : x'.lock = some (.caller i)) (hcs : x'.callers = x.callers.set i { c with pc := pc }) :
    absStatus x' = if pc = .p91 then .started else x'.st.status := by
  simp [absStatus, holder_set hc hl hcs]

theorem abs_unlocked {x : Task} (h : x.lock = none ∨ x.lock = some .cons) : absStatus x = x.st.status := by
  simp [absStatus, holder_none h]

theorem moved {x x' : Task} {i : Nat} {c : Call} {pc : CPC} {v v' : Status} (hc : x.callers[i]? = some c)
    (hcs : x'.callers = x.callers.set i { c with pc := pc }) (hv : absStatus x = v) (hv' : absStatus x' = v') (hg : Goes v v')
    (hm : c.fits = true → Moves v v' c { c with pc := pc }) :
    Goes (absStatus x) (absStatus x') ∧
    ∀ (k : Nat) c, x.callers[k]? = some c → c.fits = true → ∃ c', x'.callers[k]? = some c' ∧ Moves (absStatus x) (absStatus x') c c' := by
  subst hv hv'
  exact ⟨hg, fun k d hd hf => moves_set hc hcs hm k d hd hf⟩

theorem task_step {x x' : Task} (hx : ∃ k i o, IReach k i o x) {a : IAction} (h : iStep x a = some x') :
    Goes (absStatus x) (absStatus x') ∧
    ∀ (k : Nat) c, x.callers[k]? = some c → c.fits = true → ∃ c', x'.callers[k]? = some c' ∧ Moves (absStatus x) (absStatus x') c c' := by
  obtain ⟨kind, interval, timeout, hr⟩ := hx
  obtain ⟨ok, t, ht, r⟩ := ireach_sim hr
  have same : x'.callers = x.callers → absStatus x' = absStatus x → _ := fun h1 h2 =>
    (⟨.inl h2, fun k c hc hf => ⟨c, by rw [h1]; exact hc, moves_refl hf⟩⟩ : Goes (absStatus x) (absStatus x') ∧
      ∀ (k : Nat) c, x.callers[k]? = some c → c.fits = true → ∃ c', x'.callers[k]? = some c' ∧ Moves (absStatus x) (absStatus x') c c')
  cases a with
  | call b must =>
    simp only [iStep, Option.some.injEq] at h
    subst h
    have hh : absStatus { x with callers := x.callers ++ [⟨b, must, if b = true then .start else .stop⟩] } = absStatus x := by
      refine abs_of ?_ rfl
      by_cases hl : ∃ i, x.lock = some (.caller i)
      · obtain ⟨i, hl⟩ := hl
        have hi := List.getElem?_eq_getElem (ok.len i hl)
        rw [holder_caller hl hi]
        exact holder_caller hl (by rw [List.getElem?_append_left (ok.len i hl)]; exact hi)
      · have hl : x.lock = none ∨ x.lock = some .cons := by
          cases h : x.lock with
          | none => exact .inl rfl
          | some w => cases w with
            | cons => exact .inr rfl
            | caller i => exact absurd ⟨i, h⟩ hl
        rw [holder_none hl, holder_none (by exact hl)]
    refine ⟨.inl hh, fun k c hc hf => ⟨c, ?_, moves_refl hf⟩⟩
    rw [List.getElem?_append_left (List.getElem?_eq_some_iff.1 hc).1]; exact hc
  | caller i =>
    simp only [iStep] at h
    split at h
    · rename_i c hc
      have hl := ok.call i c hc
      cases hp : c.pc with
      | p91 =>
        have hcr : c.pc.crit = true := by rw [hp]; rfl
        unfold IState.Rel at r
        rw [holder_caller (hl.1 hcr) hc, hp] at r
        have h1 := (Schedule.Instr.rel_stopped (Schedule.reach_inv ht).life c.must r).1
        have hpc : x.st.status = .stopped := r.pcs
        simp only [Schedule.Instr.callerStep, hp, h1, Bool.false_eq_true, if_false, Option.some.injEq] at h
        subst h
        refine moved hc rfl (abs_before ok hc hcr) (abs_after hc (by exact hl.1 hcr) rfl) ?_ ?_
        · by_cases hk : x.st.kind = .rate <;> simp [hp, hk, IState.logs, IState.goto, hpc, Goes]
        · intro hf
          simp only [Call.fits, hp, Bool.not_eq_true'] at hf
          by_cases hk : x.st.kind = .rate <;> simp [Moves, hp, hk, IState.logs, IState.goto, hpc, Call.fits, Call.result, hf]
      | unlock w =>
        have hcr : c.pc.crit = true := by rw [hp]; rfl
        simp only [Schedule.Instr.callerStep, hp, Option.some.injEq] at h
        subst h
        refine moved hc rfl (abs_before ok hc hcr) (abs_unlocked (.inl rfl)) ?_ ?_ <;>
          simp [hp, Goes, Moves, IState.goto, Call.fits, Call.result]
      | ret w => simp [Schedule.Instr.callerStep, hp] at h
      | start =>
        simp only [Schedule.Instr.callerStep, hp] at h
        split at h <;> simp only [Option.some.injEq, reduceCtorEq] at h
        subst h
        refine moved hc rfl (abs_unlocked (.inl (by assumption))) (abs_after hc rfl rfl) ?_ ?_ <;>
          simp [hp, Goes, Moves, IState.goto, Call.fits, Call.result]
      | stop =>
        simp only [Schedule.Instr.callerStep, hp] at h
        split at h <;> simp only [Option.some.injEq, reduceCtorEq] at h
        subst h
        refine moved hc rfl (abs_unlocked (.inl (by assumption))) (abs_after hc rfl rfl) ?_ ?_ <;>
          simp [hp, Goes, Moves, IState.goto, Call.fits, Call.result]
      | _ =>
        have hcr : c.pc.crit = true := by rw [hp]; rfl
        unfold IState.Rel at r
        rw [holder_caller (hl.1 hcr) hc, hp] at r
        have hpc := r.pcs
        simp only [Schedule.Instr.PcRel] at hpc
        simp only [Schedule.Instr.callerStep, hp] at h
        (repeat' split at h) <;> simp only [Option.some.injEq, reduceCtorEq] at h <;> subst h <;>
          refine moved hc rfl (abs_before ok hc hcr) (abs_after hc (by exact hl.1 hcr) rfl) ?_ ?_ <;>
          simp_all [Goes, Moves, IState.goto, IState.logs, Call.fits, Call.result]
    · simp at h
  | cons =>
    simp only [iStep, Schedule.Instr.consStep] at h
    have hk := ok.cons
    (repeat' split at h) <;> simp only [Option.some.injEq, reduceCtorEq] at h <;> subst h <;> refine same rfl (abs_of ?_ rfl)
    all_goals
      first
      | rfl
      | exact (holder_none (.inr rfl)).trans (holder_none (.inl (by assumption))).symm
      | (have hc : x.lock = some .cons := hk.1 (by simp only [*, Schedule.Instr.KPC.crit])
         exact (holder_none (.inl rfl)).trans (holder_none (.inr hc)).symm)
  | handStart i =>
    simp only [iStep] at h
    (repeat' split at h) <;> simp only [Option.some.injEq, reduceCtorEq] at h
    rename_i c hc hq
    have hcr : c.pc.crit = true := by rw [hq.1]; rfl
    subst h
    refine moved hc rfl (abs_before ok hc hcr) (abs_after hc (by exact (ok.call i c hc).1 hcr) rfl) ?_ ?_ <;>
      simp_all [Goes, Moves, IState.goto, Call.fits, Call.result]
  | startAbort i =>
    simp only [iStep] at h
    (repeat' split at h) <;> simp only [Option.some.injEq, reduceCtorEq] at h
    rename_i c hc hq
    have hcr : c.pc.crit = true := by rw [hq.1]; rfl
    subst h
    refine moved hc rfl (abs_before ok hc hcr) (abs_after hc (by exact (ok.call i c hc).1 hcr) rfl) ?_ ?_ <;>
      simp_all [Goes, Moves, IState.goto, Call.fits, Call.result]
  | other a =>
    simp only [iStep] at h
    split at h
    · rename_i ha
      obtain ⟨st', hs, rfl⟩ := Option.map_eq_some_iff.1 h
      refine same rfl ?_
      have : st'.status = x.st.status := by
        cases a <;> simp only [Schedule.Instr.isOther, Bool.false_eq_true] at ha <;> simp only [Schedule.step, Schedule.State.setJob] at hs <;> (repeat' split at hs) <;> simp at hs <;> subst hs <;> rfl
      exact abs_of rfl this
    · simp at h
  | _ =>
    simp only [iStep] at h
    (repeat' split at h) <;> simp only [Option.some.injEq, reduceCtorEq] at h <;> subst h <;> exact same rfl rfl

/-! ### The manager -/

theorem upd_same {α : Type} (f : Nat → α) (i : Nat) (x : α) : upd f i x i = x := by simp [upd]

theorem upd_ne {α : Type} (f : Nat → α) {i j : Nat} (h : j ≠ i) (x : α) : upd f i x j = f j := by simp [upd, h]

/-- The statuses after a step of task `t`. -/
theorem status_env (name : Nat → String) (task : Nat → Task) (t : Nat) (x : Task) (m : List (String × Nat)) (l : List Ev)
    (h : Goes (absStatus (task t)) (absStatus x)) :
    Reachable (step name) ⟨fun u => absStatus (task u), m, l⟩ ⟨fun u => absStatus (upd task t x u), m, l⟩ := by
  rcases h with h | ⟨h1, h2⟩ | ⟨h1, h2⟩
  · have : (fun u => absStatus (upd task t x u)) = fun u => absStatus (task u) := by
      funext u
      by_cases hu : u = t
      · subst hu; rw [upd_same, h]
      · rw [upd_ne _ hu]
    rw [this]; exact .refl _
  · have : (fun u => absStatus (upd task t x u)) = startTask (fun u => absStatus (task u)) t := by
      funext u
      by_cases hu : u = t
      · subst hu; simp [upd_same, h2, startTask, h1]
      · simp [upd_ne _ hu, startTask, hu]
    rw [this]; exact .step (.envStart t) rfl
  · have : (fun u => absStatus (upd task t x u)) = stopTask (fun u => absStatus (task u)) t := by
      funext u
      by_cases hu : u = t
      · subst hu; simp [upd_same, h2, stopTask, h1]
      · simp [upd_ne _ hu, stopTask, hu]
    rw [this]; exact .step (.envStop t) rfl

theorem goes_stopped {v v' : Status} (h : Goes v v') (hv : v = .stopped) : v' = .stopped := by
  subst hv; rcases h with h | ⟨h, -⟩ | ⟨h, -⟩ <;> simp_all

theorem decided_eq {x : Task} {k : Nat} {c : Call} (h : x.callers[k]? = some c) : decided x k = verdict c.result := by
  simp only [decided, h, Option.bind_some]

theorem waits_finds {p : MPC} {t k : Nat} (h : p.waits = some (t, k, false)) : ∃ n, p.finds = some (n, t) := by
  cases p <;> simp only [MPC.waits, Option.some.injEq, Prod.mk.injEq, reduceCtorEq, and_false] at h
  · obtain ⟨rfl, -⟩ := h; exact ⟨_, rfl⟩
  · obtain ⟨rfl, -⟩ := h; exact ⟨_, rfl⟩

theorem finds_map {p : MPC} {e : String × Nat} (h : p.finds = some e) (task : Nat → Task) (m : List (String × Nat)) (l : List Ev) :
    absAt task m l p = (m, l) := by
  cases p <;> simp only [MPC.finds, reduceCtorEq] at h <;> rfl

/-- A step of a task. -/
theorem sim_task {name : Nat → String} {s : MState} (o : MInv name s) (hr : Reachable (step name) (new fun _ => .new) s.abs) {t : Nat} {a : IAction} {x : Task}
    (h : iStep (s.task t) a = some x) :
    MInv name { s with task := upd s.task t x } ∧ Reachable (step name) s.abs { s with task := upd s.task t x }.abs := by
  obtain ⟨o1, o2, o3, o4, o5, o6, o7⟩ := o
  obtain ⟨hg, hcalls⟩ := task_step (o2 t) h
  have inv := reach_inv hr
  refine ⟨⟨o1, ?_, o3, o4, ?_, o6, ?_⟩, ?_⟩
  · intro u
    by_cases hu : u = t
    · subst hu
      obtain ⟨k, i, o, s0, h0, h1⟩ := o2 u
      refine ⟨k, i, o, s0, h0, ?_⟩
      show Reachable iStep s0 (upd s.task u x u)
      rw [upd_same]; exact h1.trans (.step a h)
    · show ∃ k i o, IReach k i o (upd s.task t x u)
      rw [upd_ne _ hu]; exact o2 u
  · intro u k b hw
    have hw : s.holder.waits = some (u, k, b) := hw
    obtain ⟨c, h1, h2, h3, h4, h5⟩ := o5 u k b hw
    show ∃ c, (upd s.task t x u).callers[k]? = some c ∧ _ ∧ _ ∧ _ ∧ (_ → _ → absStatus (upd s.task t x u) = _)
    by_cases hu : u = t
    · subst hu
      rw [upd_same]
      obtain ⟨c', g1, g2, g3, g4, g5⟩ := hcalls k c h1 h4
      refine ⟨c', g1, by rw [g2, h2], by rw [g3, h3], g4, fun hb hres => ?_⟩
      rcases g5 with g5 | ⟨-, g5, -⟩ | ⟨-, g5, -⟩ | ⟨-, -, -, g5⟩
      · exact goes_stopped hg (h5 hb (by rwa [g5] at hres))
      · simp [h2, hb] at g5
      · simp [h2, hb] at g5
      · -- the task is in the map
        have hne : absStatus (s.task u) ≠ .new := by
          have : ∃ n, (n, u) ∈ s.abs.map := by
            subst hb
            obtain ⟨n, hn⟩ : ∃ n, s.holder.finds = some (n, u) := waits_finds hw
            refine ⟨n, ?_⟩
            show (n, u) ∈ (absAt s.task s.map s.log s.holder).1
            rw [finds_map hn]
            exact (o6 _ hn).1
          obtain ⟨n, hn⟩ := this
          exact inv.st n u hn
        rcases hg with hg | ⟨hg, -⟩ | ⟨-, hg⟩
        · rw [hg] at g5 ⊢
          cases h : absStatus (s.task u) <;> simp_all
        · exact absurd hg hne
        · exact hg
    · rw [upd_ne _ hu]
      exact ⟨c, h1, h2, h3, h4, h5⟩
  · intro u hu
    show absStatus (upd s.task t x u) = _
    have := o7 u hu
    by_cases hut : u = t
    · subst hut; rw [upd_same]; exact goes_stopped hg this
    · rw [upd_ne _ hut]; exact this
  · by_cases hh : ∃ k, s.holder = .r61w t k
    · obtain ⟨k, hh⟩ := hh
      obtain ⟨c, h1, h2, h3, h4, -⟩ := o5 t k true (by rw [hh]; rfl)
      obtain ⟨m, hm, hl⟩ := o4 t (by rw [hh]; rfl)
      obtain ⟨c', g1, g2, g3, g4, g5⟩ := hcalls k c h1 h4
      have e1 : s.abs = ⟨fun u => absStatus (s.task u), (absAt s.task s.map s.log (.r61w t k)).1, (absAt s.task s.map s.log (.r61w t k)).2⟩ := by
        simp only [MState.abs, hh]
      have e2 : ({ s with task := upd s.task t x } : MState).abs = ⟨fun u => absStatus (upd s.task t x u), (absAt (upd s.task t x) s.map s.log (.r61w t k)).1,
          (absAt (upd s.task t x) s.map s.log (.r61w t k)).2⟩ := by
        have hh' : ({ s with task := upd s.task t x } : MState).holder = .r61w t k := hh
        simp only [MState.abs, hh']
      rw [e1, e2]
      simp only [absAt, upd_same, decided_eq h1, decided_eq g1]
      rcases g5 with g5 | ⟨h0, -, g5, g6, g7⟩ | ⟨h0, -, g5, g6, g7⟩ | ⟨-, g5, -⟩
      · rw [g5]; exact status_env name s.task t x _ _ hg
      · rw [h0, g5]
        refine .step (.register t) ?_
        have : (fun u => absStatus (upd s.task t x u)) = startTask (fun u => absStatus (s.task u)) t := by
          funext u
          by_cases hu : u = t
          · subst hu; simp [upd_same, g7, startTask, g6]
          · simp [upd_ne _ hu, startTask, hu]
        simp [step, hm, hl, g6, this, verdict]
      · rw [h0, g5, h3]
        refine .step (.register t) ?_
        have : (fun u => absStatus (upd s.task t x u)) = fun u => absStatus (s.task u) := by
          funext u
          by_cases hu : u = t
          · subst hu; rw [upd_same, g7]
          · rw [upd_ne _ hu]
        simp [step, hm, hl, g6, this, resOf, verdict]
      · simp [h2] at g5
    · have : absAt (upd s.task t x) s.map s.log s.holder = absAt s.task s.map s.log s.holder := by
        cases hq : s.holder <;> simp only [absAt]
        rename_i u k
        rw [upd_ne]
        rintro rfl
        exact hh ⟨k, hq⟩
      have e2 : ({ s with task := upd s.task t x } : MState).abs = ⟨fun u => absStatus (upd s.task t x u), (absAt s.task s.map s.log s.holder).1,
          (absAt s.task s.map s.log s.holder).2⟩ := by
        have hh' : ({ s with task := upd s.task t x } : MState).holder = s.holder := rfl
        simp only [MState.abs, hh', this]
      rw [e2]
      exact status_env name s.task t x _ _ hg

theorem holder_of {name : Nat → String} {s : MState} (o : MInv name s) {i : Nat} (h : (s.callers i).crit = true) :
    s.lock = some i ∧ s.holder = s.callers i := by
  have := (o.lock i).1 h
  exact ⟨this, by simp [MState.holder, this]⟩

/-- The caller with the lock goes on. -/
theorem sim_go {name : Nat → String} {s : MState} (o : MInv name s) {i : Nat} {p : MPC} {m : List (String × Nat)} (hcr : (s.callers i).crit = true)
    (hp : p.crit = true)
    (h3 : ∀ t, p = .r60 t → lookup m (name t) = none)
    (h4 : ∀ t, p.adds = some t → ∃ m', m = (name t, t) :: m' ∧ lookup m' (name t) = none)
    (h5 : ∀ t k b, p.waits = some (t, k, b) → ∃ c, (s.task t).callers[k]? = some c ∧ c.isStart = b ∧ c.must = b ∧ c.fits = true ∧
      (b = false → c.result ≠ none → absStatus (s.task t) = .stopped))
    (h6 : ∀ e, p.finds = some e → e ∈ m ∧ lookup m e.1 = some e.2)
    (h7 : ∀ t ∈ p.stops m, absStatus (s.task t) = .stopped)
    (h8 : Reachable (step name)
      ⟨fun t => absStatus (s.task t), (absAt s.task s.map s.log (s.callers i)).1, (absAt s.task s.map s.log (s.callers i)).2⟩
      ⟨fun t => absStatus (s.task t), (absAt s.task m s.log p).1, (absAt s.task m s.log p).2⟩) :
    MInv name { s.goto i p with map := m } ∧ Reachable (step name) s.abs { s.goto i p with map := m }.abs := by
  obtain ⟨hl, hh⟩ := holder_of o hcr
  have hh' : ({ s.goto i p with map := m } : MState).holder = p := by simp [MState.holder, MState.goto, hl, upd]
  refine ⟨⟨?_, o.task, by rw [hh']; exact h3, by rw [hh']; exact h4, by rw [hh']; exact h5, by rw [hh']; exact h6, by rw [hh']; exact h7⟩, ?_⟩
  · intro j
    simp only [MState.goto, upd]
    by_cases hj : j = i
    · subst hj; simp [hp, hl]
    · rw [if_neg hj]; exact o.lock j
  · simp only [MState.abs, hh, hh']; exact h8

theorem sim_take {name : Nat → String} {s s' : MState} (o : MInv name s) {i : Nat} {p : MPC} (h : s.take i p = some s') (hp : p.crit = true)
    (h3 : ∀ t, p ≠ .r60 t) (h4 : p.adds = none) (h5 : p.waits = none) (h6 : p.finds = none) (h7 : p.stops s.map = [])
    (h8 : absAt s.task s.map s.log p = (s.map, s.log)) : MInv name s' ∧ Reachable (step name) s.abs s'.abs := by
  simp only [MState.take] at h
  split at h <;> simp only [Option.some.injEq, reduceCtorEq] at h
  rename_i hl
  subst h
  have hh : s.holder = .idle := by simp [MState.holder, hl]
  have hh' : ({ s.goto i p with lock := some i } : MState).holder = p := by simp [MState.holder, MState.goto, upd]
  refine ⟨⟨?_, o.task, by rw [hh']; intro t h; exact absurd h (h3 t), by rw [hh', h4]; simp, by rw [hh', h5]; simp, by rw [hh', h6]; simp,
    by rw [hh']; intro t ht; simp [MState.goto, h7] at ht⟩, ?_⟩
  · intro j
    simp only [MState.goto, upd]
    by_cases hj : j = i
    · subst hj; simp [hp]
    · have := o.lock j
      rw [if_neg hj, this, hl]
      simp [Ne.symm hj]
  · have : absAt (s.goto i p).task (s.goto i p).map (s.goto i p).log p = (s.map, s.log) := h8
    simp only [MState.abs, hh, hh', this]
    exact .refl _

/-- The caller with the lock calls a method of a task. -/
theorem sim_into {name : Nat → String} {s s' : MState} (o : MInv name s) (hr : Reachable (step name) (new fun _ => .new) s.abs) {i t : Nat} {b : Bool}
    {p : Nat → MPC} (h : s.into i t b b p = some s') (hcr : (s.callers i).crit = true) (hp : ∀ k, (p k).crit = true) (h3 : ∀ k t, p k ≠ .r60 t)
    (h4 : ∀ k, (p k).adds = (s.callers i).adds) (h5 : ∀ k, (p k).waits = some (t, k, b)) (h6 : ∀ k, (p k).finds = (s.callers i).finds)
    (h7 : ∀ k, (p k).stops s.map = (s.callers i).stops s.map)
    (h8 : ∀ (task : Nat → Task) k, decided (task t) k = none → absAt task s.map s.log (p k) = absAt task s.map s.log (s.callers i)) :
    MInv name s' ∧ Reachable (step name) s.abs s'.abs := by
  obtain ⟨x, hx, rfl⟩ := Option.map_eq_some_iff.1 h
  obtain ⟨o1, r1⟩ := sim_task o hr hx
  obtain ⟨hl, hh⟩ := holder_of o hcr
  have hc : x.callers[(s.task t).callers.length]? = some ⟨b, b, if b then .start else .stop⟩ := by
    simp only [iStep, Option.some.injEq] at hx
    subst hx
    simp
  have key := sim_go (s := { s with task := upd s.task t x }) o1 (i := i) (p := p (s.task t).callers.length) (m := s.map) hcr (hp _) (fun u hu => absurd hu (h3 _ u))
    (fun u hu => ?_) (fun u k b' hu => ?_) (fun e he => ?_) (fun u hu => ?_) ?_
  · exact ⟨key.1, r1.trans key.2⟩
  · rw [h4] at hu
    exact o1.adds u (by show s.holder.adds = _; rw [hh]; exact hu)
  · rw [h5, Option.some.injEq, Prod.mk.injEq, Prod.mk.injEq] at hu
    obtain ⟨rfl, rfl, rfl⟩ := hu
    refine ⟨_, by simpa [upd_same] using hc, rfl, rfl, ?_, ?_⟩
    · cases b <;> rfl
    · cases b <;> simp [Call.result]
  · rw [h6] at he
    exact o1.finds e (by show s.holder.finds = _; rw [hh]; exact he)
  · rw [h7] at hu
    exact o1.stops u (by show u ∈ s.holder.stops s.map; rw [hh]; exact hu)
  · have : decided (upd s.task t x t) (s.task t).callers.length = none := by
      rw [upd_same, decided_eq hc]
      cases b <;> rfl
    rw [h8 (upd s.task t x) _ this]
    exact .refl _

theorem returned_eq {x : Task} {k : Nat} {r : Schedule.Res} (h : returned x k = some r) : ∃ c, x.callers[k]? = some c ∧ c.pc = .ret r := by
  simp only [returned] at h
  split at h
  · rename_i h1; cases h; exact ⟨_, h1, rfl⟩
  · cases h

theorem lookup_filter_none {m : List (String × Nat)} {n : String} (h : lookup m n = none) : m.filter (fun p => p.1 ≠ n) = m := by
  rw [lookup_none] at h
  refine List.filter_eq_self.2 fun p hp => ?_
  have := h p.2
  simp only [ne_eq, decide_not, Bool.not_eq_true', decide_eq_false_iff_not]
  rintro rfl
  exact this hp

theorem sim_mgr {name : Nat → String} {s s' : MState} (o : MInv name s) (hr : Reachable (step name) (new fun _ => .new) s.abs) {i c : Nat}
    (h : mgrStep name s i c = some s') : MInv name s' ∧ Reachable (step name) s.abs s'.abs := by
  have inv := reach_inv hr
  unfold mgrStep at h
  split at h
  case h_1 => cases h
  case h_2 => exact sim_take o h rfl (by simp) rfl rfl rfl rfl rfl
  case h_3 t hp =>
    split at h <;> cases h
    · rename_i u hu
      refine sim_go (m := s.map) o (by rw [hp]; rfl) rfl (by simp) (by simp [MPC.adds]) (by simp [MPC.waits]) (by simp [MPC.finds]) (by simp [MPC.stops]) ?_
      refine .step (.register t) ?_
      simp only [hp, absAt, step, hu]
    · rename_i hu
      refine sim_go (m := s.map) o (by rw [hp]; rfl) rfl (by simp [hu]) (by simp [MPC.adds]) (by simp [MPC.waits]) (by simp [MPC.finds]) (by simp [MPC.stops]) ?_
      rw [hp]; exact .refl _
  case h_4 t hp =>
    cases h
    refine sim_go o (by rw [hp]; rfl) rfl (by simp) ?_ (by simp [MPC.waits]) (by simp [MPC.finds]) (by simp [MPC.stops]) ?_
    · intro u hu
      simp only [MPC.adds, Option.some.injEq] at hu
      subst hu
      exact ⟨_, rfl, o.fresh t (by rw [(holder_of o (by rw [hp]; rfl)).2, hp])⟩
    · rw [hp]; exact .refl _
  case h_5 t hp =>
    refine sim_into o hr h (by rw [hp]; rfl) (fun _ => rfl) (by simp) ?_ (fun _ => rfl) ?_ ?_ ?_ <;> rw [hp]
    · exact fun _ => rfl
    · exact fun _ => rfl
    · exact fun _ => rfl
    · intro task k hk; simp only [absAt, hk]
  case h_6 t k hp =>
    obtain ⟨r, hret, rfl⟩ := Option.map_eq_some_iff.1 h
    obtain ⟨d, hd, hpc⟩ := returned_eq hret
    obtain ⟨c', g1, g2, g3, g4, -⟩ := o.waits t k true (by rw [(holder_of o (by rw [hp]; rfl)).2, hp]; rfl)
    rw [hd] at g1; cases g1
    refine sim_go (m := s.map) o (by rw [hp]; rfl) rfl (by simp) (by simp [MPC.adds]) (by simp [MPC.waits]) (by simp [MPC.finds]) (by simp [MPC.stops]) ?_
    have : decided (s.task t) k = some (if r = .ok then .ok else .panic) := by
      rw [decided_eq hd]
      simp only [Call.result, hpc, g2, if_true]
      cases r <;> rfl
    rw [hp]
    simp only [absAt, this]
    exact .refl _
  case h_7 => exact sim_take o h rfl (by simp) rfl rfl rfl rfl rfl
  case h_8 n hp =>
    split at h <;> cases h
    · rename_i hu
      refine sim_go (m := s.map) o (by rw [hp]; rfl) rfl (by simp) (by simp [MPC.adds]) (by simp [MPC.waits]) (by simp [MPC.finds]) (by simp [MPC.stops]) ?_
      refine .step (.unregister n) ?_
      simp only [hp, absAt, step, hu]
    · rename_i t hu
      refine sim_go (m := s.map) o (by rw [hp]; rfl) rfl (by simp) (by simp [MPC.adds]) (by simp [MPC.waits]) ?_ (by simp [MPC.stops]) ?_
      · intro e he
        simp only [MPC.finds, Option.some.injEq] at he
        subst he
        exact ⟨lookup_mem hu, hu⟩
      · rw [hp]; exact .refl _
  case h_9 n t hp =>
    refine sim_into o hr h (by rw [hp]; rfl) (fun _ => rfl) (by simp) ?_ (fun _ => rfl) ?_ ?_ ?_ <;> rw [hp]
    · exact fun _ => rfl
    · exact fun _ => rfl
    · exact fun _ => rfl
    · exact fun _ _ _ => rfl
  case h_10 n t k hp =>
    obtain ⟨r, hret, rfl⟩ := Option.map_eq_some_iff.1 h
    obtain ⟨d, hd, hpc⟩ := returned_eq hret
    have hh := (holder_of o (by rw [hp]; rfl)).2
    obtain ⟨c', g1, g2, g3, g4, g5⟩ := o.waits t k false (by rw [hh, hp]; rfl)
    rw [hd] at g1; cases g1
    have hl := (o.finds (n, t) (by rw [hh, hp]; rfl)).2
    refine sim_go (m := s.map) o (by rw [hp]; rfl) rfl (by simp) (by simp [MPC.adds]) (by simp [MPC.waits]) (by simp [MPC.finds]) ?_ ?_
    · intro u hu
      simp only [MPC.stops, hl, Option.toList, List.mem_singleton] at hu
      subst hu
      exact g5 rfl (by simp [Call.result, hpc])
    · rw [hp]; exact .refl _
  case h_11 n hp =>
    cases h
    refine sim_go o (by rw [hp]; rfl) rfl (by simp) (by simp [MPC.adds]) (by simp [MPC.waits]) (by simp [MPC.finds]) (by simp [MPC.stops]) ?_
    refine .step (.unregister n) ?_
    simp only [hp, absAt, step]
    cases hl : lookup s.map n with
    | none => simp only [lookup_filter_none hl]
    | some t =>
      have hst := o.stops t (by rw [(holder_of o (by rw [hp]; rfl)).2, hp]; simp [MPC.stops, hl])
      have : stopTask (fun t => absStatus (s.task t)) t = fun t => absStatus (s.task t) := by
        funext u; simp [stopTask, hst]
      simp only [this]
  case h_12 => exact sim_take o h rfl (by simp) rfl rfl rfl rfl rfl
  case h_13 seen hp =>
    have hh := (holder_of o (by rw [hp]; rfl)).2
    have hst := o.stops
    rw [hh, hp] at hst
    split at h
    · rename_i e he
      split at h <;> cases h
      have hm := List.mem_of_getElem? he
      refine sim_go (m := s.map) o (by rw [hp]; rfl) rfl (by simp) (by simp [MPC.adds]) (by simp [MPC.waits]) ?_ hst ?_
      · intro e' he'
        simp only [MPC.finds, Option.some.injEq] at he'
        subst he'
        refine ⟨hm, (lookup_some ?_).2 hm⟩
        have := inv.keys
        simpa only [MState.abs, hh, hp, absAt] using this
      · rw [hp]; exact .refl _
    · split at h <;> cases h
      rename_i hall
      refine sim_go (m := s.map) o (by rw [hp]; rfl) rfl (by simp) (by simp [MPC.adds]) (by simp [MPC.waits]) (by simp [MPC.finds]) ?_ ?_
      · intro t ht
        obtain ⟨e, he, rfl⟩ := List.mem_map.1 ht
        exact hst _ (List.mem_map.2 ⟨e, hall e he, rfl⟩)
      · rw [hp]; exact .refl _
  case h_14 seen e hp =>
    refine sim_into o hr h (by rw [hp]; rfl) (fun _ => rfl) (by simp) ?_ (fun _ => rfl) ?_ ?_ ?_ <;> rw [hp]
    · exact fun _ => rfl
    · exact fun _ => rfl
    · exact fun _ => rfl
    · exact fun _ _ _ => rfl
  case h_15 seen e k hp =>
    obtain ⟨r, hret, rfl⟩ := Option.map_eq_some_iff.1 h
    obtain ⟨d, hd, hpc⟩ := returned_eq hret
    have hh := (holder_of o (by rw [hp]; rfl)).2
    have hst := o.stops
    rw [hh, hp] at hst
    obtain ⟨c', g1, g2, g3, g4, g5⟩ := o.waits e.2 k false (by rw [hh, hp]; rfl)
    rw [hd] at g1; cases g1
    refine sim_go (m := s.map) o (by rw [hp]; rfl) rfl (by simp) (by simp [MPC.adds]) (by simp [MPC.waits]) (by simp [MPC.finds]) ?_ ?_
    · intro u hu
      simp only [MPC.stops, List.map_cons, List.mem_cons] at hu
      rcases hu with rfl | hu
      · exact g5 rfl (by simp [Call.result, hpc])
      · exact hst u hu
    · rw [hp]; exact .refl _
  case h_16 hp =>
    cases h
    have hst := o.stops
    rw [(holder_of o (by rw [hp]; rfl)).2, hp] at hst
    refine sim_go o (by rw [hp]; rfl) rfl (by simp) (by simp [MPC.adds]) (by simp [MPC.waits]) (by simp [MPC.finds]) (by simp [MPC.stops]) ?_
    refine .step (.unregisterAll (s.map.map Prod.snd)) ?_
    have h3 : stopTasks (fun t => absStatus (s.task t)) (s.map.map Prod.snd) = fun t => absStatus (s.task t) := by
      funext u
      rw [stopTasks_spec]
      split
      · rename_i h4; have := hst u h4.1; simp_all
      · rfl
    simp only [hp, absAt, step, List.isPerm_iff.2 (List.Perm.refl _), if_true, h3]
  case h_17 e hp =>
    cases h
    obtain ⟨hl, hh⟩ := holder_of o (i := i) (by rw [hp]; rfl)
    have hh' : ({ s.goto i .idle with lock := none, log := s.log ++ [e] } : MState).holder = .idle := rfl
    refine ⟨⟨?_, o.task, by rw [hh']; simp, by rw [hh']; simp [MPC.adds], by rw [hh']; simp [MPC.waits], by rw [hh']; simp [MPC.finds],
      by rw [hh']; simp [MPC.stops]⟩, ?_⟩
    · intro j
      simp only [MState.goto, upd]
      by_cases hj : j = i
      · subst hj; simp [MPC.crit]
      · rw [if_neg hj, o.lock j, hl]
        simp [Ne.symm hj]
    · simp only [MState.abs, hh, hh', hp, absAt]
      exact .refl _

theorem sim_begin {name : Nat → String} {s s' : MState} (o : MInv name s) {i : Nat} {p : MPC} (hp : p.crit = false)
    (h : (if s.callers i = .idle then some (s.goto i p) else none) = some s') : MInv name s' ∧ Reachable (step name) s.abs s'.abs := by
  split at h <;> simp only [Option.some.injEq, reduceCtorEq] at h
  rename_i hi
  subst h
  have hli : s.lock ≠ some i := fun hl => by have := (o.lock i).2 hl; simp [hi, MPC.crit] at this
  have hh : (s.goto i p).holder = s.holder := by
    simp only [MState.holder, MState.goto]
    cases hl : s.lock with
    | none => rfl
    | some j =>
      have : j ≠ i := by rintro rfl; exact hli hl
      simp [upd, this]
  refine ⟨⟨?_, o.task, by rw [hh]; exact o.fresh, by rw [hh]; exact o.adds, by rw [hh]; exact o.waits, by rw [hh]; exact o.finds,
      by rw [hh]; exact o.stops⟩, ?_⟩
  · intro j
    simp only [MState.goto, upd]
    by_cases hj : j = i
    · subst hj; simp [hp, hli]
    · rw [if_neg hj]; exact o.lock j
  · simp only [MState.abs, hh]; exact .refl _

theorem sim_step {name : Nat → String} {s s' : MState} (o : MInv name s) (hr : Reachable (step name) (new fun _ => .new) s.abs) {a : MAct}
    (h : mStep name s a = some s') : MInv name s' ∧ Reachable (step name) s.abs s'.abs := by
  cases a with
  | task t a =>
    obtain ⟨x, hx, rfl⟩ := Option.map_eq_some_iff.1 h
    exact sim_task o hr hx
  | register i t => exact sim_begin o rfl h
  | unregister i n => exact sim_begin o rfl h
  | unregisterAll i => exact sim_begin o rfl h
  | mgr i c => exact sim_mgr o hr h

theorem mreach_inv {name : Nat → String} {s : MState} (h : MReach name s) : MInv name s ∧ Reachable (step name) (new fun _ => .new) s.abs := by
  obtain ⟨task, hf, hr⟩ := h
  have hst : ∀ t, absStatus (task t) = .new := by
    intro t
    obtain ⟨k, i, o, h⟩ := hf t
    obtain ⟨st, hn, hx⟩ := Option.map_eq_some_iff.1 h
    rw [← hx]
    simp only [Schedule.new] at hn
    (repeat' split at hn) <;> simp at hn
    subst hn
    rfl
  refine hr.inv (I := fun s => MInv name s ∧ Reachable (step name) (new fun _ => .new) s.abs) ⟨⟨?_, ?_, ?_, ?_, ?_, ?_, ?_⟩, ?_⟩
    fun x a y hx hs => ?_
  · intro i; simp [mNew, MPC.crit]
  · intro t
    obtain ⟨k, i, o, h⟩ := hf t
    exact ⟨k, i, o, _, h, .refl _⟩
  · simp [mNew, MState.holder]
  · simp [mNew, MState.holder, MPC.adds]
  · simp [mNew, MState.holder, MPC.waits]
  · simp [mNew, MState.holder, MPC.finds]
  · simp [mNew, MState.holder, MPC.stops]
  · have : (mNew task).abs = new fun _ => .new := by
      simp only [MState.abs, mNew, MState.holder, absAt, new, hst]
    rw [this]; exact .refl _
  · obtain ⟨h1, h2⟩ := sim_step hx.1 hx.2 hs
    exact ⟨h1, hx.2.trans h2⟩

/-! ### Calls end -/

/-- How many instructions a call of a task has still to make. -/
def left : CPC → Nat
  | .ret _ => 0 | .unlock _ => 1 | .queue | .s90 | .p112 => 2 | .s89 | .p91 => 3 | .s87 | .p90 => 4 | .s77 | .p86 => 5
  | .s73 | .p83 => 6 | .s69 | .stop => 7 | .start => 8

/-- How many instructions the consumer has to make until it gives back the lock. -/
def leftK : Schedule.Instr.KPC → Nat
  | .n2 => 4 | .n3 _ => 3 | .n4 | .g2 => 2 | .n5 _ | .g3 _ => 1 | _ => 0

/-- How many instructions another goroutine that has the lock has to make until it gives it back. -/
def others (x : Task) (k : Nat) : Nat :=
  match x.lock with
  | some (.caller j) => if j = k then 0 else ((x.callers[j]?).map fun c => left c.pc).getD 0
  | some .cons => leftK x.cons
  | none => 0

/-- Instructions that may be made while the lock is held. -/
def InLock : IAction → Prop
  | .caller _ | .handStart _ | .cons => True
  | _ => False

/-- A call goes on. -/
theorem caller_left {x x' : Task} {j : Nat} {c : Call} {a : IAction} (hc : x.callers[j]? = some c) (ha : a = .caller j ∨ a = .handStart j)
    (h : iStep x a = some x') : ∃ pc, x'.callers = x.callers.set j { c with pc := pc } ∧ left pc < left c.pc ∧
      (x'.lock = x.lock ∨ x'.lock = none ∨ x'.lock = some (.caller j)) := by
  rcases ha with rfl | rfl
  · simp only [iStep, hc] at h
    cases hp : c.pc <;> simp only [Schedule.Instr.callerStep, hp] at h <;> (repeat' split at h) <;>
      simp only [Option.some.injEq, reduceCtorEq] at h <;> subst h <;> refine ⟨_, rfl, ?_, ?_⟩ <;>
      simp [left, IState.logs, IState.goto]
  · simp only [iStep, hc] at h
    split at h <;> simp only [Option.some.injEq, reduceCtorEq] at h
    rename_i hq
    subst h
    exact ⟨_, rfl, by rw [hq.1]; decide, .inl rfl⟩

theorem cons_left {x x' : Task} (hl : x.lock = some .cons) (hk : x.cons.crit = true) (h : iStep x .cons = some x') :
    x'.callers = x.callers ∧ (x'.lock = none ∨ x'.lock = some .cons ∧ leftK x'.cons < leftK x.cons) ∧ 0 < leftK x.cons := by
  simp only [iStep, Schedule.Instr.consStep] at h
  cases hp : x.cons <;> simp only [hp, Schedule.Instr.KPC.crit, Bool.false_eq_true] at hk <;> simp only [hp] at h <;>
    simp only [Option.some.injEq, reduceCtorEq] at h <;> subst h <;> simp [hl, leftK]

theorem task_ends (n : Nat) : ∀ (x : Task) (k : Nat) (c : Call), (∃ kd i o, IReach kd i o x) → x.callers[k]? = some c →
    left c.pc + others x k ≤ n → ∃ as x' r, exec iStep x as = some x' ∧ returned x' k = some r ∧ ∀ a ∈ as, InLock a := by
  induction n with
  | zero =>
    intro x k c hr hc hn
    cases hp : c.pc <;> simp only [hp, left] at hn <;> try omega
    rename_i r
    refine ⟨[], x, r, rfl, ?_, by simp⟩
    obtain ⟨b, m, pc⟩ := c
    simp only at hp; subst hp
    simp [returned, hc]
  | succ n ih =>
    intro x k c hr hc hn
    obtain ⟨kd, iv, tmo, hreach⟩ := hr
    obtain ⟨ok, t, ht, r⟩ := ireach_sim hreach
    have fin : ∀ a x', InLock a → iStep x a = some x' → (∃ c', x'.callers[k]? = some c' ∧ left c'.pc + others x' k < left c.pc + others x k) →
        ∃ as x' r, exec iStep x as = some x' ∧ returned x' k = some r ∧ ∀ a ∈ as, InLock a := by
      intro a x' ha h ⟨c', hc', hlt⟩
      obtain ⟨s0, h0, hs⟩ := hreach
      obtain ⟨as, y, r, h1, h2, h3⟩ := ih x' k c' ⟨kd, iv, tmo, s0, h0, hs.trans (.step a h)⟩ hc' (by omega)
      exact ⟨a :: as, y, r, by simp [exec, h, h1], h2, by simpa [ha] using h3⟩
    have ok' : ∀ {a x'}, iStep x a = some x' → LockOk x' := by
      intro a x' h
      obtain ⟨s0, h0, hs⟩ := hreach
      exact (ireach_sim ⟨s0, h0, hs.trans (.step a h)⟩).1
    have getset : ∀ {x' : Task} {j : Nat} {d : Call} {pc}, x.callers[j]? = some d → x'.callers = x.callers.set j { d with pc := pc } →
        x'.callers[j]? = some { d with pc := pc } := fun hd e => by rw [e, List.getElem?_set_self (List.getElem?_eq_some_iff.1 hd).1]
    -- call k goes on and has the lock now, or nobody has it
    have mine : ∀ {a x'}, (a = .caller k ∨ a = .handStart k) → iStep x a = some x' → (x.lock = none ∨ x.lock = some (.caller k)) →
        ∃ c', x'.callers[k]? = some c' ∧ left c'.pc + others x' k < left c.pc + others x k := by
      intro a x' ha h hl
      obtain ⟨pc, e, hlt, hlock⟩ := caller_left hc ha h
      have : others x' k = 0 := by
        have hl' : x'.lock = none ∨ x'.lock = some (.caller k) := by
          rcases hlock with h1 | h1 | h1
          · rw [h1]; exact hl
          · exact .inl h1
          · exact .inr h1
        rcases hl' with h1 | h1 <;> simp [others, h1]
      exact ⟨_, getset hc e, by simp only [this]; omega⟩
    by_cases hd : ∃ r, c.pc = .ret r
    · obtain ⟨r, hp⟩ := hd
      refine ⟨[], x, r, rfl, ?_, by simp⟩
      obtain ⟨b, m, pc⟩ := c
      simp only at hp; subst hp
      simp [returned, hc]
    cases hl : x.lock with
    | none =>
      have hcr : c.pc.crit = false := by
        cases h : c.pc.crit
        · rfl
        · have := (ok.call k c hc).1 h; simp [hl] at this
      have : ∃ x', iStep x (.caller k) = some x' := by
        simp only [iStep, hc]
        cases hp : c.pc <;> simp only [hp, Schedule.Instr.CPC.crit, Bool.true_eq_false] at hcr <;>
          simp_all [Schedule.Instr.callerStep]
      obtain ⟨x', h⟩ := this
      exact fin (.caller k) x' trivial h (mine (.inl rfl) h (.inl hl))
    | some w =>
      obtain ⟨a, x', h, hw⟩ := Schedule.Instr.C141_holder kd iv tmo x hreach w hl
      cases w with
      | cons =>
        simp only at hw
        subst hw
        obtain ⟨e1, e2, e3⟩ := cons_left hl (ok.cons.2 hl) h
        refine fin .cons x' trivial h ⟨c, by rw [e1]; exact hc, ?_⟩
        have h1 : others x k = leftK x.cons := by simp [others, hl]
        rcases e2 with e2 | ⟨e2, e4⟩
        · have : others x' k = 0 := by simp [others, e2]
          omega
        · have : others x' k = leftK x'.cons := by simp [others, e2]
          omega
      | caller j =>
        simp only at hw
        have hin : InLock a := by rcases hw with rfl | rfl <;> trivial
        by_cases hj : j = k
        · subst hj
          exact fin _ x' hin h (mine hw h (.inr hl))
        · have hd := List.getElem?_eq_getElem (ok.len j hl)
          obtain ⟨pc, e, hlt, hlock⟩ := caller_left hd hw h
          refine fin _ x' hin h ⟨c, by rw [e, List.getElem?_set_ne hj]; exact hc, ?_⟩
          have h1 : others x k = left (x.callers[j]'(ok.len j hl)).pc := by simp [others, hl, hj, hd]
          have h2 : others x' k ≤ left pc := by
            have : x'.lock = none ∨ x'.lock = some (.caller j) := by
              rcases hlock with h1 | h1 | h1
              · rw [h1]; exact .inr hl
              · exact .inl h1
              · exact .inr h1
            rcases this with h1 | h1
            · simp [others, h1]
            · simp [others, h1, hj, getset hd e]
          omega

/-- How many entries the loop of 81 has still to visit. -/
def unseen (map seen : List (String × Nat)) : Nat := map.countP fun e => e ∉ seen

/-- How many steps a caller with the lock has still to make; a call of a task counts as one. -/
def MPC.weight (map : List (String × Nat)) : MPC → Nat
  | .unlock _ => 1
  | .r61w _ _ | .u74 _ | .a85 => 2
  | .r61 _ | .u73w _ _ _ => 3
  | .r60 _ | .u73 _ _ => 4
  | .r56 _ | .u69 _ => 5
  | .a81 seen => 3 + 3 * unseen map seen
  | .a82 seen e => 5 + 3 * unseen map (e :: seen)
  | .a82w seen e _ => 4 + 3 * unseen map (e :: seen)
  | _ => 0

/-- Instructions that are made while caller `i` has the lock of the manager: its own, and those of tasks that it waits for. -/
def InMgr (i : Nat) : MAct → Prop
  | .mgr j _ => j = i
  | .task _ a => InLock a
  | _ => False

theorem unseen_lt {map seen : List (String × Nat)} {e : String × Nat} (h : e ∈ map) (hs : e ∉ seen) : unseen map (e :: seen) < unseen map seen := by
  induction map with
  | nil => simp at h
  | cons f map ih =>
    have mono : unseen map (e :: seen) ≤ unseen map seen := by
      refine List.countP_mono_left fun x _ hx => ?_
      simp only [List.mem_cons, not_or, decide_eq_true_eq] at hx ⊢
      exact hx.2
    simp only [unseen, List.countP_cons, List.mem_cons] at *
    rcases h with rfl | h
    · simp only [true_or, not_true_eq_false, decide_false, Bool.false_eq_true, if_false, hs, not_false_eq_true, decide_true, if_true]
      omega
    · have := ih h
      by_cases h1 : f = e <;> by_cases h2 : f ∈ seen <;> simp_all <;> omega

theorem exec_task (name : Nat → String) (t : Nat) : ∀ (as : List IAction) (s : MState) (x : Task), exec iStep (s.task t) as = some x →
    exec (mStep name) s (as.map (.task t)) = some { s with task := upd s.task t x }
  | [], s, x, h => by
    simp only [exec, Option.some.injEq] at h
    subst h
    have : upd s.task t (s.task t) = s.task := by
      funext u; by_cases hu : u = t
      · subst hu; rw [upd_same]
      · rw [upd_ne _ hu]
    simp [exec, this]
  | a :: as, s, x, h => by
    simp only [exec] at h
    split at h
    · rename_i y hy
      have e : upd (upd s.task t y) t x = upd s.task t x := by
        funext u; by_cases hu : u = t
        · subst hu; rw [upd_same, upd_same]
        · rw [upd_ne _ hu, upd_ne _ hu, upd_ne _ hu]
      have := exec_task name t as { s with task := upd s.task t y } x (by simpa [upd_same] using h)
      simp only [List.map_cons, exec, mStep, hy, Option.map_some, this, e]
    · cases h

theorem upd_upd {α : Type} (f : Nat → α) (i : Nat) : upd f i (f i) = f := by
  funext j; by_cases h : j = i
  · subst h; rw [upd_same]
  · rw [upd_ne _ h]

/-- The caller with the lock can make its next step, after steps of the task that it waits for. -/
theorem mgr_next {name : Nat → String} {s : MState} (o : MInv name s) {i : Nat} (hl : s.lock = some i) :
    ∃ as s', exec (mStep name) s as = some s' ∧ (∀ a ∈ as, InMgr i a) ∧
      (s'.lock = none ∨ s'.lock = some i ∧ (s'.callers i).weight s'.map < (s.callers i).weight s.map) := by
  have hcr := (o.lock i).2 hl
  have hh := (holder_of o hcr).2
  have one : ∀ c s', mgrStep name s i c = some s' → (s'.lock = none ∨ s'.lock = some i ∧ (s'.callers i).weight s'.map < (s.callers i).weight s.map) →
      ∃ as s', exec (mStep name) s as = some s' ∧ (∀ a ∈ as, InMgr i a) ∧
        (s'.lock = none ∨ s'.lock = some i ∧ (s'.callers i).weight s'.map < (s.callers i).weight s.map) :=
    fun c s' h1 h2 => ⟨[.mgr i c], s', by simp [exec, mStep, h1], by simp [InMgr], h2⟩
  -- after a call of a task
  have wait : ∀ t k b (f : Schedule.Res → MPC), (s.callers i).waits = some (t, k, b) →
      (∀ s' : MState, s'.callers = s.callers → mgrStep name s' i 0 = (returned (s'.task t) k).map fun r => s'.goto i (f r)) →
      (∀ r, (f r).weight s.map < (s.callers i).weight s.map) →
      ∃ as s', exec (mStep name) s as = some s' ∧ (∀ a ∈ as, InMgr i a) ∧
        (s'.lock = none ∨ s'.lock = some i ∧ (s'.callers i).weight s'.map < (s.callers i).weight s.map) := by
    intro t k b f hw hf hlt
    obtain ⟨c, h1, -⟩ := o.waits t k b (by rw [hh]; exact hw)
    obtain ⟨as, x, r, h2, h3, h4⟩ := task_ends _ (s.task t) k c (o.task t) h1 (Nat.le_refl _)
    have h5 := exec_task name t as s x h2
    have h6 := hf { s with task := upd s.task t x } rfl
    simp only [upd_same, h3, Option.map_some] at h6
    refine ⟨as.map (.task t) ++ [.mgr i 0], _, by rw [exec_append, h5]; simp [exec, mStep, h6]; rfl, ?_, ?_⟩
    · intro a ha
      rcases List.mem_append.1 ha with ha | ha
      · obtain ⟨b, hb, rfl⟩ := List.mem_map.1 ha
        exact h4 b hb
      · simp at ha; subst ha; rfl
    · exact .inr ⟨hl, by simpa [MState.goto, upd] using hlt r⟩
  have step1 : ∀ (s' : MState) p, s'.callers = upd s.callers i p → s'.lock = s.lock → p.weight s'.map < (s.callers i).weight s.map →
      (s'.lock = none ∨ s'.lock = some i ∧ (s'.callers i).weight s'.map < (s.callers i).weight s.map) :=
    fun s' p h1 h2 h3 => .inr ⟨by rw [h2, hl], by rw [h1, upd_same]; exact h3⟩
  cases hp : s.callers i with
  | idle => simp [hp, MPC.crit] at hcr
  | r53 t => simp [hp, MPC.crit] at hcr
  | u66 t => simp [hp, MPC.crit] at hcr
  | a78 => simp [hp, MPC.crit] at hcr
  | r56 t =>
    rw [← hp]
    cases hu : lookup s.map (name t) with
    | none => exact one 0 (s.goto i (.r60 t)) (by simp only [mgrStep, hp, hu]) (step1 (s.goto i (.r60 t)) (.r60 t) rfl rfl (by rw [hp]; simp [MPC.weight]))
    | some u => exact one 0 (s.goto i (.unlock (.register t .dup))) (by simp only [mgrStep, hp, hu]) (step1 (s.goto i (.unlock (.register t .dup))) (.unlock (.register t .dup)) rfl rfl (by rw [hp]; simp [MPC.weight]))
  | r60 t => rw [← hp]; exact one 0 ({ s.goto i (.r61 t) with map := (name t, t) :: s.map }) (by simp only [mgrStep, hp]) (step1 ({ s.goto i (.r61 t) with map := (name t, t) :: s.map }) (.r61 t) rfl rfl (by rw [hp]; simp [MPC.weight]))
  | r61 t =>
    rw [← hp]
    obtain ⟨x, hx⟩ : ∃ x, iStep (s.task t) (.call true true) = some x := ⟨_, rfl⟩
    exact one 0 ({ s.goto i (.r61w t (s.task t).callers.length) with task := upd s.task t x }) (by simp only [mgrStep, hp, MState.into, hx, Option.map_some]) (step1 ({ s.goto i (.r61w t (s.task t).callers.length) with task := upd s.task t x }) (.r61w t (s.task t).callers.length) rfl rfl (by rw [hp]; simp [MPC.weight]))
  | r61w t k =>
    rw [← hp]
    refine wait t k true (fun r => .unlock (.register t (if r = .ok then .ok else .panic))) (by rw [hp]; rfl) (fun s' he => ?_) (fun r => ?_)
    · simp only [mgrStep, he, hp]
    · rw [hp]; simp [MPC.weight]
  | u69 n =>
    rw [← hp]
    cases hu : lookup s.map n with
    | none => exact one 0 (s.goto i (.unlock (.unregister n))) (by simp only [mgrStep, hp, hu]) (step1 (s.goto i (.unlock (.unregister n))) (.unlock (.unregister n)) rfl rfl (by rw [hp]; simp [MPC.weight]))
    | some t => exact one 0 (s.goto i (.u73 n t)) (by simp only [mgrStep, hp, hu]) (step1 (s.goto i (.u73 n t)) (.u73 n t) rfl rfl (by rw [hp]; simp [MPC.weight]))
  | u73 n t =>
    rw [← hp]
    obtain ⟨x, hx⟩ : ∃ x, iStep (s.task t) (.call false false) = some x := ⟨_, rfl⟩
    exact one 0 ({ s.goto i (.u73w n t (s.task t).callers.length) with task := upd s.task t x }) (by simp only [mgrStep, hp, MState.into, hx, Option.map_some]) (step1 ({ s.goto i (.u73w n t (s.task t).callers.length) with task := upd s.task t x }) (.u73w n t (s.task t).callers.length) rfl rfl (by rw [hp]; simp [MPC.weight]))
  | u73w n t k =>
    rw [← hp]
    refine wait t k false (fun _ => .u74 n) (by rw [hp]; rfl) (fun s' he => ?_) (fun r => ?_)
    · simp only [mgrStep, he, hp]
    · rw [hp]; simp [MPC.weight]
  | u74 n => rw [← hp]; exact one 0 ({ s.goto i (.unlock (.unregister n)) with map := s.map.filter (fun p => p.1 ≠ n) }) (by simp only [mgrStep, hp]) (step1 ({ s.goto i (.unlock (.unregister n)) with map := s.map.filter (fun p => p.1 ≠ n) }) (.unlock (.unregister n)) rfl rfl (by rw [hp]; simp [MPC.weight]))
  | a81 seen =>
    rw [← hp]
    by_cases hall : ∀ e ∈ s.map, e ∈ seen
    · refine one s.map.length (s.goto i .a85) (by simp only [mgrStep, hp, List.getElem?_eq_none (Nat.le_refl _)]; rw [if_pos hall]) (step1 (s.goto i .a85) .a85 rfl rfl ?_)
      rw [hp]; simp only [MPC.weight]; omega
    · have : ∃ e, e ∈ s.map ∧ e ∉ seen := by
        refine Classical.byContradiction fun hne => hall fun e he => Classical.byContradiction fun h => hne ⟨e, he, h⟩
      obtain ⟨e, he, hs⟩ := this
      obtain ⟨c, hc⟩ := List.getElem?_of_mem he
      refine one c (s.goto i (.a82 seen e)) (by simp only [mgrStep, hp, hc]; rw [if_neg hs]) (step1 (s.goto i (.a82 seen e)) (.a82 seen e) rfl rfl ?_)
      have := unseen_lt he hs
      rw [hp]; simp only [MPC.weight, MState.goto]; omega
  | a82 seen e =>
    rw [← hp]
    obtain ⟨x, hx⟩ : ∃ x, iStep (s.task e.2) (.call false false) = some x := ⟨_, rfl⟩
    exact one 0 ({ s.goto i (.a82w seen e (s.task e.2).callers.length) with task := upd s.task e.2 x }) (by simp only [mgrStep, hp, MState.into, hx, Option.map_some]) (step1 ({ s.goto i (.a82w seen e (s.task e.2).callers.length) with task := upd s.task e.2 x }) (.a82w seen e (s.task e.2).callers.length) rfl rfl (by rw [hp]; simp [MPC.weight, MState.goto]))
  | a82w seen e k =>
    rw [← hp]
    refine wait e.2 k false (fun _ => .a81 (e :: seen)) (by rw [hp]; rfl) (fun s' he => ?_) (fun r => ?_)
    · simp only [mgrStep, he, hp]
    · rw [hp]; simp [MPC.weight]
  | a85 => rw [← hp]; exact one 0 ({ s.goto i (.unlock .unregisterAll) with map := [] }) (by simp only [mgrStep, hp]) (step1 ({ s.goto i (.unlock .unregisterAll) with map := [] }) (.unlock .unregisterAll) rfl rfl (by rw [hp]; simp [MPC.weight]))
  | unlock e =>
    rw [← hp]
    exact one 0 { s.goto i .idle with lock := none, log := s.log ++ [e] } (by simp only [mgrStep, hp]) (.inl rfl)

/-! ### The theorems -/

/-- **C143.**  Never are two goroutines about to access `taskMap`, one of them to change it, nor a field of a task. -/
theorem C143_race_free (name : Nat → String) (s : MState) (h : MReach name s) :
    ¬ Race s ∧ ∀ t, ¬ Schedule.Instr.Race (s.task t) := by
  obtain ⟨o, -⟩ := mreach_inv h
  refine ⟨?_, fun t => ?_⟩
  · rintro ⟨i, j, w, w', hij, hi, hj, -⟩
    have crit : ∀ (p : MPC) w, p.access = some w → p.crit = true := by
      intro p w hp; cases p <;> simp_all [MPC.access, MPC.crit]
    have h1 := (o.lock i).1 (crit _ _ hi)
    have h2 := (o.lock j).1 (crit _ _ hj)
    rw [h1] at h2
    exact hij (Option.some.inj h2)
  · obtain ⟨k, i, o, hr⟩ := o.task t
    exact (Schedule.Instr.C141_race_free k i o _ hr).1

/-- **C143.**  The manager does what Model.lean says, where a call is one step: while nobody has the lock, its map and what its calls returned
are those of a state that Model.lean reaches (so C48, C49 hold), in which a task is stopped from `close(stopSig)` on. -/
theorem C143_refines (name : Nat → String) (s : MState) (h : MReach name s) (hl : s.lock = none) :
    Reachable (step name) (new fun _ => .new) ⟨fun t => absStatus (s.task t), s.map, s.log⟩ := by
  have := (mreach_inv h).2
  simpa only [MState.abs, MState.holder, hl, absAt] using this

/-- **C143.**  What happens to a task under the manager can happen to it alone (so C141 holds for it). -/
theorem C143_alone (name : Nat → String) (s : MState) (h : MReach name s) (t : Nat) : ∃ k i o, IReach k i o (s.task t) :=
  (mreach_inv h).1.task t

/-- A task that counts as stopped: its signal is given. -/
theorem stopped_sig {x : Task} (hx : ∃ k i o, IReach k i o x) (h : absStatus x = .stopped) : x.st.status = .stopped ∧ x.st.stopSig = true := by
  obtain ⟨k, i, o, hr⟩ := hx
  obtain ⟨-, t, ht, r⟩ := ireach_sim hr
  have h1 : x.st.status = .stopped := by
    simp only [absStatus] at h; split at h
    · cases h
    · exact h
  have h2 : t.status = .stopped := by rw [r.status]; exact h
  exact ⟨h1, by rw [← r.sig]; exact (Schedule.reach_inv ht).life.sig.2 h2⟩

/-- **C143.**  When Unregister removes a name, and when UnregisterAll empties the map, the stop signals of the tasks that go are
given. -/
theorem C143_stops (name : Nat → String) (s : MState) (h : MReach name s) (i : Nat) (t : Nat) (n : String) (ht : (n, t) ∈ s.map)
    (hp : s.callers i = .u74 n ∨ s.callers i = .a85) : (s.task t).st.status = .stopped ∧ (s.task t).st.stopSig = true := by
  obtain ⟨o, hr⟩ := mreach_inv h
  have hcr : (s.callers i).crit = true := by rcases hp with hp | hp <;> rw [hp] <;> rfl
  have hh := (holder_of o hcr).2
  refine stopped_sig (o.task t) (o.stops t ?_)
  rw [hh]
  rcases hp with hp | hp
  · have hk : (s.map.map Prod.fst).Nodup := by
      have := (reach_inv hr).keys
      simpa only [MState.abs, hh, hp, absAt] using this
    rw [hp]
    simp [MPC.stops, (lookup_some hk).2 ht]
  · rw [hp]
    exact List.mem_map.2 ⟨_, ht, rfl⟩

/-- **C143.**  Whoever has the lock of the manager can finish: with its own instructions, and instructions of goroutines that have the lock of the
task it waits for or take its first job. -/
theorem C143_ends (name : Nat → String) (s : MState) (h : MReach name s) (i : Nat) (hl : s.lock = some i) :
    ∃ as s', exec (mStep name) s as = some s' ∧ s'.lock = none ∧ ∀ a ∈ as, InMgr i a := by
  have key : ∀ (n : Nat) (s : MState), MReach name s → s.lock = some i → (s.callers i).weight s.map ≤ n →
      ∃ as s', exec (mStep name) s as = some s' ∧ s'.lock = none ∧ ∀ a ∈ as, InMgr i a := by
    intro n
    induction n with
    | zero =>
      intro s h hl hw
      obtain ⟨as, s', h1, h2, h3 | ⟨-, h3⟩⟩ := mgr_next (mreach_inv h).1 hl
      · exact ⟨as, s', h1, h3, h2⟩
      · omega
    | succ n ih =>
      intro s h hl hw
      obtain ⟨as, s', h1, h2, h3 | ⟨h3, h4⟩⟩ := mgr_next (mreach_inv h).1 hl
      · exact ⟨as, s', h1, h3, h2⟩
      · obtain ⟨task, hf, hr⟩ := h
        obtain ⟨bs, y, g1, g2, g3⟩ := ih s' ⟨task, hf, hr.trans ⟨as, h1⟩⟩ h3 (by omega)
        refine ⟨as ++ bs, y, by rw [exec_append, h1]; exact g1, g2, fun a ha => ?_⟩
        rcases List.mem_append.1 ha with ha | ha
        · exact h2 a ha
        · exact g3 a ha
  exact key _ s h hl (Nat.le_refl _)

/-! ### Executions -/

/-- All tasks are fixed-rate tasks with interval 5 and timeout 7. -/
def rateTask : Task := ⟨⟨.rate, 5, 7, 0, .new, false, false, 0, .none, .none, [], false, [], []⟩, false, false, none, [], .none, .none, false⟩

/-- Non-vacuity: Register is in MustStart with the lock of the manager, the task is not started yet; Unregister of the same name waits. -/
example : ∃ s, MReach (fun _ => "a") s ∧ s.lock = some 0 ∧ s.callers 0 = .r61w 0 0 ∧ s.callers 1 = .u66 "a" ∧ s.map = [("a", 0)] ∧
    (s.task 0).st.status = .new ∧ s.abs.map = [] :=
  ⟨_, ⟨fun _ => rateTask, fun _ => ⟨.rate, 5, 7, rfl⟩, [.register 0 0, .unregister 1 "a", .mgr 0 0, .mgr 0 0, .mgr 0 0, .mgr 0 0, .task 0 (.caller 0)], rfl⟩,
    rfl, rfl, rfl, rfl, rfl, rfl⟩

/-- Non-vacuity: both calls return, one after the other; the task was started and is stopped. -/
example : ∃ s, MReach (fun _ => "a") s ∧ s.lock = none ∧ s.log = [.register 0 .ok, .unregister "a"] ∧ s.map = [] ∧ (s.task 0).st.stopSig = true :=
  ⟨_, ⟨fun _ => rateTask, fun _ => ⟨.rate, 5, 7, rfl⟩, [.register 0 0, .unregister 1 "a", .mgr 0 0, .mgr 0 0, .mgr 0 0, .mgr 0 0] ++
      List.replicate 8 (.task 0 (.caller 0)) ++ [.mgr 0 0, .mgr 0 0, .mgr 1 0, .mgr 1 0, .mgr 1 0] ++ List.replicate 7 (.task 0 (.caller 1)) ++
      [.mgr 1 0, .mgr 1 0, .mgr 1 0], rfl⟩, rfl, rfl, rfl, rfl⟩

/-- Non-vacuity: UnregisterAll has stopped one of two tasks and is at the other. -/
example : ∃ s, MReach toString s ∧ s.lock = some 2 ∧ s.callers 2 = .a82 [("1", 1)] ("0", 0) ∧ (s.task 1).st.stopSig = true ∧ (s.task 0).st.stopSig = false :=
  ⟨_, ⟨fun _ => rateTask, fun _ => ⟨.rate, 5, 7, rfl⟩, [.register 0 0, .mgr 0 0, .mgr 0 0, .mgr 0 0, .mgr 0 0] ++ List.replicate 8 (.task 0 (.caller 0)) ++
      [.mgr 0 0, .mgr 0 0, .register 1 1, .mgr 1 0, .mgr 1 0, .mgr 1 0, .mgr 1 0] ++ List.replicate 8 (.task 1 (.caller 0)) ++
      [.mgr 1 0, .mgr 1 0, .unregisterAll 2, .mgr 2 0, .mgr 2 0, .mgr 2 0] ++ List.replicate 7 (.task 1 (.caller 1)) ++ [.mgr 2 0, .mgr 2 1], rfl⟩,
    rfl, rfl, rfl, rfl⟩

end Gears.TaskManager.Instr
