import Verif.Bus.Props

/-
The life of a bus: who panics, and that every event sent is dispatched.
-/

namespace Gears.Bus

variable {ε : Type}

/-! ## C110 -/

/-! ### Who panics -/

/-- What one step does to the bus channel, and the panics it logs. -/
theorem step_panics {s s' : State ε} (w : Wf s) {a : Action ε} (h : step s a = some s') :
    (s'.chClosed = true ↔ s.chClosed = true ∨ a = .busClose1) ∧
    (Ev.sendPanic ∈ s'.log ↔ Ev.sendPanic ∈ s.log ∨ s.chClosed = true ∧ ∃ v, a = .send v) ∧
    (Ev.busClosePanic ∈ s'.log ↔ Ev.busClosePanic ∈ s.log ∨ s.chClosed = true ∧ a = .busClose1) := by
  have hwake : ∀ (e : Ev ε) (r : Nat), ¬ e.isClosing → e ∉ wakeLog r s.rds := fun e r he hm => he (wakeLog_closing r s.rds e hm).1
  cases a with
  | send v =>
    simp only [step] at h
    split at h
    · rename_i hc; simp at h; subst h; simp [hc]
    · rename_i hc; split at h <;> simp at h; subst h; simp [hc]
  | sendTo d v =>
    simp only [step] at h
    split at h <;> simp at h; subst h; simp
  | goDispatch => simp only [step] at h; simp at h; subst h; simp
  | take d =>
    simp only [step] at h
    split at h
    · split at h
      · simp at h; subst h; simp
      · split at h <;> simp at h; subst h; simp
    · simp at h
  | rlock d =>
    simp only [step] at h
    split at h
    · split at h <;> simp at h; subst h; simp
    · simp at h
  | visit d r k =>
    simp only [step] at h
    split at h
    · split at h
      · split at h
        · simp only [offer] at h
          repeat' split at h
          all_goals simp at h
          all_goals subst h
          all_goals simp
        · simp at h
      · simp at h
    · simp at h
  | runlock d =>
    simp only [step] at h
    split at h <;> simp at h; subst h; simp
  | newRecv name cap strat =>
    simp only [step] at h
    split at h <;> simp at h; subst h; simp
  | recvClose r =>
    simp only [step] at h
    repeat' split at h
    all_goals simp at h
    all_goals subst h
    all_goals simp [closeCh]
    exact ⟨fun h => absurd h (hwake _ _ (by simp [Ev.isClosing])), fun h => absurd h (hwake _ _ (by simp [Ev.isClosing]))⟩
  | busClose1 =>
    simp only [step] at h
    split at h
    · rename_i hc; simp at h; subst h; simp [hc]
    · rename_i hc; simp at h; subst h; simp [hc]
  | busClose2 =>
    simp only [step] at h
    split at h
    · rename_i hcl
      obtain ⟨s1, e1, e2, -⟩ := closeAll_spec s.map s w.ids_nodup (by
        intro p hp
        obtain ⟨c, hc, _, hop⟩ := w.entry p hp
        exact ⟨c, hc, hop⟩)
      rw [e1] at h
      simp at h; subst h
      obtain ⟨suf, he, hcs, _⟩ := e2.log
      have h1 : Ev.sendPanic ∉ suf := fun hm => by simpa [Ev.isClosing] using hcs _ hm
      have h2 : Ev.busClosePanic ∉ suf := fun hm => by simpa [Ev.isClosing] using hcs _ hm
      simp [he, h1, h2, e2.chClosed]
    · simp at h
  | startRead r drain =>
    simp only [step] at h
    split at h <;> simp at h; subst h; simp
  | recv k =>
    simp only [step] at h
    repeat' split at h
    all_goals simp at h
    all_goals subst h
    all_goals simp
  | recvFrom k d =>
    simp only [step] at h
    repeat' split at h
    all_goals simp at h
    all_goals subst h
    all_goals simp
  | timeout k =>
    simp only [step] at h
    repeat' split at h
    all_goals simp at h
    all_goals subst h
    all_goals simp

/-- In the list `as`, an action that satisfies `p` comes after `Close`. -/
def AfterClose (p : Action ε → Prop) (as : List (Action ε)) : Prop :=
  ∃ as1 a as2, as = as1 ++ a :: as2 ∧ Action.busClose1 ∈ as1 ∧ p a

theorem afterClose_cons (p : Action ε → Prop) (a : Action ε) (as : List (Action ε)) :
    AfterClose p (a :: as) ↔ (a = .busClose1 ∧ ∃ b ∈ as, p b) ∨ AfterClose p as := by
  constructor
  · rintro ⟨as1, b, as2, h1, h2, h3⟩
    cases as1 with
    | nil => simp at h2
    | cons c as1 =>
      simp only [List.cons_append, List.cons.injEq] at h1
      obtain ⟨rfl, rfl⟩ := h1
      rcases List.mem_cons.1 h2 with rfl | h2
      · exact .inl ⟨rfl, b, by simp, h3⟩
      · exact .inr ⟨as1, b, as2, rfl, h2, h3⟩
  · rintro (⟨rfl, b, hb, hp⟩ | ⟨as1, b, as2, rfl, h2, h3⟩)
    · obtain ⟨l1, l2, rfl⟩ := List.append_of_mem hb
      exact ⟨.busClose1 :: l1, b, l2, rfl, by simp, hp⟩
    · exact ⟨a :: as1, b, as2, rfl, by simp [h2], h3⟩

theorem exec_panics : ∀ (as : List (Action ε)) (s s' : State ε), Wf s → exec step s as = some s' →
    (s'.chClosed = true ↔ s.chClosed = true ∨ .busClose1 ∈ as) ∧
    (Ev.sendPanic ∈ s'.log ↔ Ev.sendPanic ∈ s.log ∨ (s.chClosed = true ∧ ∃ a ∈ as, ∃ v, a = .send v) ∨
      AfterClose (fun a => ∃ v, a = .send v) as) ∧
    (Ev.busClosePanic ∈ s'.log ↔ Ev.busClosePanic ∈ s.log ∨ (s.chClosed = true ∧ ∃ a ∈ as, a = .busClose1) ∨
      AfterClose (fun a => a = .busClose1) as)
  | [], s, s', _, h => by
    simp [exec] at h; subst h
    simp [AfterClose]
  | a :: as, s, s', w, h => by
    simp only [exec] at h
    split at h
    · rename_i s1 h1
      obtain ⟨a1, a2, a3⟩ := step_panics w h1
      obtain ⟨b1, b2, b3⟩ := exec_panics as s1 s' (wf_tr w (step_tr w h1)) h
      refine ⟨?_, ?_, ?_⟩
      · rw [b1, a1, List.mem_cons, or_assoc, eq_comm (a := a)]
      · rw [b2, a2, a1, afterClose_cons]
        constructor
        · rintro ((h | ⟨h, v, rfl⟩) | ⟨h | rfl, b, hb, v, rfl⟩ | h)
          · exact .inl h
          · exact .inr (.inl ⟨h, _, by simp, v, rfl⟩)
          · exact .inr (.inl ⟨h, _, by simp [hb], v, rfl⟩)
          · exact .inr (.inr (.inl ⟨rfl, _, hb, v, rfl⟩))
          · exact .inr (.inr (.inr h))
        · rintro (h | ⟨h, b, hb, v, rfl⟩ | ⟨rfl, b, hb, v, rfl⟩ | h)
          · exact .inl (.inl h)
          · rcases List.mem_cons.1 hb with rfl | hb
            · exact .inl (.inr ⟨h, v, rfl⟩)
            · exact .inr (.inl ⟨.inl h, _, hb, v, rfl⟩)
          · exact .inr (.inl ⟨.inr rfl, _, hb, v, rfl⟩)
          · exact .inr (.inr h)
      · rw [b3, a3, a1, afterClose_cons]
        constructor
        · rintro ((h | ⟨h, rfl⟩) | ⟨h | rfl, b, hb, rfl⟩ | h)
          · exact .inl h
          · exact .inr (.inl ⟨h, _, by simp, rfl⟩)
          · exact .inr (.inl ⟨h, _, by simp [hb], rfl⟩)
          · exact .inr (.inr (.inl ⟨rfl, _, hb, rfl⟩))
          · exact .inr (.inr (.inr h))
        · rintro (h | ⟨h, b, hb, rfl⟩ | ⟨rfl, b, hb, rfl⟩ | h)
          · exact .inl (.inl h)
          · rcases List.mem_cons.1 hb with rfl | hb
            · exact .inl (.inr ⟨h, rfl⟩)
            · exact .inr (.inl ⟨.inl h, _, hb, rfl⟩)
          · exact .inr (.inl ⟨.inr rfl, _, hb, rfl⟩)
          · exact .inr (.inr h)
    · simp at h

/-- **C110.**  A send to `FanOutBus.C` panics exactly if `Close` was called before; `Close` panics exactly if it was
called before. -/
theorem C110_panics (n : Nat) (as : List (Action ε)) (s : State ε) (h : exec step (new n) as = some s) :
    (Ev.sendPanic ∈ s.log ↔ AfterClose (fun a => ∃ v, a = .send v) as) ∧
    (Ev.busClosePanic ∈ s.log ↔ AfterClose (fun a => a = .busClose1) as) := by
  obtain ⟨-, h1, h2⟩ := exec_panics as (new n) s (wf_new n) h
  constructor
  · rw [h1]; simp [new]
  · rw [h2]; simp [new]

/-! ### Every event sent is dispatched -/

/-- The event that a dispatcher has taken and not begun to dispatch. -/
def DPC.taken : DPC ε → List ε
  | .got v => [v]
  | _ => []

def Keep (s : State ε) : Prop := ∀ P : ε → Bool,
  (sentOf s.log).countP P = (startsOf s.log).countP P + (s.disp.flatMap DPC.taken).countP P + s.ch.countP P

theorem taken_set (P : ε → Bool) : ∀ (l : List (DPC ε)) (d : Nat) (p q : DPC ε), l[d]? = some p →
    ((l.set d q).flatMap DPC.taken).countP P + p.taken.countP P = (l.flatMap DPC.taken).countP P + q.taken.countP P
  | [], d, p, q, h => by simp at h
  | x :: l, 0, p, q, h => by simp at h; subst h; simp; omega
  | x :: l, d + 1, p, q, h => by
    have := taken_set P l d p q (by simpa using h)
    simp at this ⊢; omega

theorem keep_frame {s s' : State ε} (h : Keep s) (hd : ∀ P, (s'.disp.flatMap DPC.taken).countP P = (s.disp.flatMap DPC.taken).countP P)
    (hch : s'.ch = s.ch) (hl : ∃ suf, s'.log = s.log ++ suf ∧ sentOf suf = [] ∧ startsOf suf = []) : Keep s' := by
  obtain ⟨suf, he, h1, h2⟩ := hl
  have e1 : sentOf s'.log = sentOf s.log := by
    unfold sentOf at *; rw [he, List.filterMap_append, h1, List.append_nil]
  have e2 : startsOf s'.log = startsOf s.log := by
    unfold startsOf at *; rw [he, List.filterMap_append, h2, List.append_nil]
  intro P
  rw [e1, e2, hd, hch, h P]

theorem keep_tr {s s' : State ε} (_ : Wf s) (h : Keep s) (t : Tr s s') : Keep s' := by
  have hset : ∀ {d : Nat} {p q : DPC ε}, s.disp[d]? = some p → p.taken = [] → q.taken = [] → ∀ P,
      ((s.disp.set d q).flatMap DPC.taken).countP P = (s.disp.flatMap DPC.taken).countP P := by
    intro d p q hp h1 h2 P
    have := taken_set P s.disp d p q hp
    simpa [h1, h2] using this
  cases t with
  | sendPanic _ => exact keep_frame h (fun _ => rfl) rfl ⟨_, rfl, by simp [sentOf], by simp [startsOf]⟩
  | send v _ _ =>
    intro P; have := h P
    simp [sentOf, startsOf] at this ⊢; omega
  | sendTo d v hd hch _ =>
    intro P; have := h P; have h2 := taken_set P s.disp d _ (.got v) hd
    simp [sentOf, startsOf, DPC.taken] at this h2 ⊢; omega
  | goDispatch => exact keep_frame h (by simp [DPC.taken]) rfl ⟨[], by simp, by simp [sentOf], by simp [startsOf]⟩
  | take d v ch hd hch =>
    intro P; have := h P; have h2 := taken_set P s.disp d _ (.got v) hd
    rw [hch] at this
    simp [sentOf, startsOf, DPC.taken, List.countP_cons] at this h2 ⊢; omega
  | gone d hd hch _ => exact keep_frame h (hset hd rfl rfl) rfl ⟨[], by simp, by simp [sentOf], by simp [startsOf]⟩
  | rlock d v hd _ =>
    intro P; have := h P; have h2 := taken_set P s.disp d _ (.visiting v (ids s.map)) hd
    simp [sentOf, startsOf, DPC.taken] at this h2 ⊢; omega
  | skip d r v rem c hd _ _ _ => exact keep_frame h (hset hd rfl rfl) rfl ⟨[], by simp, by simp [sentOf], by simp [startsOf]⟩
  | hand d r k v rem c rd hd _ _ _ _ _ _ _ => exact keep_frame h (hset hd rfl rfl) rfl ⟨_, rfl, by simp [sentOf], by simp [startsOf]⟩
  | buffer d r v rem c hd _ _ _ _ _ _ => exact keep_frame h (hset hd rfl rfl) rfl ⟨_, rfl, by simp [sentOf], by simp [startsOf]⟩
  | dropped d r v rem c hd _ _ _ _ _ _ => exact keep_frame h (hset hd rfl rfl) rfl ⟨_, rfl, by simp [sentOf], by simp [startsOf]⟩
  | runlock d v hd => exact keep_frame h (hset hd rfl rfl) rfl ⟨_, rfl, by simp [sentOf], by simp [startsOf]⟩
  | newRecv name cap strat hl =>
    refine keep_frame h (fun _ => rfl) rfl ⟨_, rfl, ?_, ?_⟩
    · unfold sentOf; rw [List.filterMap_append, filterMap_unreg (by simp)]; simp
    · unfold startsOf; rw [List.filterMap_append, filterMap_unreg (by simp)]; simp
  | wedge r me _ _ _ => exact keep_frame h (fun _ => rfl) rfl ⟨_, rfl, by simp [sentOf], by simp [startsOf]⟩
  | close s' rs hl hcl hm hrs =>
    obtain ⟨suf, he, hcs, _⟩ := hcl.log
    refine keep_frame h (fun _ => by rw [hcl.disp]) hcl.ch ⟨suf, he, ?_, ?_⟩
    · exact filterMap_closing (suf := suf) (by intro e; cases e <;> simp [Ev.isClosing]) hcs
    · exact filterMap_closing (suf := suf) (by intro e; cases e <;> simp [Ev.isClosing]) hcs
  | busPanic _ => exact keep_frame h (fun _ => rfl) rfl ⟨_, rfl, by simp [sentOf], by simp [startsOf]⟩
  | busClose1 _ => exact keep_frame h (fun _ => rfl) rfl ⟨[], by simp, by simp [sentOf], by simp [startsOf]⟩
  | startRead r drain hl => exact keep_frame h (fun _ => rfl) rfl ⟨[], by simp, by simp [sentOf], by simp [startsOf]⟩
  | readBuf k rd c v buf hk hst hc hb => exact keep_frame h (fun _ => rfl) rfl ⟨_, rfl, by simp [sentOf], by simp [startsOf]⟩
  | readClosed k rd c _ _ _ _ _ => exact keep_frame h (fun _ => rfl) rfl ⟨_, rfl, by simp [sentOf], by simp [startsOf]⟩
  | drained k rd c _ _ _ _ _ _ => exact keep_frame h (fun _ => rfl) rfl ⟨[], by simp, by simp [sentOf], by simp [startsOf]⟩
  | park k rd c _ _ _ _ _ _ => exact keep_frame h (fun _ => rfl) rfl ⟨[], by simp, by simp [sentOf], by simp [startsOf]⟩
  | timeout k rd _ _ => exact keep_frame h (fun _ => rfl) rfl ⟨[], by simp, by simp [sentOf], by simp [startsOf]⟩

theorem reach_keep {n : Nat} {s : State ε} (h : Reach n s) : Keep s :=
  (reach_inv h (by intro P; simp [new, sentOf, startsOf]) (fun _ _ => keep_tr)).2

theorem perm_of_countP {l l' : List ε} (h : ∀ P : ε → Bool, l.countP P = l'.countP P) : l.Perm l' := by
  classical
  rw [List.perm_iff_count]
  intro a
  exact h (· == a)

/-- **C110.**  The events sent are those whose dispatch has begun, those that a dispatcher has taken from the channel,
and those in the channel: none is lost or made up, none is dispatched twice, with any number of dispatchers. -/
theorem C110_conserve {n : Nat} {s : State ε} (h : Reach n s) :
    (sentOf s.log).Perm (startsOf s.log ++ s.disp.flatMap DPC.taken ++ s.ch) :=
  perm_of_countP fun P => by
    have := reach_keep h P
    simp at this ⊢; omega

/-- Once a dispatcher has ended, the bus is closed and its channel empty. -/
def Ended (s : State ε) : Prop := ∀ d : Nat, s.disp[d]? = some .gone → s.ch = [] ∧ s.chClosed = true

theorem ended_frame {s s' : State ε} (h : Ended s) (hd : ∀ d : Nat, s'.disp[d]? = some .gone → s.disp[d]? = some .gone)
    (hch : s.ch = [] → s.chClosed = true → s'.ch = []) (hc : s.chClosed = true → s'.chClosed = true) : Ended s' :=
  fun d hg => ⟨hch (h d (hd d hg)).1 (h d (hd d hg)).2, hc (h d (hd d hg)).2⟩

theorem ended_tr {s s' : State ε} (_ : Wf s) (h : Ended s) (t : Tr s s') : Ended s' := by
  have hset : ∀ {d : Nat} {p : DPC ε}, p ≠ .gone → ∀ d' : Nat, (s.disp.set d p)[d']? = some .gone → s.disp[d']? = some .gone := by
    intro d p hp d' h'
    rcases set_some h' with ⟨-, he⟩ | ⟨-, he⟩
    · exact absurd he hp.symm
    · exact he
  cases t with
  | send v hc _ => exact ended_frame h (fun _ h => h) (fun _ h => by rw [hc] at h; simp at h) (fun h => h)
  | sendTo d v hd hch hc => exact ended_frame h (hset (by simp)) (fun h _ => h) (fun h => h)
  | goDispatch =>
    refine ended_frame h (fun d hg => ?_) (fun h _ => h) (fun h => h)
    rcases snoc_some hg with ⟨-, he⟩ | ⟨-, he⟩
    · simp at he
    · exact he
  | take d v ch hd hch => exact ended_frame h (hset (by simp)) (fun h _ => by rw [hch] at h; simp at h) (fun h => h)
  | gone d hd hch hc => exact fun _ _ => ⟨hch, hc⟩
  | rlock d v hd _ => exact ended_frame h (hset (by simp)) (fun h _ => h) (fun h => h)
  | skip d r v rem c hd _ _ _ => exact ended_frame h (hset (by simp)) (fun h _ => h) (fun h => h)
  | hand d r k v rem c rd hd _ _ _ _ _ _ _ => exact ended_frame h (hset (by simp)) (fun h _ => h) (fun h => h)
  | buffer d r v rem c hd _ _ _ _ _ _ => exact ended_frame h (hset (by simp)) (fun h _ => h) (fun h => h)
  | dropped d r v rem c hd _ _ _ _ _ _ => exact ended_frame h (hset (by simp)) (fun h _ => h) (fun h => h)
  | runlock d v hd => exact ended_frame h (hset (by simp)) (fun h _ => h) (fun h => h)
  | close s' rs hl hcl hm hrs =>
    exact ended_frame h (fun d hg => hcl.disp ▸ hg) (fun h _ => hcl.ch ▸ h) (fun h => hcl.chClosed ▸ h)
  | busClose1 _ => exact ended_frame h (fun _ h => h) (fun h _ => h) (fun _ => rfl)
  | _ => exact ended_frame h (fun _ h => h) (fun h _ => h) (fun h => h)

theorem reach_ended {n : Nat} {s : State ε} (h : Reach n s) : Ended s :=
  (reach_inv h (by intro d; simp [new]) (fun _ _ => ended_tr)).2

/-- Dispatcher `d` begins, ends a dispatch. -/
def Ev.isStart (d : Nat) : Ev ε → Bool
  | .start d' _ => d' == d
  | _ => false

def Ev.isFin (d : Nat) : Ev ε → Bool
  | .fin d' => d' == d
  | _ => false

def DPC.busy : Option (DPC ε) → Nat
  | some (.visiting _ _) => 1
  | _ => 0

/-- Dispatcher `d` has begun as many dispatches as it has finished, but for the current one. -/
def Rounds (s : State ε) : Prop := ∀ d : Nat, s.log.countP (Ev.isStart d) = s.log.countP (Ev.isFin d) + DPC.busy s.disp[d]?

theorem rounds_frame {s s' : State ε} (h : Rounds s) (hd : ∀ d : Nat, DPC.busy s'.disp[d]? = DPC.busy s.disp[d]?)
    (hl : ∃ suf, s'.log = s.log ++ suf ∧ ∀ e ∈ suf, ∀ d, e.isStart d = false ∧ e.isFin d = false) : Rounds s' := by
  obtain ⟨suf, he, h1⟩ := hl
  intro d
  have e1 : suf.countP (Ev.isStart d) = 0 := List.countP_eq_zero.2 fun e he => by simp [(h1 e he d).1]
  have e2 : suf.countP (Ev.isFin d) = 0 := List.countP_eq_zero.2 fun e he => by simp [(h1 e he d).2]
  have := h d
  rw [he, List.countP_append, List.countP_append, e1, e2, hd]
  omega

theorem rounds_tr {s s' : State ε} (_ : Wf s) (h : Rounds s) (t : Tr s s') : Rounds s' := by
  have hset : ∀ {d : Nat} {p q : DPC ε}, s.disp[d]? = some p → DPC.busy (some q) = DPC.busy (some p) → ∀ d' : Nat,
      DPC.busy (s.disp.set d q)[d']? = DPC.busy s.disp[d']? := by
    intro d p q hp hq d'
    have := getElem?_lt hp
    rw [List.getElem?_set]
    split
    · rename_i e; subst e; rw [hp, hq]
    · rfl
  cases t with
  | sendPanic _ => exact rounds_frame h (fun _ => rfl) ⟨_, rfl, by simp [Ev.isStart, Ev.isFin]⟩
  | send v _ _ => exact rounds_frame h (fun _ => rfl) ⟨_, rfl, by simp [Ev.isStart, Ev.isFin]⟩
  | sendTo d v hd hch _ => exact rounds_frame h (hset hd rfl) ⟨_, rfl, by simp [Ev.isStart, Ev.isFin]⟩
  | goDispatch =>
    refine rounds_frame h (fun d => ?_) ⟨[], by simp, by simp⟩
    show DPC.busy (s.disp ++ [.idle])[d]? = _
    rw [List.getElem?_append]
    split
    · rfl
    · rename_i hlt
      rw [List.getElem?_eq_none (l := s.disp) (by omega)]
      cases hx : ([DPC.idle] : List (DPC ε))[d - s.disp.length]? with
      | none => rfl
      | some x => have := List.mem_of_getElem? hx; simp at this; subst this; rfl
  | take d v ch hd hch => exact rounds_frame h (hset hd rfl) ⟨[], by simp, by simp⟩
  | gone d hd hch _ => exact rounds_frame h (hset hd rfl) ⟨[], by simp, by simp⟩
  | rlock d v hd _ =>
    intro d'
    have := h d'
    have hlt := getElem?_lt hd
    simp only [List.countP_append, List.countP_singleton, List.getElem?_set]
    by_cases e : d = d'
    · subst e; rw [hd] at this; simp [Ev.isStart, Ev.isFin, hlt, DPC.busy] at this ⊢; omega
    · have e' : (d == d') = false := by simpa using e
      simp [Ev.isStart, Ev.isFin, e]; omega
  | skip d r v rem c hd _ _ _ => exact rounds_frame h (hset hd rfl) ⟨[], by simp, by simp⟩
  | hand d r k v rem c rd hd _ _ _ _ _ _ _ => exact rounds_frame h (hset hd rfl) ⟨_, rfl, by simp [Ev.isStart, Ev.isFin]⟩
  | buffer d r v rem c hd _ _ _ _ _ _ => exact rounds_frame h (hset hd rfl) ⟨_, rfl, by simp [Ev.isStart, Ev.isFin]⟩
  | dropped d r v rem c hd _ _ _ _ _ _ => exact rounds_frame h (hset hd rfl) ⟨_, rfl, by simp [Ev.isStart, Ev.isFin]⟩
  | runlock d v hd =>
    intro d'
    have := h d'
    have hlt := getElem?_lt hd
    simp only [List.countP_append, List.countP_singleton, List.getElem?_set]
    by_cases e : d = d'
    · subst e; rw [hd] at this; simp [Ev.isStart, Ev.isFin, hlt, DPC.busy] at this ⊢; omega
    · have e' : (d == d') = false := by simpa using e
      simp [Ev.isStart, Ev.isFin, e]; omega
  | newRecv name cap strat hl =>
    refine rounds_frame h (fun _ => rfl) ⟨_, rfl, ?_⟩
    intro e he d
    rcases List.mem_append.1 he with he | he
    · obtain ⟨r, -, rfl⟩ := List.mem_map.1 he
      exact ⟨rfl, rfl⟩
    · simp at he; subst he; exact ⟨rfl, rfl⟩
  | wedge r me _ _ _ => exact rounds_frame h (fun _ => rfl) ⟨_, rfl, by simp [Ev.isStart, Ev.isFin]⟩
  | close s' rs hl hcl hm hrs =>
    obtain ⟨suf, he, hcs, _⟩ := hcl.log
    refine rounds_frame h (fun _ => by rw [hcl.disp]) ⟨suf, he, fun e hm d => ?_⟩
    have := hcs e hm
    cases e <;> simp [Ev.isClosing] at this <;> exact ⟨rfl, rfl⟩
  | busPanic _ => exact rounds_frame h (fun _ => rfl) ⟨_, rfl, by simp [Ev.isStart, Ev.isFin]⟩
  | busClose1 _ => exact rounds_frame h (fun _ => rfl) ⟨[], by simp, by simp⟩
  | startRead r drain hl => exact rounds_frame h (fun _ => rfl) ⟨[], by simp, by simp⟩
  | readBuf k rd c v buf hk hst hc hb => exact rounds_frame h (fun _ => rfl) ⟨_, rfl, by simp [Ev.isStart, Ev.isFin]⟩
  | readClosed k rd c _ _ _ _ _ => exact rounds_frame h (fun _ => rfl) ⟨_, rfl, by simp [Ev.isStart, Ev.isFin]⟩
  | drained k rd c _ _ _ _ _ _ => exact rounds_frame h (fun _ => rfl) ⟨[], by simp, by simp⟩
  | park k rd c _ _ _ _ _ _ => exact rounds_frame h (fun _ => rfl) ⟨[], by simp, by simp⟩
  | timeout k rd _ _ => exact rounds_frame h (fun _ => rfl) ⟨[], by simp, by simp⟩

theorem reach_rounds {n : Nat} {s : State ε} (h : Reach n s) : Rounds s :=
  (reach_inv h (by intro d; simp [new, DPC.busy]) (fun _ _ => rounds_tr)).2

/-- **C110.**  A dispatcher ends only after `Close`, with the channel empty, and with all its dispatches finished. -/
theorem C110_ended (n : Nat) (as : List (Action ε)) (s : State ε) (h : exec step (new n) as = some s) (d : Nat)
    (hd : s.disp[d]? = some .gone) :
    Action.busClose1 ∈ as ∧ s.ch = [] ∧ s.log.countP (Ev.isStart d) = s.log.countP (Ev.isFin d) := by
  have hr : Reach n s := ⟨as, h⟩
  obtain ⟨h1, h2⟩ := reach_ended hr d hd
  have h3 := (exec_panics as (new n) s (wf_new n) h).1.1 h2
  have h4 := reach_rounds hr d
  rw [hd] at h4
  exact ⟨by simpa [new] using h3, h1, h4⟩

/-- **C110.**  When all dispatchers have ended (there was one), every event sent was dispatched, exactly once; no event is
sent any more. -/
theorem C110_all_dispatched {n : Nat} {s : State ε} (h : Reach n s) (h0 : s.disp ≠ []) (hd : ∀ p ∈ s.disp, p = .gone) :
    (sentOf s.log).Perm (startsOf s.log) ∧ ∀ s', Reachable step s s' → sentOf s'.log = sentOf s.log := by
  have hch : s.ch = [] ∧ s.chClosed = true := by
    cases hx : s.disp with
    | nil => exact absurd hx h0
    | cons p l => exact reach_ended h 0 (by rw [hx]; simp; exact hd p (by simp [hx]))
  constructor
  · have hz : s.disp.flatMap DPC.taken = [] := by
      rw [List.flatMap_eq_nil_iff]
      intro p hp; rw [hd p hp]; rfl
    have := C110_conserve h
    rw [hz, hch.1] at this
    simpa using this
  · intro s' hs'
    have := Reachable.inv (I := fun s1 => Wf s1 ∧ s1.chClosed = true ∧ sentOf s1.log = sentOf s.log) hs'
      ⟨reach_wf h, hch.2, rfl⟩ (by
        rintro s1 a s2 ⟨w, hc, he⟩ hst
        refine ⟨wf_tr w (step_tr w hst), (step_panics w hst).1.2 (.inl hc), ?_⟩
        have t := step_tr w hst
        rw [← he]
        cases t with
        | send v hc' _ => rw [hc] at hc'; simp at hc'
        | sendTo d v hd hch hc' => rw [hc] at hc'; simp at hc'
        | newRecv name cap strat hl =>
          unfold sentOf
          rw [List.filterMap_append, List.filterMap_append, filterMap_unreg (by simp)]; simp
        | close s' rs hl hcl hm hrs =>
          obtain ⟨suf, he, hcs, _⟩ := hcl.log
          unfold sentOf
          rw [he, List.filterMap_append, filterMap_closing (suf := suf) (by intro e; cases e <;> simp [Ev.isClosing]) hcs]
          simp
        | _ => simp [sentOf])
    exact this.2.2

/-- Receives of a dispatcher, and starts of one. -/
def Action.isTake : Action ε → Bool
  | .take _ => true
  | _ => false

def Action.isGo : Action ε → Bool
  | .goDispatch => true
  | _ => false

def DPC.alive : DPC ε → Bool
  | .gone => false
  | _ => true

theorem alive_set (l : List (DPC ε)) (d : Nat) (p q : DPC ε) (h : l[d]? = some p) :
    (l.set d q).countP DPC.alive + (if p.alive then 1 else 0) = l.countP DPC.alive + (if q.alive then 1 else 0) := by
  induction l generalizing d with
  | nil => simp at h
  | cons x l ih =>
    cases d with
    | zero => simp at h; subst h; simp [List.countP_cons]; omega
    | succ d =>
      have := ih d (by simpa using h)
      simp [List.countP_cons] at this ⊢; omega

theorem step_work {s s' : State ε} (hc : s.chClosed = true) (w : Wf s) {a : Action ε} (h : step s a = some s') :
    s'.ch.length + s'.disp.countP DPC.alive + (if a.isTake then 1 else 0) ≤
      s.ch.length + s.disp.countP DPC.alive + (if a.isGo then 1 else 0) := by
  have hset : ∀ {d : Nat} {p q : DPC ε}, s.disp[d]? = some p → p.alive = true →
      (s.disp.set d q).countP DPC.alive + 1 = s.disp.countP DPC.alive + (if q.alive then 1 else 0) := by
    intro d p q hp hpa
    have := alive_set s.disp d p q hp
    simpa [hpa] using this
  cases a with
  | send v =>
    simp only [step, hc, if_true] at h
    simp at h; subst h; simp [Action.isTake]
  | sendTo d v =>
    simp only [step, hc] at h
    split at h <;> simp_all
  | goDispatch => simp only [step] at h; simp at h; subst h; simp [Action.isTake, Action.isGo, DPC.alive]; omega
  | take d =>
    simp only [step] at h
    split at h
    · rename_i hd
      split at h
      · rename_i v ch hch
        simp at h; subst h
        have := hset (q := .got v) hd rfl
        simp [Action.isTake, hch, DPC.alive] at this ⊢; omega
      · simp only [hc, if_true, Option.some.injEq] at h
        subst h
        have := hset (q := .gone) hd rfl
        simp [Action.isTake, DPC.alive] at this ⊢; omega
    · simp at h
  | rlock d =>
    simp only [step] at h
    split at h
    · rename_i v hd
      split at h <;> simp at h; subst h
      have := hset (q := .visiting v (s.map.map Prod.snd)) hd rfl
      simp [Action.isTake, DPC.alive] at this ⊢; omega
    · simp at h
  | visit d r k =>
    simp only [step] at h
    split at h
    · rename_i v rem hd
      have h1 := hset (q := .visiting v (rem.erase r)) hd rfl
      have h2 := hset (q := .gone) hd rfl
      simp [DPC.alive] at h1 h2
      split at h
      · split at h
        · simp only [offer] at h
          repeat' split at h
          all_goals simp at h
          all_goals subst h
          all_goals simp [Action.isTake, DPC.alive]
          all_goals omega
        · simp at h
      · simp at h
    · simp at h
  | runlock d =>
    simp only [step] at h
    split at h
    · rename_i v hd
      simp at h; subst h
      have := hset (q := .idle) hd rfl
      simp [Action.isTake, DPC.alive] at this ⊢; omega
    · simp at h
  | newRecv name cap strat =>
    simp only [step] at h
    split at h <;> simp at h; subst h; simp [Action.isTake]
  | recvClose r =>
    simp only [step] at h
    repeat' split at h
    all_goals simp at h
    all_goals subst h
    all_goals simp [closeCh, Action.isTake]
  | busClose1 =>
    simp only [step, hc, if_true] at h
    simp at h; subst h; simp [Action.isTake]
  | busClose2 =>
    simp only [step] at h
    split at h
    · obtain ⟨s1, e1, e2, -⟩ := closeAll_spec s.map s w.ids_nodup (by
        intro p hp
        obtain ⟨c, hc, _, hop⟩ := w.entry p hp
        exact ⟨c, hc, hop⟩)
      rw [e1] at h
      simp at h; subst h
      simp [e2.ch, e2.disp, Action.isTake]
    · simp at h
  | startRead r drain =>
    simp only [step] at h
    split at h <;> simp at h; subst h; simp [Action.isTake]
  | recv k =>
    simp only [step] at h
    repeat' split at h
    all_goals simp at h
    all_goals subst h
    all_goals simp [Action.isTake]
  | recvFrom k d =>
    simp only [step] at h
    split at h
    · rename_i rd v rem _ hd
      have h1 := hset (q := .visiting v (rem.erase rd.r)) hd rfl
      simp [DPC.alive] at h1
      repeat' split at h
      all_goals simp at h
      all_goals subst h
      all_goals simp [Action.isTake, DPC.alive]
      all_goals omega
    · simp at h
  | timeout k =>
    simp only [step] at h
    repeat' split at h
    all_goals simp at h
    all_goals subst h
    all_goals simp [Action.isTake]

theorem takes_bound (s : State ε) (w : Wf s) (hc : s.chClosed = true) (as : List (Action ε)) (s' : State ε)
    (h : exec step s as = some s') :
    as.countP Action.isTake ≤ s.ch.length + s.disp.countP DPC.alive + as.countP Action.isGo := by
  induction as generalizing s with
  | nil => simp
  | cons a as ih =>
    simp only [exec] at h
    split at h
    · rename_i s1 h1
      have ih := ih s1 (wf_tr w (step_tr w h1)) ((step_panics w h1).1.2 (.inl hc)) h
      have key : s1.ch.length + s1.disp.countP DPC.alive + (if a.isTake then 1 else 0) ≤
          s.ch.length + s.disp.countP DPC.alive + (if a.isGo then 1 else 0) := by
        exact step_work hc w h1
      rw [List.countP_cons, List.countP_cons]
      omega
    · simp at h

/-- **C110.**  After `Close` the dispatchers receive at most as often as there are events in the channel and dispatchers
that have not ended. -/
theorem C110_bound {n : Nat} {s : State ε} (hr : Reach n s) (hc : s.chClosed = true) (as : List (Action ε)) (s' : State ε)
    (h : exec step s as = some s') :
    as.countP Action.isTake ≤ s.ch.length + s.disp.countP DPC.alive + as.countP Action.isGo :=
  takes_bound s (reach_wf hr) hc as s' h

/-- **C110.**  After `Close` a dispatcher that has not ended has a next step, if it does not wait for a Block receiver and
no goroutine died in `Receiver.Close` with the lock (C38). -/
theorem C110_progress {n : Nat} {s : State ε} (h : Reach n s) (hc : s.chClosed = true) (hw : s.wedged = false) (d : Nat)
    (p : DPC ε) (hd : s.disp[d]? = some p) (hg : p ≠ .gone)
    (hb : ∀ v rem, p = .visiting v rem → NoBlock s rem) :
    ∃ a : Action ε, (a = .take d ∨ a = .rlock d ∨ (∃ r k, a = .visit d r k) ∨ a = .runlock d) ∧ (step s a).isSome := by
  cases p with
  | idle =>
    refine ⟨.take d, .inl rfl, ?_⟩
    simp only [step, hd]
    cases s.ch <;> simp [hc]
  | got v => exact ⟨.rlock d, .inr (.inl rfl), C36_lock hd hw⟩
  | visiting v rem =>
    obtain ⟨h1, h2⟩ := C36_enabled h hd (hb v rem rfl)
    cases rem with
    | nil => exact ⟨.runlock d, by simp, h1 rfl⟩
    | cons r rem =>
      obtain ⟨k, hk⟩ := h2 r (by simp)
      exact ⟨.visit d r k, by simp, hk⟩
  | gone => exact absurd rfl hg

/-- Two dispatchers, three events, one of them still in the channel when the bus is closed. -/
example : ∃ s, exec step (new 2 : State Nat)
      [.goDispatch, .goDispatch, .send 1, .send 2, .take 0, .send 3, .take 1, .busClose1, .busClose2, .rlock 1, .runlock 1,
       .take 1, .rlock 0, .runlock 0, .rlock 1, .runlock 1, .take 0, .take 1] = some s ∧
    s.disp = [.gone, .gone] ∧ sentOf s.log = [1, 2, 3] ∧ startsOf s.log = [2, 1, 3] := ⟨_, rfl, by decide⟩

/-- A send after `Close` panics. -/
example : ∃ s, exec step (new 2 : State Nat) [.send 1, .busClose1, .send 2] = some s ∧ Ev.sendPanic ∈ s.log :=
  ⟨_, rfl, by decide⟩

end Gears.Bus
