import Verif.Schedule.Instr

/-
Every step of the instruction level is a step of Model.lean, or none, or (for a tick) two.
-/

namespace Gears.Schedule.Instr

open Gears.Schedule

theorem noTick_append (l l' : List Ev) : noTick (l ++ l') = noTick l ++ noTick l' := List.filter_append ..

theorem holder_caller {s : IState} {i : Nat} {c : Call} (hl : s.lock = some (.caller i)) (hc : s.callers[i]? = some c) :
    s.holder = some c.pc := by simp [IState.holder, hl, hc]

/-- A call that has the lock goes on, and keeps it. -/
theorem keep {s s' : IState} {i : Nat} {c : Call} {pc : CPC} (ok : LockOk s) (hc : s.callers[i]? = some c) (h1 : c.pc.crit = true)
    (h2 : pc.crit = true) (hl : s'.lock = s.lock) (hcs : s'.callers = s.callers.set i { c with pc := pc })
    (hk : s'.cons.crit = s.cons.crit) :
    LockOk s' ∧ s.holder = some c.pc ∧ s'.holder = some pc := by
  obtain ⟨o1, o2, o3⟩ := ok
  have hlk := (o1 i c hc).1 h1
  have hi := o2 i hlk
  refine ⟨⟨?_, ?_, ?_⟩, holder_caller hlk hc, ?_⟩
  · intro j d hd
    rw [hcs, List.getElem?_set] at hd
    rw [hl]
    split at hd
    · rename_i e; subst e
      simp at hd; subst hd
      simp [h2, hlk]
    · exact o1 j d hd
  · intro j hj; rw [hl] at hj; rw [hcs, List.length_set]; exact o2 j hj
  · rw [hk, hl]; exact o3
  · simp [IState.holder, hl, hlk, hcs, hi]

/-- A call takes the lock. -/
theorem take {s s' : IState} {i : Nat} {c : Call} {pc : CPC} (ok : LockOk s) (hc : s.callers[i]? = some c) (hn : s.lock = none)
    (h2 : pc.crit = true) (hl : s'.lock = some (.caller i)) (hcs : s'.callers = s.callers.set i { c with pc := pc })
    (hk : s'.cons = s.cons) :
    LockOk s' ∧ s.holder = none ∧ s'.holder = some pc := by
  obtain ⟨o1, o2, o3⟩ := ok
  have hi : i < s.callers.length := by
    rcases Nat.lt_or_ge i s.callers.length with h | h
    · exact h
    · rw [List.getElem?_eq_none h] at hc; simp at hc
  refine ⟨⟨?_, ?_, ?_⟩, by simp [IState.holder, hn], ?_⟩
  · intro j d hd
    rw [hcs, List.getElem?_set] at hd
    rw [hl]
    split at hd
    · rename_i e; subst e
      simp at hd; subst hd
      simp [h2]
    · rename_i hne
      have := o1 j d hd
      rw [hn] at this
      simp [hne]
      simpa using this
  · intro j hj; rw [hl] at hj; simp at hj; subst hj; rw [hcs, List.length_set]; exact hi
  · rw [hk, hl]; rw [hn] at o3; simpa using o3
  · simp [IState.holder, hl, hcs, hi]

/-- A call gives the lock back. -/
theorem give {s s' : IState} {i : Nat} {c : Call} {pc : CPC} (ok : LockOk s) (hc : s.callers[i]? = some c) (h1 : c.pc.crit = true)
    (h2 : pc.crit = false) (hl : s'.lock = none) (hcs : s'.callers = s.callers.set i { c with pc := pc })
    (hk : s'.cons = s.cons) :
    LockOk s' ∧ s.holder = some c.pc ∧ s'.holder = none := by
  obtain ⟨o1, o2, o3⟩ := ok
  have hlk := (o1 i c hc).1 h1
  have hi := o2 i hlk
  refine ⟨⟨?_, ?_, ?_⟩, holder_caller hlk hc, by simp [IState.holder, hl]⟩
  · intro j d hd
    rw [hcs, List.getElem?_set] at hd
    rw [hl]
    split at hd
    · rename_i e; subst e
      simp at hd; subst hd
      simp [h2]
    · rename_i hne
      have := o1 j d hd
      rw [hlk] at this
      simp [hne] at this
      simp [this]
  · intro j hj; rw [hl] at hj; simp at hj
  · rw [hk, hl]; rw [hlk] at o3; simpa using o3

/-- Only the consumer, the provider or the shared state change, and the lock does not. -/
theorem others {s s' : IState} (ok : LockOk s) (hl : s'.lock = s.lock) (hcs : s'.callers = s.callers) (hk : s'.cons.crit = s.cons.crit) :
    LockOk s' ∧ s'.holder = s.holder := by
  obtain ⟨o1, o2, o3⟩ := ok
  refine ⟨⟨?_, ?_, ?_⟩, by simp [IState.holder, hl, hcs]⟩
  · intro j d hd; rw [hcs] at hd; rw [hl]; exact o1 j d hd
  · intro j hj; rw [hl] at hj; rw [hcs]; exact o2 j hj
  · rw [hk, hl]; exact o3

/-- The consumer takes the lock. -/
theorem takeK {s s' : IState} (ok : LockOk s) (hn : s.lock = none) (hl : s'.lock = some .cons) (hcs : s'.callers = s.callers)
    (hk : s'.cons.crit = true) : LockOk s' ∧ s'.holder = s.holder := by
  obtain ⟨o1, o2, o3⟩ := ok
  refine ⟨⟨?_, ?_, ?_⟩, by simp [IState.holder, hl, hn]⟩
  · intro j d hd; rw [hcs] at hd; rw [hl]; have := o1 j d hd; rw [hn] at this; simpa using this
  · intro j hj; rw [hl] at hj; simp at hj
  · simp [hk, hl]

/-- The consumer gives the lock back. -/
theorem giveK {s s' : IState} (ok : LockOk s) (hc : s.cons.crit = true) (hl : s'.lock = none) (hcs : s'.callers = s.callers)
    (hk : s'.cons.crit = false) : LockOk s' ∧ s'.holder = s.holder := by
  obtain ⟨o1, o2, o3⟩ := ok
  have hlk := o3.1 hc
  refine ⟨⟨?_, ?_, ?_⟩, by simp [IState.holder, hl, hlk]⟩
  · intro j d hd; rw [hcs] at hd; rw [hl]; have := o1 j d hd; rw [hlk] at this; simpa using this
  · intro j hj; rw [hl] at hj; simp at hj
  · simp [hk, hl]

/-- A step here, with what belongs to it in Model.lean. -/
def Sim (s' : IState) (t : State) : Prop := LockOk s' ∧ ∃ t', Reachable step t t' ∧ s'.Rel t'

macro "rel" : tactic => `(tactic| (constructor <;> first | assumption | (simp_all [absCons, absProv, Ticks, noTick_append, NoRel, PcRel]; done) | (simp [absCons, absProv, Ticks, NoRel, PcRel] at *; grind)))

section
variable {st : State} {tk tg nu : Bool} {k : KPC} {p : PPC} {t : State}

theorem rel_start (r : Rel st tk tg nu k p none t) : Rel st tk tg nu k p (some .s69) t := by
  obtain ⟨r1, r2, r3, r4, r5, r6, r7, r8, r9, r10, r11, r12, r13, r14, r15, r16, r17, r18, r19, r20⟩ := r
  rel

theorem rel_stop (r : Rel st tk tg nu k p none t) : Rel st tk tg nu k p (some .p83) t := by
  obtain ⟨r1, r2, r3, r4, r5, r6, r7, r8, r9, r10, r11, r12, r13, r14, r15, r16, r17, r18, r19, r20⟩ := r
  rel

theorem rel_unlock {x : Res} (r : Rel st tk tg nu k p (some (.unlock x)) t) : Rel st tk tg nu k p none t := by
  obtain ⟨r1, r2, r3, r4, r5, r6, r7, r8, r9, r10, r11, r12, r13, r14, r15, r16, r17, r18, r19, r20⟩ := r
  rel

/-- A call that fails. -/
theorem rel_err {h : CPC} {e : Ev} {x : Res} (hh : h = .s69 ∨ h = .s73 ∨ h = .p83 ∨ h = .p86) (he : e ≠ .tick) (r : Rel st tk tg nu k p (some h) t) :
    Rel { st with log := st.log ++ [e] } tk tg nu k p (some (.unlock x)) { t with log := t.log ++ [e] } := by
  obtain ⟨r1, r2, r3, r4, r5, r6, r7, r8, r9, r10, r11, r12, r13, r14, r15, r16, r17, r18, r19, r20⟩ := r
  rcases hh with rfl | rfl | rfl | rfl <;> rel

theorem rel_s73 (hs : st.status ≠ .started) (r : Rel st tk tg nu k p (some .s69) t) : Rel st tk tg nu k p (some .s73) t := by
  obtain ⟨r1, r2, r3, r4, r5, r6, r7, r8, r9, r10, r11, r12, r13, r14, r15, r16, r17, r18, r19, r20⟩ := r
  rel

theorem rel_s77 (hs : st.status ≠ .stopped) (r : Rel st tk tg nu k p (some .s73) t) : Rel st tk tg nu k p (some .s77) t := by
  obtain ⟨r1, r2, r3, r4, r5, r6, r7, r8, r9, r10, r11, r12, r13, r14, r15, r16, r17, r18, r19, r20⟩ := r
  have : st.status = .new := by cases h : st.status <;> simp_all [PcRel]
  rel

theorem rel_p86 (hs : st.status ≠ .new) (r : Rel st tk tg nu k p (some .p83) t) : Rel st tk tg nu k p (some .p86) t := by
  obtain ⟨r1, r2, r3, r4, r5, r6, r7, r8, r9, r10, r11, r12, r13, r14, r15, r16, r17, r18, r19, r20⟩ := r
  rel

theorem rel_p90 (hs : st.status ≠ .stopped) (r : Rel st tk tg nu k p (some .p86) t) : Rel st tk tg nu k p (some .p90) t := by
  obtain ⟨r1, r2, r3, r4, r5, r6, r7, r8, r9, r10, r11, r12, r13, r14, r15, r16, r17, r18, r19, r20⟩ := r
  have : st.status = .started := by cases h : st.status <;> simp_all [PcRel]
  rel

theorem rel_p91 (r : Rel st tk tg nu k p (some .p90) t) : Rel { st with status := .stopped } tk tg nu k p (some .p91) t := by
  obtain ⟨r1, r2, r3, r4, r5, r6, r7, r8, r9, r10, r11, r12, r13, r14, r15, r16, r17, r18, r19, r20⟩ := r
  rel

/-- The assignment of `status` in Start. -/
theorem rel_started (lf : Life t) (m : Bool) (r : Rel st tk tg nu k p (some .s77) t) :
    ∃ t', step t (.start m) = some t' ∧ Rel { st with status := .started, log := st.log ++ [.startRes m .ok] } tk tg nu k p
      (some (if st.kind = .rate then .s87 else .s89)) t' := by
  obtain ⟨r1, r2, r3, r4, r5, r6, r7, r8, r9, r10, r11, r12, r13, r14, r15, r16, r17, r18, r19, r20⟩ := r
  have hn : st.status = .new := r16
  have ht : t.status = .new := by simpa [hn] using r10
  have hc := lf.cons.2 ht
  have hp := lf.prov.2 (.inl ht)
  have hk : k = .none := by cases k <;> simp_all [absCons]; split at hc <;> simp at hc
  have hpp : p = .none := by
    subst hk
    simp only [Ticks, ht, hp, hc] at r19
    cases p <;> simp_all [absProv]
  subst hk hpp
  cases hkd : st.kind with
  | delay =>
    refine ⟨_, by simp [step, ht, r1, hkd, r11]; rfl, ?_⟩
    rel
  | rate =>
    refine ⟨_, by simp [step, ht, r1, hkd, r11]; rfl, ?_⟩
    rel

theorem rel_s89 (r : Rel st tk tg nu k p (some .s87) t) : Rel { st with tickBuf := false } true true nu k p (some .s89) t := by
  obtain ⟨r1, r2, r3, r4, r5, r6, r7, r8, r9, r10, r11, r12, r13, r14, r15, r16, r17, r18, r19, r20⟩ := r
  rel

theorem rel_cons (r : Rel st tk tg nu k p (some .s89) t) :
    Rel st tk tg nu .sel p (some (if st.kind = .rate then .s90 else .queue)) t := by
  obtain ⟨r1, r2, r3, r4, r5, r6, r7, r8, r9, r10, r11, r12, r13, r14, r15, r16, r17, r18, r19, r20⟩ := r
  have hk := r13 (.inr rfl)
  subst hk
  cases hkd : st.kind <;> rel

theorem rel_prov (r : Rel st tk tg nu k p (some .s90) t) : Rel st tk tg nu k .first (some (.unlock .ok)) t := by
  obtain ⟨r1, r2, r3, r4, r5, r6, r7, r8, r9, r10, r11, r12, r13, r14, r15, r16, r17, r18, r19, r20⟩ := r
  have hk := r14 (.inr (.inr rfl))
  subst hk
  rel

theorem rel_p112 (r : Rel st tk tg nu k p (some .p112) t) : Rel st tk false (nu || !tk) k p (some (.unlock .ok)) t := by
  obtain ⟨r1, r2, r3, r4, r5, r6, r7, r8, r9, r10, r11, r12, r13, r14, r15, r16, r17, r18, r19, r20⟩ := r
  rel

/-- `close(stopSig)`.  In Model.lean the ticker of a FixedRateTask fires before. -/
theorem rel_stopped (lf : Life t) (m : Bool) (r : Rel st tk tg nu k p (some .p91) t) : st.stopSig = false ∧
    ∃ t', Reachable step t t' ∧ Rel { st with stopSig := true, log := st.log ++ [.stopRes m .ok] } tk tg nu k p
      (some (if st.kind = .rate then .p112 else .unlock .ok)) t' := by
  obtain ⟨r1, r2, r3, r4, r5, r6, r7, r8, r9, r10, r11, r12, r13, r14, r15, r16, r17, r18, r19, r20⟩ := r
  have ht : t.status = .started := by simpa using r10
  have hsig : st.stopSig = false := by
    rw [← r5]
    cases h : t.stopSig
    · rfl
    · rw [lf.sig.1 h] at ht; simp at ht
  have hss : st.status = .stopped := r16
  refine ⟨hsig, ?_⟩
  cases hkd : st.kind with
  | delay =>
    refine ⟨_, Reachable.step (.stop m) (by simp [step, ht, r1, hkd, r11, r5, hsig]; rfl), ?_⟩
    rel
  | rate =>
    refine ⟨_, (Reachable.step (s' := { t with tickBuf := true }) .tickerFire (by simp [step, ht, r1, hkd])).trans
      (Reachable.step (.stop m) (by simp [step, ht, r11, r5, hsig]; rfl)), ?_⟩
    rel

theorem rel_handStart (r : Rel st tk tg nu .sel p (some .queue) t) :
    ∃ t', step t .handStart = some t' ∧ Rel st tk tg nu .g1 p (some (.unlock .ok)) t' := by
  obtain ⟨r1, r2, r3, r4, r5, r6, r7, r8, r9, r10, r11, r12, r13, r14, r15, r16, r17, r18, r19, r20⟩ := r
  have hk : st.kind = .delay := r16.2
  refine ⟨{ t with starting := false, cons := .got }, by simp [step, r11, r12, hk, absCons], ?_⟩
  rel

theorem rel_startAbort (hs : st.stopSig = true) (r : Rel st tk tg nu k p (some .queue) t) :
    ∃ t', step t .startAbort = some t' ∧ Rel st tk tg nu k p (some (.unlock .ok)) t' := by
  obtain ⟨r1, r2, r3, r4, r5, r6, r7, r8, r9, r10, r11, r12, r13, r14, r15, r16, r17, r18, r19, r20⟩ := r
  have hk : st.kind = .delay := r16.2
  refine ⟨{ t with starting := false }, by simp [step, r11, hk, r5, hs], ?_⟩
  rel

variable {h : Option CPC}

theorem rel_handFut {i : Nat} (hf : st.futs[i]? = some .sending) (r : Rel st tk tg nu .sel p h t) :
    ∃ t', step t (.handFut i) = some t' ∧ Rel { st with futs := st.futs.set i .done } tk tg nu .g1 p h t' := by
  obtain ⟨r1, r2, r3, r4, r5, r6, r7, r8, r9, r10, r11, r12, r13, r14, r15, r16, r17, r18, r19, r20⟩ := r
  refine ⟨{ t with futs := t.futs.set i .done, cons := .got }, by simp [step, r12, r6, hf, absCons], ?_⟩
  rel

theorem rel_futAbort {i : Nat} (hf : st.futs[i]? = some .sending) (hs : st.stopSig = true) (r : Rel st tk tg nu k p h t) :
    ∃ t', step t (.futAbort i) = some t' ∧ Rel { st with futs := st.futs.set i .done } tk tg nu k p h t' := by
  obtain ⟨r1, r2, r3, r4, r5, r6, r7, r8, r9, r10, r11, r12, r13, r14, r15, r16, r17, r18, r19, r20⟩ := r
  refine ⟨{ t with futs := t.futs.set i .done }, by simp [step, r6, hf, r5, hs], ?_⟩
  rel

theorem rel_consAbort (hs : st.stopSig = true) (r : Rel st tk tg nu .sel p h t) :
    ∃ t', step t .consAbort = some t' ∧ Rel st tk tg nu .done p h t' := by
  obtain ⟨r1, r2, r3, r4, r5, r6, r7, r8, r9, r10, r11, r12, r13, r14, r15, r16, r17, r18, r19, r20⟩ := r
  refine ⟨{ t with cons := .done }, by simp [step, r12, absCons, r5, hs], ?_⟩
  rel

theorem rel_handProv (hp : p = .first ∨ p = .send) (r : Rel st tk tg nu .sel p h t) :
    ∃ t', step t .handProv = some t' ∧ Rel st tk tg nu .g1 .rd h t' := by
  obtain ⟨r1, r2, r3, r4, r5, r6, r7, r8, r9, r10, r11, r12, r13, r14, r15, r16, r17, r18, r19, r20⟩ := r
  have hq : t.prov = .first ∨ t.prov = .send := by
    simp only [Ticks, r12, absCons] at r19
    rcases hp with rfl | rfl <;> simp_all [absProv]
    grind
  refine ⟨{ t with prov := .loop, cons := .got }, by simp [step, r12, absCons, hq], ?_⟩
  rel

theorem rel_provAbort (lf : Life t) (hp : p = .first ∨ p = .send ∨ p = .loop) (hs : st.stopSig = true) (r : Rel st tk tg nu k p h t) :
    ∃ t', step t .provAbort = some t' ∧ Rel st tk tg nu k .done h t' := by
  obtain ⟨r1, r2, r3, r4, r5, r6, r7, r8, r9, r10, r11, r12, r13, r14, r15, r16, r17, r18, r19, r20⟩ := r
  have hst := lf.sig.1 (r5.trans hs)
  have hq : t.prov = .first ∨ t.prov = .send ∨ t.prov = .loop := by
    simp only [Ticks] at r19
    rcases hp with rfl | rfl | rfl <;> simp_all [absProv] <;> grind
  refine ⟨{ t with prov := .done }, by simp [step, hq, r5, hs], ?_⟩
  rel

theorem rel_rd (lf : Life t) (r : Rel st tk tg nu k .rd h t) : Rel st tk tg (nu || !tk) k .loop h t := by
  obtain ⟨r1, r2, r3, r4, r5, r6, r7, r8, r9, r10, r11, r12, r13, r14, r15, r16, r17, r18, r19, r20⟩ := r
  have h1 : t.prov = .loop := by
    simp only [Ticks] at r19
    simp_all [absProv]
    grind
  have h2 := mt lf.prov.2 (by simp [h1])
  have h3 : h ≠ some .s87 := fun e => by have := r14 (.inl e); simp at this
  have h4 : st.status ≠ .new := by
    intro e
    rw [e] at r10 r16
    split at r10
    · rename_i e'; rw [e'] at r16; simp [PcRel] at r16
    · exact h2 (.inl r10)
  have h5 : st.kind = .rate := by
    cases e : st.kind
    · exact absurd (.inr (r1.trans e)) h2
    · rfl
  have h6 := (r17 h5).2 ⟨h4, h3⟩
  rel

theorem rel_tickerFire (hg : tg = true) (r : Rel st tk tg nu k p h t) : Rel { st with tickBuf := true } tk tg nu k p h t := by
  obtain ⟨r1, r2, r3, r4, r5, r6, r7, r8, r9, r10, r11, r12, r13, r14, r15, r16, r17, r18, r19, r20⟩ := r
  rel

theorem rel_provTick (lf : Life t) (hb : st.tickBuf = true) (r : Rel st tk tg nu k .loop h t) :
    ∃ t', Reachable step t t' ∧ Rel { st with tickBuf := false, log := st.log ++ [.tick] } tk tg nu k .send h t' := by
  obtain ⟨r1, r2, r3, r4, r5, r6, r7, r8, r9, r10, r11, r12, r13, r14, r15, r16, r17, r18, r19, r20⟩ := r
  have hk := r18 (.inr hb)
  rcases r19 with ⟨h1, h2⟩ | ⟨h1, h2, h3⟩ | ⟨h1, h2, h3⟩ | ⟨h1, h2, h3, h4⟩
  · have h1 : t.prov = .loop := h1
    have hr : Reachable step t { t with tickBuf := true } := by
      rcases h2 (.inl hb) with h2 | h2
      · have : { t with tickBuf := true } = t := by rw [← h2]
        rw [this]; exact Reachable.refl _
      · exact Reachable.step .tickerFire (by simp [step, r1, hk, h2])
    refine ⟨{ t with prov := .send, tickBuf := false, log := t.log ++ [.tick] },
      hr.trans (Reachable.step .provTick (by simp [step, h1])), ?_⟩
    have hst : t.status = .started ∨ t.status = .stopped := by
      have := mt lf.prov.2 (by simp [h1])
      cases h : t.status <;> simp_all
    rel
  · simp at h3
  · simp at h3
  · refine ⟨t, Reachable.refl _, ?_⟩
    have hl : noTick (st.log ++ [.tick]) = noTick st.log := by simp [noTick]
    rel

/-! The consumer. -/

theorem rel_g2 (r : Rel st tk tg nu .g1 p h t) : Rel st tk tg nu .g2 p h t := by
  obtain ⟨r1, r2, r3, r4, r5, r6, r7, r8, r9, r10, r11, r12, r13, r14, r15, r16, r17, r18, r19, r20⟩ := r
  rel

theorem rel_g3 (hh : h = none) (r : Rel st tk tg nu .g2 p h t) :
    ∃ t', step t .consCheck = some t' ∧ Rel st tk tg nu (.g3 st.status) p h t' := by
  obtain ⟨r1, r2, r3, r4, r5, r6, r7, r8, r9, r10, r11, r12, r13, r14, r15, r16, r17, r18, r19, r20⟩ := r
  subst hh
  have hs : t.status = st.status := by simpa using r10
  have hc : t.cons = .got := r12
  by_cases hx : st.status = .stopped
  · refine ⟨{ t with cons := .done }, by simp [step, hc, r11, hs, hx], ?_⟩
    rel
  · refine ⟨{ t with cons := .checked }, by simp [step, hc, r11, hs, hx], ?_⟩
    rel

theorem rel_g (v : Status) (r : Rel st tk tg nu (.g3 v) p h t) : Rel st tk tg nu (if v = .stopped then .done else .n1) p h t := by
  obtain ⟨r1, r2, r3, r4, r5, r6, r7, r8, r9, r10, r11, r12, r13, r14, r15, r16, r17, r18, r19, r20⟩ := r
  split <;> rel

theorem rel_n2 (r : Rel st tk tg nu .n1 p h t) : Rel st tk tg nu .n2 p h t := by
  obtain ⟨r1, r2, r3, r4, r5, r6, r7, r8, r9, r10, r11, r12, r13, r14, r15, r16, r17, r18, r19, r20⟩ := r
  rel

theorem rel_n3 (r : Rel st tk tg nu .n2 p h t) : Rel st tk tg nu (.n3 st.no) p h t := by
  obtain ⟨r1, r2, r3, r4, r5, r6, r7, r8, r9, r10, r11, r12, r13, r14, r15, r16, r17, r18, r19, r20⟩ := r
  rel

theorem rel_n4 (v : Nat) (r : Rel st tk tg nu (.n3 v) p h t) : Rel { st with no := v + 1 } tk tg nu .n4 p h t := by
  obtain ⟨r1, r2, r3, r4, r5, r6, r7, r8, r9, r10, r11, r12, r13, r14, r15, r16, r17, r18, r19, r20⟩ := r
  rel

theorem rel_n5 (r : Rel st tk tg nu .n4 p h t) : Rel st tk tg nu (.n5 st.no) p h t := by
  obtain ⟨r1, r2, r3, r4, r5, r6, r7, r8, r9, r10, r11, r12, r13, r14, r15, r16, r17, r18, r19, r20⟩ := r
  rel

theorem rel_n6 (v : Nat) (r : Rel st tk tg nu (.n5 v) p h t) : Rel st tk tg nu (.n6 v) p h t := by
  obtain ⟨r1, r2, r3, r4, r5, r6, r7, r8, r9, r10, r11, r12, r13, r14, r15, r16, r17, r18, r19, r20⟩ := r
  rel

theorem rel_next (lf : Life t) (v : Nat) (r : Rel st tk tg nu (.n6 v) p h t) :
    ∃ t', step t .consNext = some t' ∧ Rel { st with jobs := st.jobs ++ [⟨v, 0, false, .notStarted, .begin⟩] } tk tg nu
      (match st.kind with | .delay => .run st.jobs.length | .rate => .sel) p h t' := by
  obtain ⟨r1, r2, r3, r4, r5, r6, r7, r8, r9, r10, r11, r12, r13, r14, r15, r16, r17, r18, r19, r20⟩ := r
  have hc : t.cons = .checked := r12
  have hst : t.starting = false := by
    cases e : t.starting
    · rfl
    · have := (lf.start e).2.2; rw [hc] at this; simp at this
  have hv : v = t.no + 1 := r15.1
  cases hk : st.kind with
  | delay =>
    refine ⟨_, by simp [step, hc, hst, r1, hk]; rfl, ?_⟩
    rel
  | rate =>
    refine ⟨_, by simp [step, hc, hst, r1, hk]; rfl, ?_⟩
    rel

theorem rel_run {j : Nat} {x : Job} (hx : st.jobs[j]? = some x) (hr : x.pc = .ret) (r : Rel st tk tg nu (.run j) p h t) :
    ∃ t', step t .consSpawn = some t' ∧ Rel { st with futs := st.futs ++ [.spawned] } tk tg nu .sel p h t' := by
  obtain ⟨r1, r2, r3, r4, r5, r6, r7, r8, r9, r10, r11, r12, r13, r14, r15, r16, r17, r18, r19, r20⟩ := r
  refine ⟨{ t with cons := .wait, futs := t.futs ++ [.spawned] }, by simp [step, r12, absCons, r7, hx, hr], ?_⟩
  rel

/-- Timers, jobs and the clock. -/
theorem rel_other {a : Action} {st' : State} (ha : isOther a = true) (hs : step st a = some st') (r : Rel st tk tg nu k p h t) :
    ∃ t', step t a = some t' ∧ Rel st' tk tg nu k p h t' := by
  obtain ⟨r1, r2, r3, r4, r5, r6, r7, r8, r9, r10, r11, r12, r13, r14, r15, r16, r17, r18, r19, r20⟩ := r
  cases a <;> simp only [isOther, Bool.false_eq_true] at ha <;> clear ha <;> simp only [step, State.setJob, r7, r6, r5, r4, r3, r2] at hs ⊢ <;>
    (repeat' split at hs) <;> simp only [Option.some.injEq, reduceCtorEq] at hs <;> subst hs <;> simp only [*] <;>
    first | (refine ⟨_, rfl, ?_⟩; rel) | (rename_i hc; rw [if_pos ⟨hc.1, by simp⟩]; refine ⟨_, rfl, ?_⟩; rel)

end

/-! ### All steps -/

theorem sim_caller {s s' : IState} {t : State} {i : Nat} {c : Call} (ok : LockOk s) (r : s.Rel t) (iv : Inv t) (hc : s.callers[i]? = some c)
    (h : callerStep s i c = some s') : Sim s' t := by
  have lf := iv.life
  unfold IState.Rel at r
  have K : ∀ {pc : CPC}, c.pc.crit = true → pc.crit = true → s'.lock = s.lock → s'.callers = s.callers.set i { c with pc := pc } →
      s'.cons.crit = s.cons.crit → (∀ t', Instr.Rel s'.st s'.ticker s'.ticking s'.nilUse s'.cons s'.prov (some pc) t' → Reachable step t t' → Sim s' t) := by
    intro pc h1 h2 h3 h4 h5 t' h6 h7
    obtain ⟨k1, k2, k3⟩ := keep ok hc h1 h2 h3 h4 h5
    exact ⟨k1, t', h7, by unfold IState.Rel; rw [k3]; exact h6⟩
  have H : c.pc.crit = true → s.holder = some c.pc := fun h1 => holder_caller ((ok.call i c hc).1 h1) hc
  cases hp : c.pc with
  | start =>
    simp only [callerStep, hp] at h
    split at h <;> simp only [Option.some.injEq, reduceCtorEq] at h
    rename_i hn
    obtain ⟨k1, k2, k3⟩ := take (s' := s') (pc := .s69) ok hc hn rfl (by subst h; rfl) (by subst h; rfl) (by subst h; rfl)
    refine ⟨k1, t, Reachable.refl _, ?_⟩
    unfold IState.Rel; rw [k3]; rw [k2] at r; subst h
    exact rel_start r
  | stop =>
    simp only [callerStep, hp] at h
    split at h <;> simp only [Option.some.injEq, reduceCtorEq] at h
    rename_i hn
    obtain ⟨k1, k2, k3⟩ := take (s' := s') (pc := .p83) ok hc hn rfl (by subst h; rfl) (by subst h; rfl) (by subst h; rfl)
    refine ⟨k1, t, Reachable.refl _, ?_⟩
    unfold IState.Rel; rw [k3]; rw [k2] at r; subst h
    exact rel_stop r
  | s69 =>
    rw [hp] at H K
    rw [H rfl] at r
    simp only [callerStep, hp] at h
    split at h <;> simp only [Option.some.injEq] at h <;> subst h
    · rename_i hs
      refine K (pc := .unlock (resOf c.must)) rfl rfl rfl rfl rfl _ (rel_err (.inl rfl) (by simp) r) (Reachable.step (.start c.must) ?_)
      have hst := r.status
      have hss := r.starting
      simp [hs] at hst hss
      simp [step, hst, hss]
    · rename_i hs
      exact K rfl rfl rfl rfl rfl t (rel_s73 hs r) (Reachable.refl _)
  | s73 =>
    rw [hp] at H K
    rw [H rfl] at r
    simp only [callerStep, hp] at h
    split at h <;> simp only [Option.some.injEq] at h <;> subst h
    · rename_i hs
      refine K (pc := .unlock (resOf c.must)) rfl rfl rfl rfl rfl _ (rel_err (.inr (.inl rfl)) (by simp) r) (Reachable.step (.start c.must) ?_)
      have hst := r.status
      have hss := r.starting
      simp [hs] at hst hss
      simp [step, hst, hss]
    · rename_i hs
      exact K rfl rfl rfl rfl rfl t (rel_s77 hs r) (Reachable.refl _)
  | s77 =>
    rw [hp] at H K
    rw [H rfl] at r
    simp only [callerStep, hp, Option.some.injEq] at h
    subst h
    obtain ⟨t', h1, h2⟩ := rel_started lf c.must r
    exact K rfl (by split <;> rfl) rfl rfl rfl t' h2 (Reachable.step _ h1)
  | s87 =>
    rw [hp] at H K
    rw [H rfl] at r
    simp only [callerStep, hp, Option.some.injEq] at h
    subst h
    exact K rfl rfl rfl rfl rfl t (rel_s89 r) (Reachable.refl _)
  | s89 =>
    rw [hp] at H K
    rw [H rfl] at r
    simp only [callerStep, hp, Option.some.injEq] at h
    subst h
    have hk := r.early (.inr rfl)
    exact K rfl (by split <;> rfl) rfl rfl (by rw [hk]; rfl) t (rel_cons r) (Reachable.refl _)
  | s90 =>
    rw [hp] at H K
    rw [H rfl] at r
    simp only [callerStep, hp, Option.some.injEq] at h
    subst h
    exact K rfl rfl rfl rfl rfl t (rel_prov r) (Reachable.refl _)
  | queue => simp [callerStep, hp] at h
  | p83 =>
    rw [hp] at H K
    rw [H rfl] at r
    simp only [callerStep, hp] at h
    split at h <;> simp only [Option.some.injEq] at h <;> subst h
    · rename_i hs
      refine K (pc := .unlock (resOf c.must)) rfl rfl rfl rfl rfl _ (rel_err (.inr (.inr (.inl rfl))) (by simp) r) (Reachable.step (.stop c.must) ?_)
      have hst := r.status
      have hss := r.starting
      simp [hs] at hst hss
      simp [step, hst, hss]
    · rename_i hs
      exact K rfl rfl rfl rfl rfl t (rel_p86 hs r) (Reachable.refl _)
  | p86 =>
    rw [hp] at H K
    rw [H rfl] at r
    simp only [callerStep, hp] at h
    split at h <;> simp only [Option.some.injEq] at h <;> subst h
    · rename_i hs
      refine K (pc := .unlock (resOf c.must)) rfl rfl rfl rfl rfl _ (rel_err (.inr (.inr (.inr rfl))) (by simp) r) (Reachable.step (.stop c.must) ?_)
      have hst := r.status
      have hss := r.starting
      simp [hs] at hst hss
      simp [step, hst, hss]
    · rename_i hs
      exact K rfl rfl rfl rfl rfl t (rel_p90 hs r) (Reachable.refl _)
  | p90 =>
    rw [hp] at H K
    rw [H rfl] at r
    simp only [callerStep, hp, Option.some.injEq] at h
    subst h
    exact K rfl rfl rfl rfl rfl t (rel_p91 r) (Reachable.refl _)
  | p91 =>
    rw [hp] at H K
    rw [H rfl] at r
    obtain ⟨h1, t', h2, h3⟩ := rel_stopped lf c.must r
    simp only [callerStep, hp, h1, Bool.false_eq_true, if_false, Option.some.injEq] at h
    subst h
    exact K rfl (by split <;> rfl) rfl rfl rfl t' h3 h2
  | p112 =>
    rw [hp] at H K
    rw [H rfl] at r
    simp only [callerStep, hp, Option.some.injEq] at h
    subst h
    exact K rfl rfl rfl rfl rfl t (rel_p112 r) (Reachable.refl _)
  | unlock x =>
    rw [hp] at H
    rw [H rfl] at r
    simp only [callerStep, hp, Option.some.injEq] at h
    obtain ⟨k1, k2, k3⟩ := give (s' := s') (pc := .ret x) ok hc (by rw [hp]; rfl) rfl (by subst h; rfl) (by subst h; rfl) (by subst h; rfl)
    refine ⟨k1, t, Reachable.refl _, ?_⟩
    unfold IState.Rel; rw [k3]; subst h
    exact rel_unlock r
  | ret x => simp [callerStep, hp] at h

theorem sim_cons {s s' : IState} {t : State} (ok : LockOk s) (r : s.Rel t) (iv : Inv t) (h : consStep s = some s') : Sim s' t := by
  have lf := iv.life
  have D : LockOk s' ∧ s'.holder = s.holder →
      (∀ t', Instr.Rel s'.st s'.ticker s'.ticking s'.nilUse s'.cons s'.prov s.holder t' → Reachable step t t' → Sim s' t) := by
    intro ⟨k1, k2⟩ t' h6 h7
    exact ⟨k1, t', h7, by unfold IState.Rel; rw [k2]; exact h6⟩
  unfold IState.Rel at r
  simp only [consStep] at h
  split at h
  · simp at h
  · simp at h
  · simp at h
  · rename_i hk
    rw [hk] at r
    split at h <;> simp only [Option.some.injEq, reduceCtorEq] at h
    rename_i hn
    subst h
    exact D (takeK ok hn rfl rfl rfl) t (rel_g2 r) (Reachable.refl _)
  · rename_i hk
    rw [hk] at r
    simp only [Option.some.injEq] at h
    subst h
    have hl : s.lock = some .cons := ok.cons.1 (by rw [hk]; rfl)
    obtain ⟨t', h1, h2⟩ := rel_g3 (by simp [IState.holder, hl]) r
    exact D (others ok rfl rfl (by rw [hk]; rfl)) t' h2 (Reachable.step _ h1)
  · rename_i v hk
    rw [hk] at r
    simp only [Option.some.injEq] at h
    subst h
    exact D (giveK ok (by rw [hk]; rfl) rfl rfl (by dsimp only; split <;> rfl)) t (rel_g v r) (Reachable.refl _)
  · rename_i hk
    rw [hk] at r
    split at h <;> simp only [Option.some.injEq, reduceCtorEq] at h
    rename_i hn
    subst h
    exact D (takeK ok hn rfl rfl rfl) t (rel_n2 r) (Reachable.refl _)
  · rename_i hk
    rw [hk] at r
    simp only [Option.some.injEq] at h
    subst h
    exact D (others ok rfl rfl (by rw [hk]; rfl)) t (rel_n3 r) (Reachable.refl _)
  · rename_i v hk
    rw [hk] at r
    simp only [Option.some.injEq] at h
    subst h
    exact D (others ok rfl rfl (by rw [hk]; rfl)) t (rel_n4 v r) (Reachable.refl _)
  · rename_i hk
    rw [hk] at r
    simp only [Option.some.injEq] at h
    subst h
    exact D (others ok rfl rfl (by rw [hk]; rfl)) t (rel_n5 r) (Reachable.refl _)
  · rename_i v hk
    rw [hk] at r
    simp only [Option.some.injEq] at h
    subst h
    exact D (giveK ok (by rw [hk]; rfl) rfl rfl rfl) t (rel_n6 v r) (Reachable.refl _)
  · rename_i v hk
    rw [hk] at r
    simp only [Option.some.injEq] at h
    subst h
    obtain ⟨t', h1, h2⟩ := rel_next lf v r
    exact D (others ok rfl rfl (by rw [hk]; dsimp only; split <;> rfl)) t' h2 (Reachable.step _ h1)
  · rename_i j hk
    rw [hk] at r
    split at h
    · rename_i x hx
      split at h <;> simp only [Option.some.injEq, reduceCtorEq] at h
      rename_i hr
      subst h
      obtain ⟨t', h1, h2⟩ := rel_run hx hr r
      exact D (others ok rfl rfl (by rw [hk]; rfl)) t' h2 (Reachable.step _ h1)
    · simp at h

theorem sim_step {s s' : IState} {t : State} {a : IAction} (ok : LockOk s) (r : s.Rel t) (iv : Inv t) (h : iStep s a = some s') : Sim s' t := by
  have lf := iv.life
  have D : LockOk s' ∧ s'.holder = s.holder →
      (∀ t', Instr.Rel s'.st s'.ticker s'.ticking s'.nilUse s'.cons s'.prov s.holder t' → Reachable step t t' → Sim s' t) := by
    intro ⟨k1, k2⟩ t' h6 h7
    exact ⟨k1, t', h7, by unfold IState.Rel; rw [k2]; exact h6⟩
  cases a with
  | call b must =>
    simp only [iStep, Option.some.injEq] at h
    subst h
    obtain ⟨o1, o2, o3⟩ := ok
    refine D ⟨⟨?_, ?_, o3⟩, ?_⟩ t r (Reachable.refl _)
    · intro i c hc
      simp only [List.getElem?_append] at hc
      split at hc
      · exact o1 i c hc
      · rename_i hi
        have : c.pc.crit = false := by
          have e := (List.getElem?_eq_some_iff.1 hc).2
          rw [List.getElem_singleton] at e
          subst e
          cases b <;> rfl
        simp only [this, Bool.false_eq_true, false_iff]
        intro hl
        exact hi (o2 i hl)
    · intro i hi
      have := o2 i hi
      simp; omega
    · simp only [IState.holder]
      split
      · rename_i i hi
        have := o2 i hi
        rw [List.getElem?_append_left this]
      · rfl
  | caller i =>
    simp only [iStep] at h
    split at h
    · rename_i c hc; exact sim_caller ok r iv hc h
    · simp at h
  | cons => exact sim_cons ok r iv h
  | prov =>
    simp only [iStep] at h
    split at h <;> simp only [Option.some.injEq, reduceCtorEq] at h
    rename_i hp
    subst h
    unfold IState.Rel at r; rw [hp] at r
    exact D (others ok rfl rfl rfl) t (rel_rd lf r) (Reachable.refl _)
  | handStart i =>
    simp only [iStep] at h
    split at h
    · rename_i c hc
      split at h <;> simp only [Option.some.injEq, reduceCtorEq] at h
      rename_i hp
      obtain ⟨hp, hk⟩ := hp
      obtain ⟨k1, k2, k3⟩ := keep (s' := s') (pc := .unlock .ok) ok hc (by rw [hp]; rfl) rfl (by subst h; rfl) (by subst h; rfl)
        (by subst h; rw [hk]; rfl)
      unfold IState.Rel at r; rw [k2, hk, hp] at r
      obtain ⟨t', h1, h2⟩ := rel_handStart r
      refine ⟨k1, t', Reachable.step _ h1, ?_⟩
      unfold IState.Rel; rw [k3]; subst h
      exact h2
    · simp at h
  | startAbort i =>
    simp only [iStep] at h
    split at h
    · rename_i c hc
      split at h <;> simp only [Option.some.injEq, reduceCtorEq] at h
      rename_i hp
      obtain ⟨hp, hs⟩ := hp
      obtain ⟨k1, k2, k3⟩ := keep (s' := s') (pc := .unlock .ok) ok hc (by rw [hp]; rfl) rfl (by subst h; rfl) (by subst h; rfl)
        (by subst h; rfl)
      unfold IState.Rel at r; rw [k2, hp] at r
      obtain ⟨t', h1, h2⟩ := rel_startAbort hs r
      refine ⟨k1, t', Reachable.step _ h1, ?_⟩
      unfold IState.Rel; rw [k3]; subst h
      exact h2
    · simp at h
  | handFut i =>
    simp only [iStep] at h
    split at h <;> simp only [Option.some.injEq, reduceCtorEq] at h
    rename_i hp
    obtain ⟨hp, hk⟩ := hp
    subst h
    unfold IState.Rel at r; rw [hk] at r
    obtain ⟨t', h1, h2⟩ := rel_handFut hp r
    exact D (others ok rfl rfl (by rw [hk]; rfl)) t' h2 (Reachable.step _ h1)
  | futAbort i =>
    simp only [iStep] at h
    split at h <;> simp only [Option.some.injEq, reduceCtorEq] at h
    rename_i hp
    obtain ⟨hp, hs⟩ := hp
    subst h
    obtain ⟨t', h1, h2⟩ := rel_futAbort hp hs r
    exact D (others ok rfl rfl rfl) t' h2 (Reachable.step _ h1)
  | handProv =>
    simp only [iStep] at h
    split at h <;> simp only [Option.some.injEq, reduceCtorEq] at h
    rename_i hp
    obtain ⟨hp, hk⟩ := hp
    subst h
    unfold IState.Rel at r; rw [hk] at r
    obtain ⟨t', h1, h2⟩ := rel_handProv hp r
    exact D (others ok rfl rfl (by rw [hk]; rfl)) t' h2 (Reachable.step _ h1)
  | provAbort =>
    simp only [iStep] at h
    split at h <;> simp only [Option.some.injEq, reduceCtorEq] at h
    rename_i hp
    obtain ⟨hp, hs⟩ := hp
    subst h
    obtain ⟨t', h1, h2⟩ := rel_provAbort lf hp hs r
    exact D (others ok rfl rfl rfl) t' h2 (Reachable.step _ h1)
  | consAbort =>
    simp only [iStep] at h
    split at h <;> simp only [Option.some.injEq, reduceCtorEq] at h
    rename_i hp
    obtain ⟨hk, hs⟩ := hp
    subst h
    unfold IState.Rel at r; rw [hk] at r
    obtain ⟨t', h1, h2⟩ := rel_consAbort hs r
    exact D (others ok rfl rfl (by rw [hk]; rfl)) t' h2 (Reachable.step _ h1)
  | provTick =>
    simp only [iStep] at h
    split at h <;> simp only [Option.some.injEq, reduceCtorEq] at h
    rename_i hp
    obtain ⟨hp, hb⟩ := hp
    subst h
    unfold IState.Rel at r; rw [hp] at r
    obtain ⟨t', h1, h2⟩ := rel_provTick lf hb r
    exact D (others ok rfl rfl rfl) t' h2 h1
  | tickerFire =>
    simp only [iStep] at h
    split at h <;> simp only [Option.some.injEq, reduceCtorEq] at h
    rename_i hg
    subst h
    exact D (others ok rfl rfl rfl) t (rel_tickerFire hg r) (Reachable.refl _)
  | other a =>
    simp only [iStep] at h
    split at h
    · rename_i ha
      cases hs : step s.st a with
      | none => simp [hs] at h
      | some st' =>
        simp only [hs, Option.map_some, Option.some.injEq] at h
        subst h
        obtain ⟨t', h1, h2⟩ := rel_other ha hs r
        exact D (others ok rfl rfl rfl) t' h2 (Reachable.step _ h1)
    · simp at h

theorem ireach_sim {kind : Kind} {interval timeout : Int} {s : IState} (h : IReach kind interval timeout s) :
    LockOk s ∧ ∃ t, Reach kind interval timeout t ∧ s.Rel t := by
  obtain ⟨s0, h0, hr⟩ := h
  simp only [iNew, Option.map_eq_some_iff] at h0
  obtain ⟨st, hn, rfl⟩ := h0
  refine hr.inv (I := fun s => LockOk s ∧ ∃ t, Reach kind interval timeout t ∧ s.Rel t) ⟨⟨?_, ?_, ?_⟩, st, ⟨st, hn, Reachable.refl _⟩, ?_⟩ ?_
  · intro i c hc; simp at hc
  · intro i hi; simp at hi
  · simp [KPC.crit]
  · simp only [new] at hn
    split at hn
    · simp at hn
    split at hn
    · simp at hn
    simp at hn
    subst hn
    constructor <;> simp [absCons, absProv, Ticks, NoRel, PcRel, IState.holder]
  · rintro s a s' ⟨ok, t, ⟨t0, ht0, ht⟩, r⟩ hs
    obtain ⟨ok', t', hr, r'⟩ := sim_step ok r (reach_inv ⟨t0, ht0, ht⟩) hs
    exact ⟨ok', t', ⟨t0, ht0, ht.trans hr⟩, r'⟩

/-! ### The theorems -/

/-- **C141.**  No data races on `status`, `no`, `ticker`, and `ticker` is not nil when it is used. -/
theorem C141_race_free (kind : Kind) (interval timeout : Int) (s : IState) (h : IReach kind interval timeout s) :
    ¬ Race s ∧ s.nilUse = false := by
  obtain ⟨⟨o1, o2, o3⟩, t, -, r⟩ := ireach_sim h
  refine ⟨?_, r.nil⟩
  have C : ∀ i x w, s.access (.caller i) = some (x, w) → s.lock = some (.caller i) ∧ (x = .ticker → w = true → s.prov = .none) := by
    intro i x w hx
    simp only [IState.access] at hx
    cases hc : s.callers[i]? with
    | none => simp [hc] at hx
    | some c =>
      simp only [hc, Option.bind_some] at hx
      have hl := o1 i c hc
      have hcr : c.pc.crit = true := by
        cases hp : c.pc <;> simp_all [CPC.access, CPC.crit]
      refine ⟨hl.1 hcr, ?_⟩
      rintro rfl rfl
      have : c.pc = .s87 := by cases hp : c.pc <;> simp_all [CPC.access]
      exact r.early' (.inl (by rw [holder_caller (hl.1 hcr) hc, this]))
  have K : ∀ x w, s.access .cons = some (x, w) → s.lock = some .cons ∧ x ≠ .ticker := by
    intro x w hx
    simp only [IState.access] at hx
    refine ⟨o3.1 ?_, ?_⟩
    · cases hp : s.cons <;> simp_all [KPC.access, KPC.crit]
    · cases hp : s.cons <;> simp_all [KPC.access] <;> (rw [← hx.1]; simp)
  have P : ∀ x w, s.access .prov = some (x, w) → x = .ticker ∧ w = false ∧ s.prov = .rd := by
    intro x w hx
    simp only [IState.access] at hx
    cases hp : s.prov <;> simp_all [PPC.access]
  rintro ⟨a, b, x, w, w', hne, ha, hb, hw⟩
  cases a with
  | caller i =>
    obtain ⟨h1, h2⟩ := C _ _ _ ha
    cases b with
    | caller j =>
      obtain ⟨h3, -⟩ := C _ _ _ hb
      rw [h1] at h3
      simp at h3
      exact hne (by rw [h3])
    | cons => have := (K _ _ hb).1; rw [h1] at this; simp at this
    | prov =>
      obtain ⟨rfl, rfl, h4⟩ := P _ _ hb
      have := h2 rfl (by simpa using hw)
      rw [h4] at this; simp at this
  | cons =>
    obtain ⟨h1, h2⟩ := K _ _ ha
    cases b with
    | caller j => have := (C _ _ _ hb).1; rw [h1] at this; simp at this
    | cons => exact hne rfl
    | prov => exact h2 (P _ _ hb).1
  | prov =>
    obtain ⟨rfl, rfl, h4⟩ := P _ _ ha
    cases b with
    | caller j =>
      have := (C _ _ _ hb).2 rfl (by simpa using hw)
      rw [h4] at this; simp at this
    | cons => exact (K _ _ hb).2 rfl
    | prov => exact hne rfl

/-- **C141.**  What happens with single instructions happens in Model.lean: a state that Model.lean reaches has the same timers, jobs and
time, `stopSig` is closed in both or in none, the logs agree up to ticks that were received between `close(stopSig)` and
`ticker.Stop`, and the status is the same when nobody has the lock. -/
theorem C141_refines (kind : Kind) (interval timeout : Int) (s : IState) (h : IReach kind interval timeout s) :
    ∃ t, Reach kind interval timeout t ∧ t.jobs = s.st.jobs ∧ t.futs = s.st.futs ∧ t.now = s.st.now ∧ t.stopSig = s.st.stopSig ∧
      noTick t.log = noTick s.st.log ∧ t.log.count .tick ≤ s.st.log.count .tick ∧ (s.lock = none → t.status = s.st.status) := by
  obtain ⟨ok, t, ht, r⟩ := ireach_sim h
  refine ⟨t, ht, r.jobs, r.futs, r.now, r.sig, r.log, r.ticks, fun hl => ?_⟩
  rw [r.status, if_neg]
  simp [IState.holder, hl]

/-- **C141.**  Whoever has the lock can go on, if need be with the consumer that takes the first job. -/
theorem C141_holder (kind : Kind) (interval timeout : Int) (s : IState) (h : IReach kind interval timeout s) (w : Who)
    (hw : s.lock = some w) : ∃ a s', iStep s a = some s' ∧ match w with
      | .caller i => a = .caller i ∨ a = .handStart i
      | .cons => a = .cons := by
  obtain ⟨⟨o1, o2, o3⟩, t, ht, r⟩ := ireach_sim h
  cases w with
  | cons =>
    have hc := o3.2 hw
    refine ⟨.cons, ?_⟩
    cases hk : s.cons <;> simp_all [KPC.crit, iStep, consStep]
  | caller i =>
    have hi := o2 i hw
    have hc : s.callers[i]? = some s.callers[i] := List.getElem?_eq_getElem hi
    have hcr := (o1 i _ hc).2 hw
    by_cases hq : (s.callers[i]).pc = .queue
    · refine ⟨.handStart i, ?_⟩
      have hh := holder_caller hw hc
      rw [hq] at hh
      unfold IState.Rel at r
      rw [hh] at r
      have hk : s.st.kind = .delay := r.pcs.2
      have hs : t.starting = true := by rw [r.starting]; simp [hk]
      have hcons := ((reach_inv ht).life.start hs).2.2
      have hsel : s.cons = .sel := by
        have hab : absCons s.cons (some .queue) = .wait := by rw [← r.cons, hcons]
        cases hx : s.cons <;> simp [hx, absCons] at hab ⊢
        split at hab <;> simp at hab
      simp [iStep, hc, hq, hsel]
    · refine ⟨.caller i, ?_⟩
      simp only [iStep, hc]
      cases hp : (s.callers[i]).pc <;> simp_all [CPC.crit, callerStep] <;> split <;> simp

/-! ### Results -/

/-- The result of a call that is decided. -/
def Call.result (c : Call) : Option Ev :=
  match c.pc with
  | .s87 | .s89 | .s90 | .queue => some (.startRes c.must .ok)
  | .p112 => some (.stopRes c.must .ok)
  | .unlock r | .ret r => some (if c.isStart then .startRes c.must r else .stopRes c.must r)
  | _ => none

/-- The call is in the method that was called. -/
def Call.fits (c : Call) : Bool :=
  match c.pc with
  | .start | .s69 | .s73 | .s77 | .s87 | .s89 | .s90 | .queue => c.isStart
  | .stop | .p83 | .p86 | .p90 | .p91 | .p112 => !c.isStart
  | .unlock _ | .ret _ => true

def isRes : Ev → Bool
  | .startRes _ _ | .stopRes _ _ => true
  | _ => false

theorem filterMap_set_same {α β : Type} (f : α → Option β) : ∀ (l : List α) (i : Nat) (x y : α), l[i]? = some x → f y = f x →
    (l.set i y).filterMap f = l.filterMap f
  | a :: l, 0, x, y, h, e => by simp at h; subst h; simp [List.filterMap_cons, e]
  | a :: l, i + 1, x, y, h, e => by
    simp only [List.getElem?_cons_succ] at h
    simp [List.filterMap_cons, filterMap_set_same f l i x y h e]

theorem filterMap_set_some {α β : Type} (f : α → Option β) : ∀ (l : List α) (i : Nat) (x y : α) (z : β), l[i]? = some x → f x = none →
    f y = some z → ((l.set i y).filterMap f).Perm (l.filterMap f ++ [z])
  | a :: l, 0, x, y, z, h, e, e' => by
    simp at h; subst h
    simp only [List.set_cons_zero, List.filterMap_cons, e, e']
    exact (List.perm_append_singleton _ _).symm
  | a :: l, i + 1, x, y, z, h, e, e' => by
    simp only [List.getElem?_cons_succ] at h
    simp only [List.set_cons_succ, List.filterMap_cons]
    have := filterMap_set_some f l i x y z h e e'
    cases f a with
    | none => exact this
    | some b => exact this.cons b

/-- The results of the calls are those in the log. -/
structure ResOk (s : IState) : Prop where
  fits : ∀ c ∈ s.callers, c.fits = true
  res  : (s.callers.filterMap Call.result).Perm (s.st.log.filter isRes)

theorem resOk_goto {s s' : IState} {i : Nat} {c : Call} {pc : CPC} {l : List Ev} (o : ResOk s) (hc : s.callers[i]? = some c)
    (hcs : s'.callers = s.callers.set i { c with pc := pc }) (hl : s'.st.log = s.st.log ++ l)
    (hf : c.fits = true → Call.fits { c with pc := pc } = true)
    (hr : c.fits = true → (l = [] ∧ Call.result { c with pc := pc } = c.result) ∨
      ∃ e, l = [e] ∧ isRes e = true ∧ c.result = none ∧ Call.result { c with pc := pc } = some e) : ResOk s' := by
  obtain ⟨o1, o2⟩ := o
  have hfit := o1 c (List.mem_of_getElem? hc)
  refine ⟨?_, ?_⟩
  · intro d hd
    rw [hcs] at hd
    rcases List.mem_or_eq_of_mem_set hd with hd | rfl
    · exact o1 d hd
    · exact hf hfit
  · rw [hcs, hl, List.filter_append]
    rcases hr hfit with ⟨rfl, he⟩ | ⟨e, rfl, he, h1, h2⟩
    · rw [filterMap_set_same _ _ _ _ _ hc he]
      simpa using o2
    · refine (filterMap_set_some _ _ _ _ _ _ hc h1 h2).trans ?_
      simp only [List.filter_cons, he, if_true, List.filter_nil]
      exact o2.append_right _

theorem resOk_same {s s' : IState} {l : List Ev} (o : ResOk s) (hcs : s'.callers = s.callers) (hl : s'.st.log = s.st.log ++ l)
    (h : l.filter isRes = []) : ResOk s' := by
  obtain ⟨o1, o2⟩ := o
  refine ⟨by rw [hcs]; exact o1, ?_⟩
  rw [hcs, hl, List.filter_append, h, List.append_nil]
  exact o2

theorem other_log {a : Action} {st st' : State} (ha : isOther a = true) (hs : step st a = some st') :
    ∃ l, st'.log = st.log ++ l ∧ l.filter isRes = [] := by
  have hcan : ∀ x : Job, (cancelEv x).filter isRes = [] := by
    intro x; simp only [cancelEv]; split <;> rfl
  cases a <;> simp only [isOther, Bool.false_eq_true] at ha <;> clear ha <;> simp only [step, State.setJob] at hs <;>
    (repeat' split at hs) <;> simp only [Option.some.injEq, reduceCtorEq] at hs <;> subst hs <;>
    first | exact ⟨[], (List.append_nil _).symm, rfl⟩ | exact ⟨_, rfl, rfl⟩ | exact ⟨_, rfl, hcan _⟩

theorem resOk_step {s s' : IState} {t : State} {a : IAction} (r : s.Rel t) (lf : Life t) (ok : LockOk s) (o : ResOk s) (h : iStep s a = some s') : ResOk s' := by
  cases a with
  | call b must =>
    simp only [iStep, Option.some.injEq] at h
    subst h
    obtain ⟨o1, o2⟩ := o
    refine ⟨?_, ?_⟩
    · intro c hc
      simp only [List.mem_append, List.mem_singleton] at hc
      rcases hc with hc | rfl
      · exact o1 c hc
      · cases b <;> rfl
    · have : Call.result ⟨b, must, if b = true then .start else .stop⟩ = none := by cases b <;> rfl
      simpa [List.filterMap_append, this] using o2
  | caller i =>
    simp only [iStep] at h
    split at h
    · rename_i c hc
      cases hp : c.pc with
      | p91 =>
        have hh := holder_caller ((ok.call i c hc).1 (by rw [hp]; rfl)) hc
        unfold IState.Rel at r
        rw [hh, hp] at r
        have h1 := (rel_stopped lf c.must r).1
        simp only [callerStep, hp, h1, Bool.false_eq_true, if_false, Option.some.injEq] at h
        subst h
        refine resOk_goto o hc rfl rfl ?_ ?_
        · by_cases hk : s.st.kind = .rate <;> simp [Call.fits, hp, hk]
        · intro hf
          refine .inr ⟨_, rfl, rfl, by simp [Call.result, hp], ?_⟩
          simp only [Call.fits, hp, Bool.not_eq_true'] at hf
          by_cases hk : s.st.kind = .rate <;> simp [Call.result, hk, hf]
      | _ =>
        simp only [callerStep, hp] at h
        (repeat' split at h) <;> simp only [Option.some.injEq, reduceCtorEq] at h <;> subst h <;>
          first
          | (refine resOk_goto (l := []) o hc rfl (by simp [IState.goto]) ?_ ?_ <;> simp_all [Call.fits, Call.result]; done)
          | (refine resOk_goto o hc rfl rfl ?_ ?_ <;> simp_all [Call.fits, Call.result, isRes])
    · simp at h
  | cons =>
    simp only [iStep, consStep] at h
    (repeat' split at h) <;> simp only [Option.some.injEq, reduceCtorEq] at h <;> subst h <;>
      exact resOk_same (l := []) o rfl (by simp) rfl
  | handStart i =>
    simp only [iStep] at h
    (repeat' split at h) <;> simp only [Option.some.injEq, reduceCtorEq] at h
    rename_i c hc hq
    subst h
    refine resOk_goto (l := []) o hc rfl (by simp [IState.goto]) ?_ ?_ <;> simp_all [Call.fits, Call.result]
  | startAbort i =>
    simp only [iStep] at h
    (repeat' split at h) <;> simp only [Option.some.injEq, reduceCtorEq] at h
    rename_i c hc hq
    subst h
    refine resOk_goto (l := []) o hc rfl (by simp [IState.goto]) ?_ ?_ <;> simp_all [Call.fits, Call.result]
  | provTick =>
    simp only [iStep] at h
    (repeat' split at h) <;> simp only [Option.some.injEq, reduceCtorEq] at h
    subst h
    exact resOk_same (l := [.tick]) o rfl rfl rfl
  | other a =>
    simp only [iStep] at h
    split at h
    · rename_i ha
      cases hs : step s.st a with
      | none => simp [hs] at h
      | some st' =>
        simp only [hs, Option.map_some, Option.some.injEq] at h
        subst h
        obtain ⟨l, h1, h2⟩ := other_log ha hs
        exact resOk_same o rfl h1 h2
    · simp at h
  | _ =>
    simp only [iStep] at h
    (repeat' split at h) <;> simp only [Option.some.injEq, reduceCtorEq] at h <;> subst h <;>
      exact resOk_same (l := []) o rfl (by simp) rfl

/-- **C141.**  The calls return what the log of Model.lean says: its results of Start and Stop are those of the calls here that
are decided, and the calls that returned are among them. -/
theorem C141_results (kind : Kind) (interval timeout : Int) (s : IState) (h : IReach kind interval timeout s) :
    (s.callers.filterMap Call.result).Perm (s.st.log.filter isRes) ∧
    ∀ (i : Nat) c r, s.callers[i]? = some c → c.pc = .ret r → c.result = some (if c.isStart then .startRes c.must r else .stopRes c.must r) := by
  refine ⟨?_, fun i c r _ hp => by simp [Call.result, hp]⟩
  obtain ⟨s0, h0, hr⟩ := h
  simp only [iNew, Option.map_eq_some_iff] at h0
  obtain ⟨st, hn, rfl⟩ := h0
  refine (hr.inv (I := fun s => IReach kind interval timeout s ∧ ResOk s) ⟨⟨_, by simp [iNew, hn], Reachable.refl _⟩, ⟨by simp, ?_⟩⟩ ?_).2.res
  · simp only [new] at hn
    split at hn
    · simp at hn
    split at hn
    · simp at hn
    simp at hn
    subst hn
    simp
  · rintro s a s' ⟨⟨s0, hs0, hs⟩, o⟩ h
    obtain ⟨ok, t, ht, r⟩ := ireach_sim ⟨s0, hs0, hs⟩
    exact ⟨⟨s0, hs0, hs.trans (Reachable.step a h)⟩, resOk_step r (reach_inv ht).life ok o h⟩

/-- **C141.**  At most one call of Start and one of Stop succeeds, and `stopSig` is not closed twice. -/
theorem C141_once (kind : Kind) (interval timeout : Int) (s : IState) (h : IReach kind interval timeout s) :
    (∀ (i j : Nat) c d, s.callers[i]? = some c → s.callers[j]? = some d → c.pc = .ret .ok → d.pc = .ret .ok → c.isStart = d.isStart → i = j) ∧
    Ev.closePanic ∉ s.st.log := by
  obtain ⟨hp, -⟩ := C141_results kind interval timeout s h
  obtain ⟨t, ht, -, -, -, -, hlog, -, -⟩ := C141_refines kind interval timeout s h
  obtain ⟨h1, h2, h3⟩ := C41_once kind interval timeout t ht
  have cnt : ∀ f : Ev → Bool, (∀ e, f e = true → isRes e = true) → (s.callers.filterMap Call.result).countP f = t.log.countP f := by
    intro f hf
    have e1 : ∀ l : List Ev, l.countP f = (l.filter isRes).countP f := by
      intro l; rw [List.countP_filter]; congr 1; funext e
      cases hx : f e
      · simp
      · simp [hf e hx]
    have e2 : ∀ l : List Ev, l.countP f = (noTick l).countP f := by
      intro l; rw [noTick, List.countP_filter]; congr 1; funext e
      cases hx : f e
      · simp
      · have := hf e hx
        cases e <;> simp_all [isRes]
    rw [hp.countP_eq, ← e1, e2 s.st.log, ← hlog, ← e2]
  have two : ∀ (f : Ev → Bool) (l : List Call) (i j : Nat) (c d : Call) (x y : Ev), i < j → l[i]? = some c → l[j]? = some d →
      c.result = some x → d.result = some y → f x = true → f y = true → 2 ≤ (l.filterMap Call.result).countP f := by
    intro f l i j c d x y hij hi hj hx hy fx fy
    have hsub : [c, d].Sublist l := by
      obtain ⟨hi', e1⟩ := List.getElem?_eq_some_iff.1 hi
      obtain ⟨hj', e2⟩ := List.getElem?_eq_some_iff.1 hj
      have e : l = l.take j ++ l[j] :: l.drop (j + 1) := by simp
      rw [e]
      have hc : c ∈ l.take j := by
        rw [← e1]; exact List.mem_take_iff_getElem.2 ⟨i, by omega, rfl⟩
      have := (List.singleton_sublist.2 hc).append ((List.nil_sublist (l.drop (j + 1))).cons_cons l[j])
      rw [e2] at this ⊢
      simpa using this
    have := (hsub.filterMap Call.result).countP_le (p := f)
    simpa [hx, hy, fx, fy] using this
  refine ⟨?_, ?_⟩
  · intro i j c d hi hj hc hd hk
    rcases Nat.lt_trichotomy i j with hlt | rfl | hlt
    · exfalso
      cases hb : c.isStart
      · have := two (fun e => e matches .stopRes _ .ok) s.callers i j c d _ _ hlt hi hj (by simp [Call.result, hc]; rfl) (by simp [Call.result, hd]; rfl)
          (by simp [hb]) (by simp [← hk, hb])
        rw [cnt _ (by intro e he; cases e <;> simp_all [isRes])] at this
        exact absurd (Nat.le_trans this h2) (by omega)
      · have := two (fun e => e matches .startRes _ .ok) s.callers i j c d _ _ hlt hi hj (by simp [Call.result, hc]; rfl) (by simp [Call.result, hd]; rfl)
          (by simp [hb]) (by simp [← hk, hb])
        rw [cnt _ (by intro e he; cases e <;> simp_all [isRes])] at this
        exact absurd (Nat.le_trans this h1) (by omega)
    · rfl
    · exfalso
      cases hb : c.isStart
      · have := two (fun e => e matches .stopRes _ .ok) s.callers j i d c _ _ hlt hj hi (by simp [Call.result, hd]; rfl) (by simp [Call.result, hc]; rfl)
          (by simp [← hk, hb]) (by simp [hb])
        rw [cnt _ (by intro e he; cases e <;> simp_all [isRes])] at this
        exact absurd (Nat.le_trans this h2) (by omega)
      · have := two (fun e => e matches .startRes _ .ok) s.callers j i d c _ _ hlt hj hi (by simp [Call.result, hd]; rfl) (by simp [Call.result, hc]; rfl)
          (by simp [← hk, hb]) (by simp [hb])
        rw [cnt _ (by intro e he; cases e <;> simp_all [isRes])] at this
        exact absurd (Nat.le_trans this h1) (by omega)
  · intro hm
    refine h3 ?_
    have : Ev.closePanic ∈ noTick s.st.log := by simp [noTick, hm]
    rw [← hlog] at this
    exact (List.mem_filter.1 this).1

theorem filterMap_noTick {β : Type} (f : Ev → Option β) (hf : f .tick = none) (l : List Ev) : (noTick l).filterMap f = l.filterMap f := by
  induction l with
  | nil => rfl
  | cons e l ih =>
    simp only [noTick, ne_eq, decide_not] at ih ⊢
    by_cases he : e = .tick
    · subst he; simp [hf, ih]
    · simp [List.filterMap_cons, he, ih]

/-- **C141.**  The jobs of a FixedDelayTask run one after the other and `interval` apart, as C42 and C43 say. -/
theorem C141_delay (interval timeout : Int) (s : IState) (h : IReach .delay interval timeout s) :
    (∃ k, jobEvs s.st.log = rounds k ∨ jobEvs s.st.log = rounds k ++ [(true, k + 1)]) ∧
    (∀ (i j : Nat) (x y : Job), s.st.jobs[i]? = some x → s.st.jobs[j]? = some y → x.fn = .running → y.fn = .running → i = j) ∧
    s.st.log.Pairwise fun e e' => ∀ (n t m u : Nat), e = .jobEnd n t → e' = .jobStart m u → (t : Int) + interval ≤ u := by
  obtain ⟨t, ht, hj, -, -, -, hlog, -, -⟩ := C141_refines .delay interval timeout s h
  refine ⟨?_, ?_, ?_⟩
  · have : jobEvs s.st.log = jobEvs t.log := by
      unfold jobEvs
      rw [← filterMap_noTick _ rfl s.st.log, ← hlog, filterMap_noTick _ rfl]
    rw [this]
    exact C42_sequential interval timeout t ht
  · rw [← hj]
    exact C42_no_overlap interval timeout t ht
  · have h3 := C43_interval interval timeout t ht
    have h4 : (noTick s.st.log).Pairwise fun e e' => ∀ (n t m u : Nat), e = .jobEnd n t → e' = .jobStart m u → (t : Int) + interval ≤ u := by
      rw [← hlog]; exact h3.sublist List.filter_sublist
    rw [noTick, List.pairwise_filter] at h4
    refine h4.imp ?_
    intro e e' he n t m u h1 h2
    exact he (by rw [h1]; rfl) (by rw [h2]; rfl) n t m u h1 h2

/-- **C141.**  A FixedRateTask starts at most one job more than it received ticks, with different numbers from 1 (C46). -/
theorem C141_rate (interval timeout : Int) (s : IState) (h : IReach .rate interval timeout s) :
    (startNos s.st.log).length ≤ 1 + ticks s.st.log ∧ (startNos s.st.log).Nodup ∧
    ∀ n ∈ startNos s.st.log, 1 ≤ n ∧ n ≤ 1 + ticks s.st.log := by
  obtain ⟨t, ht, -, -, -, -, hlog, hle, -⟩ := C141_refines .rate interval timeout s h
  have e : startNos s.st.log = startNos t.log := by
    unfold startNos
    rw [← filterMap_noTick _ rfl s.st.log, ← hlog, filterMap_noTick _ rfl]
  have hle : ticks t.log ≤ ticks s.st.log := hle
  obtain ⟨h1, h2, h3⟩ := C46_bound interval timeout t ht
  rw [e]
  exact ⟨by omega, h2, fun n hn => ⟨(h3 n hn).1, by have := (h3 n hn).2; omega⟩⟩

/-! ### Executions -/

/-- Non-vacuity: two calls of Start overlap, the first gets the lock and succeeds; it waits for the consumer with the lock. -/
example : ∃ s, IReach .delay 5 7 s ∧ s.callers.map (·.pc) = [.ret .ok, .ret .err] ∧ startNos s.st.log = [1] :=
  ⟨_, ⟨_, rfl, [.call true false, .call true false, .caller 0, .caller 0, .caller 0, .caller 0, .caller 0, .handStart 0, .caller 0,
    .caller 1, .caller 1, .caller 1, .cons, .cons, .cons, .cons, .cons, .cons, .cons, .cons, .cons, .other (.runBegin 0),
    .other (.jobStart 0)], rfl⟩, by decide, by decide⟩

/-- Non-vacuity: a FixedRateTask receives two ticks after `close(stopSig)`; the ticker stops only then. -/
example : ∃ s, IReach .rate 5 7 s ∧ s.st.stopSig = true ∧ s.lock = some (.caller 1) ∧ ticks s.st.log = 2 :=
  ⟨_, ⟨_, rfl, [.call true false, .caller 0, .caller 0, .caller 0, .caller 0, .caller 0, .caller 0, .caller 0, .caller 0, .handProv,
    .cons, .cons, .cons, .cons, .cons, .cons, .cons, .cons, .cons, .prov, .call false false, .caller 1, .caller 1, .caller 1, .caller 1,
    .caller 1, .tickerFire, .provTick, .handProv, .prov, .tickerFire, .provTick], rfl⟩, by decide, by decide, by decide⟩

/-- Non-vacuity: the consumer reads `status` with the lock while a call of Stop waits for it. -/
example : ∃ s, IReach .rate 5 7 s ∧ s.lock = some .cons ∧ s.cons.access = some (.status, false) ∧ s.callers.map (·.pc) = [.ret .ok, .stop] ∧
    iStep s (.caller 1) = none :=
  ⟨_, ⟨_, rfl, [.call true false, .caller 0, .caller 0, .caller 0, .caller 0, .caller 0, .caller 0, .caller 0, .caller 0, .handProv,
    .call false false, .cons], rfl⟩, by decide, by decide, by decide, by decide⟩

end Gears.Schedule.Instr
