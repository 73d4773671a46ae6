import Verif.Bus.Props

/-
Whether closing a receiver, closing the bus and adding a receiver come to an end.  They wait for the lock, which the
dispatchers hold while they offer an event to the receivers.
-/

namespace Gears.Bus

variable {ε : Type}

/-! ## C92 -/

/-- How many events were read from the channel of receiver `r`. -/
def reads (r : Nat) (log : List (Ev ε)) : Nat := log.countP fun
  | .read r' _ _ => r' == r
  | _ => false

/-- Some dispatcher is in its loop and will have to put its event into the channel of receiver `r`, which blocks, and whose
buffer is full. -/
def Stuck (s : State ε) (r : Nat) : Prop :=
  ∃ (d : Nat) (v : ε) (rem : List Nat) (c : Rcv ε), s.disp[d]? = some (.visiting v rem) ∧ r ∈ rem ∧ s.rcvs[r]? = some c ∧
    c.strat = .block ∧ c.cap ≤ c.buf.length

theorem reads_append (r : Nat) (l m : List (Ev ε)) : reads r (l ++ m) = reads r l + reads r m := by simp [reads]

theorem stuck_keep {s s' : State ε} {r : Nat} (h : Stuck s r) (hd : s'.disp = s.disp) (hr : s'.rcvs[r]? = s.rcvs[r]?) :
    Stuck s' r := by
  obtain ⟨d, v, rem, c, h1, h2, h3, h4⟩ := h
  exact ⟨d, v, rem, c, by rw [hd]; exact h1, h2, by rw [hr]; exact h3, h4⟩

theorem stuck_set {s s' : State ε} {r d0 : Nat} {p p0 : DPC ε} (h : Stuck s r) (hd : s'.disp = s.disp.set d0 p)
    (h0 : s.disp[d0]? = some p0)
    (hp : ∀ v rem, p0 = .visiting v rem → r ∈ rem → ∃ rem', p = .visiting v rem' ∧ r ∈ rem')
    (hr : s'.rcvs[r]? = s.rcvs[r]?) : Stuck s' r := by
  obtain ⟨d, v, rem, c, h1, h2, h3, h4⟩ := h
  by_cases hdd : d0 = d
  · subst hdd
    rw [h1] at h0
    simp only [Option.some.injEq] at h0
    obtain ⟨rem', hp1, hp2⟩ := hp v rem h0.symm h2
    refine ⟨d0, v, rem', c, ?_, hp2, by rw [hr]; exact h3, h4⟩
    rw [hd, List.getElem?_set]
    simp [getElem?_lt h1, hp1]
  · exact ⟨d, v, rem, c, by rw [hd, List.getElem?_set]; simp [hdd, h1], h2, by rw [hr]; exact h3, h4⟩

theorem stuck_tr {s s' : State ε} {r : Nat} (h : Stuck s r) (t : Tr s s') :
    reads r s.log ≤ reads r s'.log ∧ (Stuck s' r ∨ reads r s.log < reads r s'.log) := by
  have hlock : lockable s = true → False := by
    intro hl
    obtain ⟨d, v, rem, c, h1, _⟩ := h
    exact lockable_no_visit hl d v rem h1
  have keep : ∀ {rem : List Nat} {r' : Nat}, r' ≠ r → r ∈ rem → r ∈ rem.erase r' := by
    intro rem r' hne hm
    exact (List.mem_erase_of_ne (Ne.symm hne)).2 hm
  cases t with
  | sendPanic _ => exact ⟨by simp [reads], .inl (stuck_keep h rfl rfl)⟩
  | send v _ _ => exact ⟨by simp [reads], .inl (stuck_keep h rfl rfl)⟩
  | sendTo d v h0 _ _ => exact ⟨by simp [reads], .inl (stuck_set h rfl h0 (by simp) rfl)⟩
  | goDispatch =>
    refine ⟨by simp, .inl ?_⟩
    obtain ⟨d, v, rem, c, h1, h2⟩ := h
    exact ⟨d, v, rem, c, (List.getElem?_append_left (getElem?_lt h1)).trans h1, h2⟩
  | take d v ch h0 _ => exact ⟨by simp, .inl (stuck_set h rfl h0 (by simp) rfl)⟩
  | gone d h0 _ _ => exact ⟨by simp, .inl (stuck_set h rfl h0 (by simp) rfl)⟩
  | rlock d v h0 _ => exact ⟨by simp [reads], .inl (stuck_set h rfl h0 (by simp) rfl)⟩
  | skip d r' v rem c h0 hr hc hs =>
    refine ⟨by simp, .inl (stuck_set h rfl h0 ?_ rfl)⟩
    intro v' rem' he hm
    simp only [DPC.visiting.injEq] at he
    obtain ⟨rfl, rfl⟩ := he
    refine ⟨_, rfl, keep ?_ hm⟩
    rintro rfl
    obtain ⟨_, _, _, c', _, _, h3, h4, _⟩ := h
    rw [hc] at h3
    simp only [Option.some.injEq] at h3
    rw [← h3, hs] at h4
    cases h4
  | hand d r' k v rem c rd h0 hr hc hop hs hk hp hrr =>
    by_cases hrr' : r' = r
    · subst hrr'
      have : reads r' s.log < reads r' (s.log ++ [Ev.deliver d r' v, .read r' k v]) := by simp [reads]
      exact ⟨Nat.le_of_lt this, .inr this⟩
    · refine ⟨by simp [reads_append], .inl (stuck_set h rfl h0 ?_ rfl)⟩
      intro v' rem' he hm
      simp only [DPC.visiting.injEq] at he
      obtain ⟨rfl, rfl⟩ := he
      exact ⟨_, rfl, keep hrr' hm⟩
  | buffer d r' v rem c h0 hr hc hop hs hw hlt =>
    have hne : r' ≠ r := by
      rintro rfl
      obtain ⟨_, _, _, c', _, _, h3, _, h4⟩ := h
      rw [hc] at h3
      simp only [Option.some.injEq] at h3
      rw [← h3] at h4
      omega
    refine ⟨by simp [reads], .inl (stuck_set h rfl h0 ?_ ?_)⟩
    · intro v' rem' he hm
      simp only [DPC.visiting.injEq] at he
      obtain ⟨rfl, rfl⟩ := he
      exact ⟨_, rfl, keep hne hm⟩
    · simp [List.getElem?_set, hne]
  | dropped d r' v rem c h0 hr hc hop hs hw hlt =>
    have hne : r' ≠ r := by
      rintro rfl
      obtain ⟨_, _, _, c', _, _, h3, h4, _⟩ := h
      rw [hc] at h3
      simp only [Option.some.injEq] at h3
      rw [← h3, hs] at h4
      cases h4
    refine ⟨by simp [reads], .inl (stuck_set h rfl h0 ?_ rfl)⟩
    intro v' rem' he hm
    simp only [DPC.visiting.injEq] at he
    obtain ⟨rfl, rfl⟩ := he
    exact ⟨_, rfl, keep hne hm⟩
  | runlock d v h0 =>
    refine ⟨by simp [reads], .inl (stuck_set h rfl h0 ?_ rfl)⟩
    intro v' rem' he hm
    simp only [DPC.visiting.injEq] at he
    obtain ⟨rfl, rfl⟩ := he
    simp at hm
  | newRecv name cap strat hl => exact (hlock hl).elim
  | wedge r' me _ hl _ => exact (hlock hl).elim
  | close s' rs hl _ _ _ => exact (hlock hl).elim
  | busPanic _ => exact ⟨by simp [reads], .inl (stuck_keep h rfl rfl)⟩
  | busClose1 _ => exact ⟨by simp, .inl (stuck_keep h rfl rfl)⟩
  | startRead r' drain _ => exact ⟨by simp, .inl (stuck_keep h rfl rfl)⟩
  | readBuf k rd c v buf hk hst hc hb =>
    by_cases hrr : rd.r = r
    · have : reads r s.log < reads r (s.log ++ [Ev.read rd.r k v]) := by simp [reads, hrr]
      exact ⟨Nat.le_of_lt this, .inr this⟩
    · exact ⟨by simp [reads_append], .inl (stuck_keep h rfl (by simp [List.getElem?_set, hrr]))⟩
  | readClosed k rd c hk hst hc hb hcl => exact ⟨by simp [reads], .inl (stuck_keep h rfl rfl)⟩
  | drained k rd c hk hst hc hb hcl hd => exact ⟨by simp, .inl (stuck_keep h rfl rfl)⟩
  | park k rd c hk hst hc hb hcl hd => exact ⟨by simp, .inl (stuck_keep h rfl rfl)⟩
  | timeout k rd hk hd => exact ⟨by simp, .inl (stuck_keep h rfl rfl)⟩

/-- reads never get fewer -/
theorem reads_tr {s s' : State ε} (r : Nat) (t : Tr s s') : reads r s.log ≤ reads r s'.log := by
  cases t with
  | close s' rs hl hcl hm hrs =>
    obtain ⟨suf, he, _⟩ := hcl.log
    rw [he, reads_append]; omega
  | newRecv name cap strat hl => simp [reads_append]
  | _ => simp [reads_append]

theorem stuck_no_lock {s : State ε} {r : Nat} (h : Stuck s r) :
    (∀ q, step s (.recvClose q) = none) ∧ (∀ name cap strat, step s (.newRecv name cap strat) = none) ∧
    step s .busClose2 = none := by
  have hl : lockable s = false := by
    by_contra hl
    obtain ⟨d, v, rem, c, h1, _⟩ := h
    exact lockable_no_visit (by simpa using hl) d v rem h1
  refine ⟨fun q => ?_, fun _ _ _ => by simp [step, hl], by simp [step, hl]⟩
  simp only [step, hl]
  split <;> simp

/-- The full statement: a call that needs the lock (the same holds for NewRecv and FanOutBus.Close) can complete after some
steps of the dispatchers, that is, without help from those who read events.  (No goroutine died holding the lock, C38.) -/
def C92Claim (ε : Type) : Prop := ∀ (n : Nat) (s : State ε), Reach n s → s.wedged = false → ∀ q, q < s.rcvs.length →
  ∃ as s', (∀ a ∈ as, ∃ d, Action.ownOf d a = true) ∧ exec step s as = some s' ∧ (step s' (.recvClose q)).isSome

/-- **C92** does not hold.  Once a dispatcher has to deliver to a Block receiver whose buffer is full, nobody can close this or
any other receiver, close the bus or add a receiver until somebody reads an event from that very receiver; whatever else
happens. -/
theorem C92_stuck_violated (n : Nat) (s : State ε) (hr : Reach n s) (r : Nat) (h : Stuck s r) (as : List (Action ε)) (s' : State ε)
    (he : exec step s as = some s') :
    reads r s.log < reads r s'.log ∨
    (∀ q, step s' (.recvClose q) = none) ∧ (∀ name cap strat, step s' (.newRecv name cap strat) = none) ∧
      step s' .busClose2 = none := by
  have key : ∀ (as : List (Action ε)) (s0 : State ε), Wf s0 → reads r s.log ≤ reads r s0.log →
      (Stuck s0 r ∨ reads r s.log < reads r s0.log) → exec step s0 as = some s' →
      Stuck s' r ∨ reads r s.log < reads r s'.log := by
    intro as
    induction as with
    | nil => intro s0 _ _ h0 he; simp [exec] at he; subst he; exact h0
    | cons a as ih =>
      intro s0 w hle h0 he
      simp only [exec] at he
      split at he
      · rename_i s1 h1
        have t := step_tr w h1
        have hle' := reads_tr r t
        refine ih s1 (wf_tr w t) (by omega) ?_ he
        rcases h0 with h0 | h0
        · rcases (stuck_tr h0 t).2 with hs | hs
          · exact .inl hs
          · exact .inr (by omega)
        · exact .inr (by omega)
      · simp at he
  rcases key as s (reach_wf hr) (Nat.le_refl _) (.inl h) he with hs | hs
  · exact .inr (stuck_no_lock hs)
  · exact .inl hs

/-- A dispatcher with an event for a Block receiver without buffer and reader. -/
def exStuck : State Nat :=
  ⟨[], 0, false, [⟨"a", 0, .block, [], false⟩], [("a", 0)], [.visiting 10 [0]], [], false, false, [.reg 0, .sent 10, .start 0 10]⟩

theorem exStuck_reach : Reach 0 exStuck := ⟨[.goDispatch, .newRecv "a" 0 .block, .sendTo 0 10, .rlock 0], rfl⟩

example : Stuck exStuck 0 := ⟨0, 10, [0], _, rfl, by simp, rfl, rfl, by decide⟩

theorem C92_violated : ¬ C92Claim Nat := by
  intro hc
  obtain ⟨as, s', h1, h2, h3⟩ := hc 0 exStuck exStuck_reach rfl 0 (by decide)
  cases as with
  | nil =>
    simp only [exec, Option.some.injEq] at h2
    subst h2
    exact absurd h3 (by decide)
  | cons a as =>
    obtain ⟨d, hd⟩ := h1 a (by simp)
    have : step exStuck a = none := by
      cases a <;> simp only [Action.ownOf, Bool.false_eq_true] at hd
      · rename_i d' r k
        rcases d' with _ | d'
        · by_cases hr : r = 0
          · subst hr; rfl
          · simp [step, exStuck, hr]
        · rfl
      · rename_i d'
        rcases d' with _ | d' <;> rfl
    simp [exec, this] at h2

/-! ## What holds -/

def DPC.left : DPC ε → Nat
  | .visiting _ rem => rem.length + 1
  | _ => 0

/-- The number of steps that the dispatchers have to make until none of them holds the lock. -/
def work (s : State ε) : Nat := (s.disp.map DPC.left).sum

/-- A step of a dispatcher in its loop. -/
def own : Action ε → Bool
  | .visit _ _ _ => true
  | .runlock _ => true
  | _ => false

def isRlock : Action ε → Bool
  | .rlock _ => true
  | _ => false

theorem sum_set {α : Type} (f : α → Nat) : ∀ (l : List α) (i : Nat) (a b : α), l[i]? = some a →
    ((l.set i b).map f).sum + f a = (l.map f).sum + f b
  | [], i, a, b, h => by simp at h
  | x :: l, 0, a, b, h => by
    simp at h; subst h
    simp; omega
  | x :: l, i + 1, a, b, h => by
    have := sum_set f l i a b (by simpa using h)
    simp only [List.set_cons_succ, List.map_cons, List.sum_cons]
    omega

theorem work_set {s s' : State ε} {d : Nat} {p q : DPC ε} (h : s.disp[d]? = some p) (hd : s'.disp = s.disp.set d q) :
    work s' + p.left = work s + q.left := by
  unfold work
  rw [hd]
  exact sum_set _ s.disp d p q h

theorem closeAll_disp : ∀ (m : List (String × Nat)) (s s' : State ε), closeAll s m = some s' → s'.disp = s.disp
  | [], s, s', h => by simp [closeAll] at h; subst h; rfl
  | (_, r) :: m, s, s', h => by
    simp only [closeAll] at h
    split at h
    · simp at h
    · split at h
      · simp at h
      · have := closeAll_disp m _ s' h
        rw [this]; rfl

theorem offer_disp {s s' : State ε} {d r k : Nat} {v : ε} {rem : List Nat} {c : Rcv ε} (hc : c.closed = false)
    (h : offer s d r k v rem c = some s') : s'.disp = s.disp.set d (.visiting v rem) := by
  unfold offer at h
  simp only [hc] at h
  split at h
  · simp at h; subst h; rfl
  · split at h
    · rename_i h0; simp at h0
    · split at h
      · split at h
        · split at h
          · simp at h; subst h; rfl
          · simp at h
        · simp at h
      · split at h
        · simp at h; subst h; rfl
        · split at h
          · simp at h; subst h; rfl
          · simp at h

theorem work_step {s s' : State ε} (w : Wf s) {a : Action ε} (h : step s a = some s') (hr : isRlock a = false) :
    work s' + (if own a then 1 else 0) ≤ work s := by
  have same : s'.disp = s.disp → own a = false → work s' + (if own a then 1 else 0) ≤ work s := by
    intro e h0; simp [work, e, h0]
  cases a with
  | visit d r k =>
    simp only [step] at h
    split at h
    · rename_i v rem hd
      split at h
      · rename_i hm
        split at h
        · rename_i c hc
          obtain ⟨c', hc', hop, _⟩ := w.mem_open ((w.rem d v rem hd).2 r hm)
          rw [hc] at hc'; simp only [Option.some.injEq] at hc'; subst hc'
          have := work_set hd (offer_disp hop h)
          have hl := List.length_erase_of_mem hm
          have : 0 < rem.length := List.length_pos_of_mem hm
          simp only [DPC.left, own, if_true] at *
          omega
        · simp at h
      · simp at h
    · simp at h
  | runlock d =>
    simp only [step] at h
    split at h
    · rename_i v hd
      simp only [Option.some.injEq] at h
      have := work_set (s' := s') hd (by rw [← h])
      simp only [DPC.left, own, if_true, List.length_nil] at *
      omega
    · simp at h
  | rlock d => simp [isRlock] at hr
  | send v =>
    simp only [step] at h
    split at h
    · simp at h; subst h; exact Nat.le_refl _
    · split at h
      · simp at h; subst h; exact Nat.le_refl _
      · simp at h
  | sendTo d v =>
    simp only [step] at h
    split at h
    · rename_i h1 _ _
      simp only [Option.some.injEq] at h
      have := work_set (s' := s') h1 (by rw [← h])
      simp [DPC.left, own] at *; omega
    · simp at h
  | goDispatch => simp only [step, Option.some.injEq] at h; subst h; simp [work, DPC.left, own]
  | take d =>
    simp only [step] at h
    split at h
    · rename_i h1
      split at h
      · simp only [Option.some.injEq] at h
        have := work_set (s' := s') h1 (by rw [← h])
        simp [DPC.left, own] at *; omega
      · split at h
        · simp only [Option.some.injEq] at h
          have := work_set (s' := s') h1 (by rw [← h])
          simp [DPC.left, own] at *; omega
        · simp at h
    · simp at h
  | newRecv name cap strat =>
    simp only [step] at h
    split at h
    · simp at h; subst h; exact Nat.le_refl _
    · simp at h
  | recvClose r =>
    refine same ?_ rfl
    simp only [step] at h
    split at h
    · simp at h
    · split at h
      · split at h
        · simp at h; subst h; rfl
        · split at h
          · simp at h
          · split at h <;> (simp at h; subst h; rfl)
      · simp at h
  | busClose1 =>
    simp only [step] at h
    split at h <;> (simp at h; subst h; exact Nat.le_refl _)
  | busClose2 =>
    refine same ?_ rfl
    simp only [step] at h
    split at h
    · split at h
      · rename_i s1 h1
        simp at h; subst h
        exact (closeAll_disp _ _ s1 h1 : s1.disp = s.disp)
      · simp at h; subst h; rfl
    · simp at h
  | startRead r drain =>
    simp only [step] at h
    split at h
    · simp at h; subst h; exact Nat.le_refl _
    · simp at h
  | recv k =>
    refine same ?_ rfl
    simp only [step] at h
    split at h
    · split at h
      · split at h
        · simp at h
        · split at h
          · simp at h; subst h; rfl
          · split at h
            · simp at h; subst h; rfl
            · split at h <;> (simp at h; subst h; rfl)
      · simp at h
    · simp at h
  | recvFrom k d =>
    simp only [step] at h
    split at h
    · rename_i rd v rem hrd hd
      split at h
      · simp at h
      · split at h
        · rename_i hh
          simp only [Option.some.injEq] at h
          have := work_set (s' := s') hd (by rw [← h])
          have hl := List.length_erase_of_mem hh.2.1
          simp only [DPC.left, own, Bool.false_eq_true, if_false] at *
          omega
        · simp at h
    · simp at h
  | timeout k =>
    refine same ?_ rfl
    simp only [step] at h
    split at h
    · split at h
      · simp at h; subst h; rfl
      · simp at h
    · simp at h

/-- A dispatcher that holds the lock can go on, or it has to wait for a Block receiver with a full buffer. -/
theorem holder_moves {s : State ε} (w : Wf s) {d : Nat} {v : ε} {rem : List Nat} (h : s.disp[d]? = some (.visiting v rem)) :
    (∃ a, own a = true ∧ (step s a).isSome) ∨
      ∃ (r : Nat) (c : Rcv ε), s.rcvs[r]? = some c ∧ c.strat = .block ∧ c.cap ≤ c.buf.length ∧ c.closed = false ∧
        ∀ (k : Nat) rd, s.rds[k]? = some rd → rd.r = r → rd.st ≠ .parked := by
  cases rem with
  | nil => exact .inl ⟨.runlock d, rfl, by simp [step, h]⟩
  | cons r rem =>
    obtain ⟨c, hc, hop, _⟩ := w.mem_open ((w.rem d v _ h).2 r (by simp))
    by_cases hw : waiting s r = true
    · obtain ⟨k, rd, hk, hp, hrr⟩ := (waiting_iff s r).mp hw
      have := (rd.waitsOn_iff r).mpr ⟨hp, hrr⟩
      refine .inl ⟨.visit d r k, rfl, ?_⟩
      by_cases hs : c.strat = .other <;> simp [step, h, hc, offer, hop, hw, hk, this, hs]
    · by_cases hl : c.buf.length < c.cap
      · refine .inl ⟨.visit d r 0, rfl, ?_⟩
        by_cases hs : c.strat = .other <;> simp [step, h, hc, offer, hop, hw, hl, hs]
      · cases hs : c.strat with
        | drop => exact .inl ⟨.visit d r 0, rfl, by simp [step, h, hc, offer, hop, hw, hl, hs]⟩
        | other => exact .inl ⟨.visit d r 0, rfl, by simp [step, h, hc, offer, hop, hw, hl, hs]⟩
        | block =>
          refine .inr ⟨r, c, hc, hs, by omega, hop, fun k rd hk hrr hp => hw ?_⟩
          exact (waiting_iff s r).mpr ⟨k, rd, hk, hp, hrr⟩

/-- **C92**, what holds.  While a call waits for the lock (so that no further dispatcher gets it), the dispatchers make at most
`work` steps in their loops.  At any time, all calls can take the lock, or one of the dispatchers can make such a step, or one of
them waits for a Block receiver with a full buffer on which nobody waits.  If the receivers do not use Block, the calls therefore
complete. -/
theorem C92_partial (n : Nat) (s : State ε) (hr : Reach n s) (as : List (Action ε)) (hn : as.all (fun a => !isRlock a) = true)
    (s' : State ε) (he : exec step s as = some s') (hw : s'.wedged = false) :
    as.countP own ≤ work s ∧
    (((∀ q, q < s'.rcvs.length → (step s' (.recvClose q)).isSome) ∧ (∀ name cap strat, (step s' (.newRecv name cap strat)).isSome) ∧
        (s'.closing = true → (step s' .busClose2).isSome)) ∨
      (∃ a, own a = true ∧ (step s' a).isSome) ∨
      ∃ (r : Nat) (c : Rcv ε), s'.rcvs[r]? = some c ∧ c.strat = .block ∧ c.cap ≤ c.buf.length ∧ c.closed = false ∧
        ∀ (k : Nat) rd, s'.rds[k]? = some rd → rd.r = r → rd.st ≠ .parked) := by
  have key : ∀ (as : List (Action ε)) (s : State ε), Wf s → as.all (fun a => !isRlock a) = true → exec step s as = some s' →
      Wf s' ∧ as.countP own ≤ work s := by
    intro as
    induction as with
    | nil => intro s w _ he; simp [exec] at he; subst he; exact ⟨w, by simp⟩
    | cons a as ih =>
      intro s w hn he
      simp only [exec] at he
      simp only [List.all_cons, Bool.and_eq_true, Bool.not_eq_true'] at hn
      split at he
      · rename_i s1 h1
        obtain ⟨w', hc⟩ := ih s1 (wf_tr w (step_tr w h1)) hn.2 he
        have := work_step w h1 hn.1
        refine ⟨w', ?_⟩
        rw [List.countP_cons]
        omega
      · simp at he
  obtain ⟨w, hc⟩ := key as s (reach_wf hr) hn he
  refine ⟨hc, ?_⟩
  by_cases hl : lockable s' = true
  · refine .inl ⟨fun q hq => ?_, fun _ _ _ => by simp [step, hl], fun h => ?_⟩
    · obtain ⟨me, hme⟩ : ∃ me, s'.rcvs[q]? = some me := ⟨_, List.getElem?_eq_getElem hq⟩
      simp only [step, hme, hl, if_true]
      split
      · rfl
      · rename_i q' hq'
        obtain ⟨c, hc, _⟩ := w.entry _ (lookup_some hq')
        simp only at hc
        rw [hc]
        dsimp only
        split <;> rfl
    · simp only [step, h, hl, true_and, if_true]
      split <;> rfl
  · right
    have hv : ∃ (d : Nat) (v : ε) (rem : List Nat), s'.disp[d]? = some (DPC.visiting v rem) := by
      have : rlocked s' = true := by simpa [lockable, hw] using hl
      unfold rlocked at this
      rw [List.any_eq_true] at this
      obtain ⟨p, hp, hpp⟩ := this
      obtain ⟨d, hd⟩ := List.getElem?_of_mem hp
      cases p <;> simp at hpp
      exact ⟨d, _, _, hd⟩
    obtain ⟨d, v, rem, hd⟩ := hv
    exact holder_moves w hd

/-- A Drop receiver is closed although a dispatcher has an event for it. -/
example : ∃ s s' : State Nat, Reach 0 s ∧ step s (.recvClose 0) = none ∧ work s = 2 ∧
    exec step s [.visit 0 0 0, .runlock 0, .recvClose 0] = some s' :=
  ⟨_, _, ⟨[.goDispatch, .newRecv "a" 0 .drop, .sendTo 0 10, .rlock 0], rfl⟩, rfl, rfl, rfl⟩

end Gears.Bus
