import Verif.Bus.Log

/-
Property theorems for the event bus (C33-C40).
-/

namespace Gears.Bus

variable {ε : Type}

/-! ### C33 -/

/-- C33: with (at most) one dispatcher, what is read from a receiver's channel is a subsequence of what was sent to
the bus, in sending order, whatever senders, readers, registrations and closes do. -/
theorem C33_subsequence {n : Nat} {s : State ε} (h : Reach n s) (h1 : s.disp.length ≤ 1) (r : Nat) :
    (readOf r s.log).Sublist (sentOf s.log) := by
  obtain ⟨a1, a2, _⟩ := reach_ord h h1
  have hb := reach_buf h
  have hd : (readOf r s.log).Sublist (deliverOf r s.log) := by
    rcases hc : s.rcvs[r]? with _ | c
    · have := hb.2 r (by rw [← List.getElem?_eq_none_iff]; exact hc)
      simp [this.1, this.2]
    · rw [hb.1 r c hc]; exact List.sublist_append_left _ _
  refine hd.trans ((a2 r).trans ?_)
  rw [a1, List.append_assoc]
  exact List.sublist_append_left _ _

/-- Example schedule: one Drop receiver with room for one event, two events sent, both dispatched, the second dropped;
then it reads, and gets only the first. -/
def demo : List (Action Nat) :=
  [.goDispatch, .newRecv "a" 1 .drop, .sendTo 0 10, .rlock 0, .visit 0 0 0, .runlock 0,
   .send 20, .take 0, .rlock 0, .visit 0 0 0, .runlock 0, .startRead 0 true, .recv 0, .recv 0]

example : ∃ s, exec step (new 1) demo = some s ∧ s.disp.length ≤ 1 ∧ sentOf s.log = [10, 20] ∧
    readOf 0 s.log = [10] ∧ deliverOf 0 s.log = [10] := ⟨_, rfl, by decide⟩

/-! ### C34 -/

/-- C34: a Block receiver: what dispatcher `d` has delivered to it is exactly what `d` dispatched while the receiver
was registered - all of the completed dispatches, in order, without gaps, plus possibly the current event. -/
theorem C34_block_complete {n : Nat} {s : State ε} (h : Reach n s) (d r : Nat) (c : Rcv ε)
    (hc : s.rcvs[r]? = some c) (hb : c.strat = .block) :
    ∃ cur, deliverBy d r s.log = expected d r s.log ++ cur ∧ cur.length ≤ 1 ∧
      ((∀ v rem, s.disp[d]? ≠ some (.visiting v rem)) → cur = []) := by
  obtain ⟨_, h2⟩ := reach_blk h d r (by
    intro c' hc'
    rw [hc] at hc'; simp at hc'; subst hc'; exact hb)
  refine ⟨_, h2, ?_, ?_⟩
  · unfold gotOf
    split
    · split <;> simp
    · simp
  · intro hv
    unfold gotOf
    split
    · rename_i v rem he
      exact absurd he (hv v rem)
    · rfl

/-- C34: what was delivered is in the receiver's channel or was read from it: nothing is lost. -/
theorem C34_nothing_lost {n : Nat} {s : State ε} (h : Reach n s) (r : Nat) (c : Rcv ε) (hc : s.rcvs[r]? = some c) :
    deliverOf r s.log = readOf r s.log ++ c.buf := (reach_buf h).1 r c hc

/-- Block receiver: registered after the first event was dispatched; gets the second and the third. -/
example : ∃ s, exec step (new 1 : State Nat)
      [.goDispatch, .sendTo 0 10, .rlock 0, .runlock 0, .newRecv "a" 2 .block, .send 20, .take 0, .rlock 0, .visit 0 0 0,
       .runlock 0, .send 30, .take 0, .rlock 0, .visit 0 0 0, .runlock 0] = some s ∧
    expected 0 0 s.log = [20, 30] ∧ deliverBy 0 0 s.log = [20, 30] ∧ startsOf s.log = [10, 20, 30] :=
  ⟨_, rfl, by decide⟩

/-! ### C35 -/

def NoPanic (s : State ε) : Prop := ∀ d, Ev.dispPanic d ∉ s.log

theorem noPanic_tr {s s' : State ε} (h : NoPanic s) (t : Tr s s') : NoPanic s' := by
  intro d
  have := h d
  cases t with
  | close s' rs hl hcl hm hrs =>
    obtain ⟨suf, he, hcs, _⟩ := hcl.log
    rw [he]
    simp only [List.mem_append, this, false_or]
    intro hh
    exact hcs _ hh
  | newRecv name cap strat hl => simp [this]
  | _ => simp [this]

/-- C35: the dispatchers (any number of them) never send on a closed channel. -/
theorem C35_no_send_on_closed {n : Nat} {s : State ε} (h : Reach n s) (d : Nat) : Ev.dispPanic d ∉ s.log :=
  (reach_inv (I := NoPanic) h (by intro d; simp [new]) (fun _ _ _ => noPanic_tr)).2 d

/-- C35: neither does closing the bus close a channel twice: its critical section always succeeds. -/
theorem C35_bus_close_section {n : Nat} {s : State ε} (h : Reach n s) (h1 : s.closing = true)
    (h2 : lockable s = true) :
    ∃ s', step s .busClose2 = some s' ∧ (Ev.busClosePanic ∈ s'.log → Ev.busClosePanic ∈ s.log) := by
  have w := reach_wf h
  obtain ⟨s1, e1, e2, e3, e4⟩ := closeAll_spec s.map s w.ids_nodup (by
        intro p hp
        obtain ⟨c, hc, _, hop⟩ := w.entry p hp
        exact ⟨c, hc, hop⟩)
  refine ⟨{ s1 with closing := false }, by simp [step, h1, h2, e1], ?_⟩
  intro hm
  obtain ⟨suf, he, hcs, _⟩ := e2.log
  simp only [he, List.mem_append] at hm
  rcases hm with hm | hm
  · exact hm
  · exact absurd (hcs _ hm) (by simp [Ev.isClosing])

/-- The race that must not happen: an event is in flight, the receiver is closed, then the event is dispatched. -/
example : ∃ s, exec step (new 1 : State Nat)
      [.goDispatch, .newRecv "a" 1 .drop, .newRecv "b" 1 .drop, .sendTo 0 10, .recvClose 0, .rlock 0, .visit 0 1 0,
       .runlock 0, .busClose1, .busClose2, .take 0] = some s ∧
    deliverOf 1 s.log = [10] ∧ deliverOf 0 s.log = [] ∧ s.disp = [.gone] := ⟨_, rfl, by decide⟩

/-! ### C36 -/

/-- Steps of dispatcher `d` in its loop. -/
def Action.ownOf (d : Nat) : Action ε → Bool
  | .visit d' _ _ => d' == d
  | .runlock d' => d' == d
  | _ => false

/-- C36: an event is dropped for a receiver only when its buffer is full and nobody waits on its channel. -/
theorem C36_drop_only_when_full {n : Nat} {s s' : State ε} (h : Reach n s) {a : Action ε} (hst : step s a = some s')
    (d r : Nat) (v : ε) (l : List (Ev ε)) (hl : s'.log = s.log ++ l) (hm : Ev.dropped d r v ∈ l) :
    ∃ c, s.rcvs[r]? = some c ∧ c.cap ≤ c.buf.length ∧
      ∀ (k : Nat) rd, s.rds[k]? = some rd → ¬ (rd.st = .parked ∧ rd.r = r) := by
  have t := step_tr (reach_wf h) hst
  cases t with
  | dropped d' r' v' rem c hd hr hc hop hs hw hlt =>
    have : l = [.dropped d' r' v'] := (List.append_cancel_left hl).symm
    rw [this] at hm
    simp at hm
    obtain ⟨rfl, rfl, rfl⟩ := hm
    refine ⟨c, hc, by omega, ?_⟩
    intro k rd hk hh
    have : waiting s r = true := (waiting_iff s r).mpr ⟨k, rd, hk, hh.1, hh.2⟩
    rw [hw] at this; simp at this
  | close s' rs hl' hcl _ _ =>
    obtain ⟨suf, he, hcs, _⟩ := hcl.log
    have : l = suf := by rw [hl] at he; exact List.append_cancel_left he
    subst this
    exact absurd (hcs _ hm) (by simp [Ev.isClosing])
  | newRecv name cap strat hl' =>
    have : l = _ := (List.append_cancel_left hl).symm
    rw [this] at hm
    simp at hm
  | goDispatch => have : l = [] := by simpa using hl
                  simp [this] at hm
  | take d' v' ch _ _ => have : l = [] := by simpa using hl
                         simp [this] at hm
  | gone d' _ _ _ => have : l = [] := by simpa using hl
                     simp [this] at hm
  | skip d' r' v' rem c _ _ _ _ => have : l = [] := by simpa using hl
                                   simp [this] at hm
  | busClose1 _ => have : l = [] := by simpa using hl
                   simp [this] at hm
  | startRead r' drain _ => have : l = [] := by simpa using hl
                            simp [this] at hm
  | drained k rd c _ _ _ _ _ _ => have : l = [] := by simpa using hl
                                  simp [this] at hm
  | park k rd c _ _ _ _ _ _ => have : l = [] := by simpa using hl
                               simp [this] at hm
  | timeout k rd _ _ => have : l = [] := by simpa using hl
                        simp [this] at hm
  | _ =>
    have : l = _ := (List.append_cancel_left hl).symm
    rw [this] at hm
    simp at hm

/-- None of the receivers `rem` has strategy Block. -/
def NoBlock (s : State ε) (rem : List Nat) : Prop := ∀ r ∈ rem, ∀ c, s.rcvs[r]? = some c → c.strat ≠ .block

/-- C36: a dispatcher in its loop whose remaining receivers do not use Block can always take its next step, and
choose any of the remaining receivers for it. -/
theorem C36_enabled {n : Nat} {s : State ε} (h : Reach n s) {d : Nat} {v : ε} {rem : List Nat}
    (hd : s.disp[d]? = some (.visiting v rem)) (hb : NoBlock s rem) :
    (rem = [] → (step s (.runlock d)).isSome) ∧ (∀ r ∈ rem, ∃ k, (step s (.visit d r k)).isSome) := by
  have w := reach_wf h
  constructor
  · rintro rfl
    simp [step, hd]
  · intro r hr
    obtain ⟨c, hc, hop, _⟩ := w.mem_open ((w.rem d v rem hd).2 r hr)
    have hnb := hb r hr c hc
    by_cases hw : waiting s r = true
    · obtain ⟨k, rd, hk, hp, hrr⟩ := (waiting_iff s r).mp hw
      refine ⟨k, ?_⟩
      have := (rd.waitsOn_iff r).mpr ⟨hp, hrr⟩
      simp only [step, hd, hr, if_true, hc, offer, hop, hw, hk, this]
      split <;> simp
    · refine ⟨0, ?_⟩
      simp only [step, hd, hr, if_true, hc, offer, hop, hw]
      split
      · simp
      · simp
        split
        · simp
        · rename_i ho _
          cases hs : c.strat <;> simp [hs] at hnb ho ⊢

theorem strat_step {s s' : State ε} (w : Wf s) {a : Action ε} (hst : step s a = some s') {r : Nat} {c' : Rcv ε}
    (hlt : r < s.rcvs.length) (hc' : s'.rcvs[r]? = some c') : ∃ c, s.rcvs[r]? = some c ∧ c.strat = c'.strat := by
  have hex : s.rcvs[r]? = some s.rcvs[r] := List.getElem?_eq_getElem hlt
  have t := step_tr w hst
  cases t with
  | buffer d r0 v rem c hd hr hc hop hs hw hl =>
    rcases set_some hc' with ⟨hq, he⟩ | ⟨hq, he⟩
    · subst hq; subst he
      exact ⟨c, hc, rfl⟩
    · exact ⟨c', he, rfl⟩
  | newRecv name cap strat hl =>
    rcases snoc_some hc' with ⟨hq, he⟩ | ⟨hq, he⟩
    · omega
    · exact ⟨c', he, rfl⟩
  | close s' rs hl hcl hm hrs =>
    rw [hcl.rcvs, Option.map_eq_some_iff] at hc'
    obtain ⟨c, hc, rfl⟩ := hc'
    refine ⟨c, hc, ?_⟩
    split <;> rfl
  | readBuf k rd c v buf hk hst hc hb =>
    rcases set_some hc' with ⟨hq, he⟩ | ⟨hq, he⟩
    · subst he
      rw [← hq]
      exact ⟨c, hc, rfl⟩
    · exact ⟨c', he, rfl⟩
  | _ => exact ⟨c', hc', rfl⟩

/-- A step of somebody else leaves a dispatcher in its loop alone, unless it takes the event for a Block receiver out of
its hands; its own step visits one receiver or ends. -/
theorem visiting_step {s s' : State ε} (w : Wf s) {a : Action ε} (hst : step s a = some s') {d : Nat} {v : ε}
    {rem : List Nat} (hd : s.disp[d]? = some (.visiting v rem)) :
    (a = .runlock d ∧ rem = [] ∨ ∃ r ∈ rem, ∃ c, s.rcvs[r]? = some c ∧ c.strat = .block) ∨
    (∃ rem', s'.disp[d]? = some (.visiting v rem') ∧ (∀ r ∈ rem', r ∈ rem) ∧
      rem'.length + (if a.ownOf d then 1 else 0) = rem.length) := by
  have hlt := getElem?_lt hd
  have other : ∀ (d0 : Nat) (p : DPC ε), d0 ≠ d → (s.disp.set d0 p)[d]? = some (.visiting v rem) := by
    intro d0 p hne
    rw [visit_other hne]; exact hd
  have same : ∀ (s1 : State ε), s1.disp[d]? = some (.visiting v rem) → a.ownOf d = false →
      (∃ rem', s1.disp[d]? = some (.visiting v rem') ∧ (∀ r ∈ rem', r ∈ rem) ∧
      rem'.length + (if a.ownOf d then 1 else 0) = rem.length) := by
    intro s1 h1 h2
    exact ⟨rem, h1, fun r hr => hr, by simp [h2]⟩
  cases a with
  | send v0 =>
    simp only [step] at hst
    split at hst
    · simp at hst; subst hst; exact Or.inr (same _ hd rfl)
    · split at hst
      · simp at hst; subst hst; exact Or.inr (same _ hd rfl)
      · simp at hst
  | sendTo d0 v0 =>
    simp only [step] at hst
    split at hst
    · rename_i h1 h2 h3
      simp at hst; subst hst
      refine Or.inr (same _ (other d0 _ ?_) rfl)
      rintro rfl; rw [hd] at h1; simp at h1
    · simp at hst
  | goDispatch =>
    simp only [step] at hst
    simp at hst; subst hst
    refine Or.inr (same _ ?_ rfl)
    simp only
    rw [List.getElem?_append_left hlt]; exact hd
  | take d0 =>
    simp only [step] at hst
    split at hst
    · rename_i h1
      have hne : d0 ≠ d := by rintro rfl; rw [hd] at h1; simp at h1
      split at hst
      · simp at hst; subst hst; exact Or.inr (same _ (other d0 _ hne) rfl)
      · split at hst
        · simp at hst; subst hst; exact Or.inr (same _ (other d0 _ hne) rfl)
        · simp at hst
    · simp at hst
  | rlock d0 =>
    simp only [step] at hst
    split at hst
    · rename_i v0 h1
      have hne : d0 ≠ d := by rintro rfl; rw [hd] at h1; simp at h1
      split at hst
      · simp at hst
      · simp at hst; subst hst; exact Or.inr (same _ (other d0 _ hne) rfl)
    · simp at hst
  | visit d0 r k =>
    by_cases hdd : d0 = d
    · subst hdd
      simp only [step, hd] at hst
      split at hst
      · rename_i hr
        obtain ⟨c, hc, hop, _⟩ := w.mem_open ((w.rem d0 v rem hd).2 r hr)
        simp only [hc, offer, hop] at hst
        have key : ∀ s1 : State ε, s1.disp = s.disp.set d0 (.visiting v (rem.erase r)) →
            ∃ rem', s1.disp[d0]? = some (.visiting v rem') ∧ (∀ r ∈ rem', r ∈ rem) ∧
              rem'.length + (if (Action.visit d0 r k : Action ε).ownOf d0 then 1 else 0) = rem.length := by
          intro s1 h1
          refine ⟨rem.erase r, ?_, fun x hx => List.mem_of_mem_erase hx, ?_⟩
          · rw [h1, List.getElem?_set]; simp [hlt]
          · have := List.length_erase_add_one hr
            simp [Action.ownOf]; omega
        right
        split at hst
        · simp at hst; subst hst; exact key _ rfl
        · simp only [Bool.false_eq_true, if_false] at hst
          split at hst
          · split at hst
            · split at hst
              · simp at hst; subst hst; exact key _ rfl
              · simp at hst
            · simp at hst
          · split at hst
            · simp at hst; subst hst; exact key _ rfl
            · split at hst
              · simp at hst; subst hst; exact key _ rfl
              · simp at hst
      · simp at hst
    · have hown : (Action.visit d0 r k : Action ε).ownOf d = false := by simp [Action.ownOf, hdd]
      have t := step_tr w hst
      simp only [step] at hst
      split at hst
      · split at hst
        · split at hst
          · unfold offer at hst
            dsimp only at hst
            right
            split at hst
            · simp at hst; subst hst; exact same _ (other d0 _ hdd) hown
            · split at hst
              · simp at hst; subst hst; exact same _ (other d0 _ hdd) hown
              · split at hst
                · split at hst
                  · split at hst
                    · simp at hst; subst hst; exact same _ (other d0 _ hdd) hown
                    · simp at hst
                  · simp at hst
                · split at hst
                  · simp at hst; subst hst; exact same _ (other d0 _ hdd) hown
                  · split at hst
                    · simp at hst; subst hst; exact same _ (other d0 _ hdd) hown
                    · simp at hst
          · simp at hst
        · simp at hst
      · simp at hst
  | runlock d0 =>
    by_cases hdd : d0 = d
    · subst hdd
      simp only [step, hd] at hst
      split at hst
      · rename_i heq
        simp at heq
        exact Or.inl (Or.inl ⟨rfl, heq.2⟩)
      · simp at hst
    · simp only [step] at hst
      split at hst
      · simp at hst; subst hst
        exact Or.inr (same _ (other d0 _ hdd) (by simp [Action.ownOf, hdd]))
      · simp at hst
  | newRecv name cap strat =>
    simp only [step] at hst
    split at hst
    · rename_i hl
      exact absurd hd (lockable_no_visit hl d v rem)
    · simp at hst
  | recvClose r =>
    simp only [step] at hst
    split at hst
    · simp at hst
    · split at hst
      · rename_i hl
        exact absurd hd (lockable_no_visit hl d v rem)
      · simp at hst
  | busClose1 =>
    simp only [step] at hst
    split at hst
    · simp at hst; subst hst; exact Or.inr (same _ hd rfl)
    · simp at hst; subst hst; exact Or.inr (same _ hd rfl)
  | busClose2 =>
    simp only [step] at hst
    split at hst
    · rename_i hl
      exact absurd hd (lockable_no_visit hl.2 d v rem)
    · simp at hst
  | startRead r drain =>
    simp only [step] at hst
    split at hst
    · simp at hst; subst hst; exact Or.inr (same _ hd rfl)
    · simp at hst
  | recv k =>
    simp only [step] at hst
    split at hst
    · split at hst
      · split at hst
        · simp at hst
        · split at hst
          · simp at hst; subst hst; exact Or.inr (same _ hd rfl)
          · split at hst
            · simp at hst; subst hst; exact Or.inr (same _ hd rfl)
            · split at hst
              · simp at hst; subst hst; exact Or.inr (same _ hd rfl)
              · simp at hst; subst hst; exact Or.inr (same _ hd rfl)
      · simp at hst
    · simp at hst
  | recvFrom k d0 =>
    simp only [step] at hst
    split at hst
    · rename_i rd v0 rem0 hrd hd0
      split at hst
      · simp at hst
      · rename_i c hc
        split at hst
        · rename_i hh
          by_cases hdd : d0 = d
          · subst hdd
            rw [hd] at hd0
            simp only [Option.some.injEq, DPC.visiting.injEq] at hd0
            exact Or.inl (Or.inr ⟨rd.r, by rw [hd0.2]; exact hh.2.1, c, hc, hh.2.2.1⟩)
          · simp at hst; subst hst; exact Or.inr (same _ (other d0 _ hdd) rfl)
        · simp at hst
    · simp at hst
  | timeout k =>
    simp only [step] at hst
    split at hst
    · split at hst
      · simp at hst; subst hst; exact Or.inr (same _ hd rfl)
      · simp at hst
    · simp at hst

/-- C36: a dispatch to receivers that do not use Block completes after `rem.length + 1` own steps of the dispatcher,
whatever the others do in between, and until then its next step is always enabled. -/
theorem C36_completes {n : Nat} {s : State ε} (h : Reach n s) {d : Nat} {v : ε} {rem : List Nat}
    (hd : s.disp[d]? = some (.visiting v rem)) (hb : NoBlock s rem) (as : List (Action ε)) (s' : State ε)
    (hex : exec step s as = some s') :
    (Action.runlock d ∈ as) ∨
    ((as.filter (Action.ownOf d)).length ≤ rem.length ∧
      ((as.filter (Action.ownOf d)).length = rem.length → (step s' (.runlock d)).isSome) ∧
      ((as.filter (Action.ownOf d)).length < rem.length → ∃ r k, (step s' (.visit d r k)).isSome)) := by
  induction as generalizing s rem with
  | nil =>
    simp [exec] at hex; subst hex
    right
    obtain ⟨h1, h2⟩ := C36_enabled h hd hb
    refine ⟨by simp, ?_, ?_⟩
    · intro hl
      exact h1 (List.length_eq_zero_iff.mp (by simpa using hl.symm))
    · intro hl
      obtain ⟨r, hr⟩ := List.exists_mem_of_length_pos (by simpa using hl)
      obtain ⟨k, hk⟩ := h2 r hr
      exact ⟨r, k, hk⟩
  | cons a as ih =>
    simp only [exec] at hex
    split at hex
    · rename_i s1 h1
      have w := reach_wf h
      rcases visiting_step w h1 hd with (⟨ha, _⟩ | ⟨r, hr, c, hc, hst⟩) | ⟨rem', hd', hsub, hlen⟩
      · left; simp [ha]
      · exact absurd hst (hb r hr c hc)
      · have h' : Reach n s1 := h.trans (.step a h1)
        have hb' : NoBlock s1 rem' := by
          intro r hr c hc
          have hm := (w.rem d v rem hd).2 r (hsub r hr)
          obtain ⟨c0, hc0, _⟩ := w.mem_open hm
          obtain ⟨c1, hc1, hst⟩ := strat_step w h1 (getElem?_lt hc0) hc
          rw [← hst]
          exact hb r (hsub r hr) c1 hc1
        rcases ih h' hd' hb' hex with hi | ⟨i1, i2, i3⟩
        · left; simp [hi]
        · right
          by_cases hown : a.ownOf d = true
          · simp only [hown, if_true] at hlen
            rw [List.filter_cons_of_pos (by simpa using hown)]
            simp only [List.length_cons]
            exact ⟨by omega, fun hh => i2 (by omega), fun hh => i3 (by omega)⟩
          · simp only [hown] at hlen
            rw [List.filter_cons_of_neg (by simpa using hown)]
            simp at hlen
            exact ⟨by omega, fun hh => i2 (by omega), fun hh => i3 (by omega)⟩
    · simp at hex

/-- C36: starting the dispatch of an event that was taken from the bus waits for nothing but a goroutine that died in
`Receiver.Close` holding the lock (C38). -/
theorem C36_lock {s : State ε} {d : Nat} {v : ε} (hd : s.disp[d]? = some (.got v)) (hw : s.wedged = false) :
    (step s (.rlock d)).isSome := by simp [step, hd, hw]

/-- A Block receiver without reader does stall the bus; the hypothesis of `C36_enabled` matters. -/
example : ∃ s, exec step (new 0 : State Nat) [.goDispatch, .newRecv "a" 0 .block, .sendTo 0 10, .rlock 0] = some s ∧
    s.disp[0]? = some (.visiting 10 [0]) ∧ ∀ k, step s (.visit 0 0 k) = none := ⟨_, rfl, by decide, fun _ => rfl⟩

/-- and a Drop receiver does not. -/
example : ∃ s, exec step (new 0 : State Nat) [.goDispatch, .newRecv "a" 0 .drop, .sendTo 0 10, .rlock 0] = some s ∧
    s.disp[0]? = some (.visiting 10 [0]) ∧ NoBlock s [0] := ⟨_, rfl, by decide, by
      intro r hr c hc
      simp at hr; subst hr
      simp [new] at hc; subst hc; simp⟩

/-! ### C37 -/

/-- A closed channel stays closed and gets nothing any more. -/
def Frozen (r : Nat) (dl : List ε) (s : State ε) : Prop :=
  ∃ c, s.rcvs[r]? = some c ∧ c.closed = true ∧ deliverOf r s.log = dl

theorem frozen_frame {r : Nat} {dl : List ε} {s s' : State ε} (h : Frozen r dl s)
    (hrc : ∀ c, s.rcvs[r]? = some c → c.closed = true → ∃ c, s'.rcvs[r]? = some c ∧ c.closed = true)
    (hl : deliverOf r s'.log = deliverOf r s.log) : Frozen r dl s' := by
  obtain ⟨c, hc, hcl, hd⟩ := h
  obtain ⟨c', hc', hcl'⟩ := hrc c hc hcl
  exact ⟨c', hc', hcl', hl.trans hd⟩

theorem frozen_tr {r : Nat} {dl : List ε} {s s' : State ε} (h : Frozen r dl s) (t : Tr s s') : Frozen r dl s' := by
  cases t with
  | hand d q k v rem c rd hd hr hc hop hs hk hp hrr =>
    have hne : q ≠ r := by
      rintro rfl
      obtain ⟨c', hc', hcl', _⟩ := h
      rw [hc] at hc'; simp at hc'; subst hc'; simp [hop] at hcl'
    exact frozen_frame h (fun c h1 h2 => ⟨c, h1, h2⟩) (by simp [deliverOf, hne])
  | buffer d q v rem c hd hr hc hop hs hw hl =>
    have hne : q ≠ r := by
      rintro rfl
      obtain ⟨c', hc', hcl', _⟩ := h
      rw [hc] at hc'; simp at hc'; subst hc'; simp [hop] at hcl'
    refine frozen_frame h (fun c h1 h2 => ⟨c, ?_, h2⟩) (by simp [deliverOf, hne])
    simp only
    rw [List.getElem?_set]; simp [hne, h1]
  | newRecv name cap strat hl =>
    refine frozen_frame h (fun c h1 h2 => ⟨c, ?_, h2⟩) ?_
    · simp only
      rw [List.getElem?_append_left (getElem?_lt h1)]; exact h1
    · simp only [deliverOf]
      rw [List.filterMap_append, List.filterMap_append, filterMap_unreg (by simp)]; simp
  | close s' rs hl hcl hm hrs =>
    obtain ⟨suf, he, hcs, _⟩ := hcl.log
    refine frozen_frame h (fun c h1 h2 => ⟨_, by rw [hcl.rcvs, h1]; rfl, ?_⟩) ?_
    · by_cases hr : r ∈ rs <;> simp [hr, h2]
    · simp only [deliverOf]
      rw [he, List.filterMap_append,
        filterMap_closing (suf := suf) (by intro e; cases e <;> simp [Ev.isClosing]) hcs]
      simp
  | readBuf k rd c v buf hk hst hc hb =>
    refine frozen_frame h (fun x h1 h2 => ?_) (by simp [deliverOf])
    simp only
    rw [List.getElem?_set]
    by_cases hr : rd.r = r
    · rw [hr, h1] at hc
      simp at hc; subst hc
      exact ⟨{ x with buf := buf }, by simp [hr, getElem?_lt h1], h2⟩
    · exact ⟨x, by simp [hr, h1], h2⟩
  | _ => exact frozen_frame h (fun c h1 h2 => ⟨c, h1, h2⟩) (by simp [deliverOf])

/-- C37: when `FanOutBus.Close` returns, nobody is registered; the channel of every receiver that was registered is
closed, its buffered events are still there; and whatever happens later, nothing is delivered to it. -/
theorem C37_close {n : Nat} {s s' : State ε} (h : Reach n s) (hst : step s .busClose2 = some s') :
    (∀ r, registered r s'.log = false) ∧
    ∀ r, registered r s.log = true → ∃ c c', s.rcvs[r]? = some c ∧ s'.rcvs[r]? = some c' ∧ c'.closed = true ∧
      c'.buf = c.buf ∧ ∀ s'', Reachable step s' s'' →
        deliverOf r s''.log = deliverOf r s'.log ∧ ∃ c'', s''.rcvs[r]? = some c'' ∧ c''.closed = true := by
  have w := reach_wf h
  have h' : Reach n s' := h.trans (.step _ hst)
  have hreg := reach_reg h
  have hreg' := reach_reg h'
  obtain ⟨s1, e1, e2, e3, e4⟩ := closeAll_spec s.map s w.ids_nodup (by
        intro p hp
        obtain ⟨c, hc, _, hop⟩ := w.entry p hp
        exact ⟨c, hc, hop⟩)
  simp only [step, e1] at hst
  split at hst
  · simp at hst
    have hm : s'.map = [] := by rw [← hst]; exact e3
    have hrc : s'.rcvs = s1.rcvs := by rw [← hst]
    refine ⟨?_, ?_⟩
    · intro r
      have := hreg' r
      rw [hm] at this
      simp [ids] at this
      exact this
    · intro r hr
      have hr := (hreg r).mp hr
      obtain ⟨c, hc, _⟩ := w.mem_open hr
      have hc1 : s'.rcvs[r]? = some { c with closed := true } := by rw [hrc, e2.rcvs, hc]; simp [hr]
      refine ⟨c, { c with closed := true }, hc, hc1, rfl, rfl, ?_⟩
      intro s'' hr''
      have := Reachable.inv (I := fun x => Wf x ∧ Frozen r (deliverOf r s'.log) x) hr''
        ⟨reach_wf h', _, hc1, rfl, rfl⟩ (by
          intro a b c hi hs
          have t := step_tr hi.1 hs
          exact ⟨wf_tr hi.1 t, frozen_tr hi.2 t⟩)
      obtain ⟨_, c2, hc2, hcl2, hd2⟩ := this
      exact ⟨hd2, c2, hc2, hcl2⟩
  · simp at hst

/-- C37: buffered events of a closed channel can be read, in order. -/
theorem C37_readable {s : State ε} {k : Nat} {rd : Reader ε} {c : Rcv ε} {v : ε} {buf : List ε}
    (hk : s.rds[k]? = some rd) (hst : rd.st = .run) (hc : s.rcvs[rd.r]? = some c) (hb : c.buf = v :: buf) :
    ∃ s', step s (.recv k) = some s' ∧ s'.log = s.log ++ [.read rd.r k v] := by
  refine ⟨_, by simp only [step, hk, hst, hc, hb, if_true]; rfl, rfl⟩

/-- Closing a bus with a registered receiver that has a buffered event. -/
example : ∃ s s', exec step (new 0 : State Nat)
      [.goDispatch, .newRecv "a" 1 .drop, .sendTo 0 10, .rlock 0, .visit 0 0 0, .runlock 0, .busClose1] = some s ∧
    step s .busClose2 = some s' ∧ registered 0 s.log = true ∧ (s'.rcvs[0]?.map Rcv.buf) = some [10] :=
  ⟨_, _, rfl, rfl, by decide, by decide⟩

/-! ### C38 -/

/-- C38 (full statement): `Receiver.Close` never panics and changes no receiver but its own. -/
def C38_full (ε : Type) : Prop :=
  ∀ (n : Nat) (s s' : State ε) (r : Nat), Reach n s → step s (.recvClose r) = some s' →
    (∀ q, Ev.recvClosePanic q ∈ s'.log → Ev.recvClosePanic q ∈ s.log) ∧ ∀ q, q ≠ r → s'.rcvs[q]? = s.rcvs[q]?

/-- C38 does not hold: after a second receiver with the same name was made, closing the first one closes the channel of
the second one (and not its own). -/
theorem C38_same_name_violated : ∃ s s' : State Nat, Reach 0 s ∧ step s (.recvClose 0) = some s' ∧
    (s'.rcvs[0]?.map Rcv.closed) = some false ∧ (s.rcvs[1]?.map Rcv.closed) = some false ∧
    (s'.rcvs[1]?.map Rcv.closed) = some true :=
  ⟨_, _, ⟨[.newRecv "a" 1 .drop, .newRecv "a" 1 .drop], rfl⟩, rfl, by decide⟩

/-- C38 does not hold: closing a receiver twice panics, and leaves the lock taken: no later registration, close or
dispatch gets it. -/
theorem C38_twice_violated : ∃ s s' : State Nat, Reach 0 s ∧ step s (.recvClose 0) = some s' ∧
    Ev.recvClosePanic 0 ∉ s.log ∧ Ev.recvClosePanic 0 ∈ s'.log ∧
    (∀ name cap strat, step s' (.newRecv name cap strat) = none) ∧ (∀ r, step s' (.recvClose r) = none) ∧
    (∀ d, step s' (.rlock d) = none) := by
  refine ⟨_, _, ⟨[.newRecv "a" 1 .drop, .recvClose 0], rfl⟩, rfl, by decide, by decide, ?_, ?_, ?_⟩
  · intro name cap strat; rfl
  · intro r
    cases r <;> rfl
  · intro d; rfl

theorem C38_full_violated : ¬ C38_full Nat := by
  intro h
  obtain ⟨s, s', hr, hst, h1, h2, h3⟩ := C38_same_name_violated
  have := (h 0 s s' 0 hr hst).2 1 (by decide)
  rw [this, h2] at h3
  simp at h3

/-- C38 (partial): for a receiver that is registered - it was not closed, the bus was not closed, and no receiver was
made later with its name - `Close` does what it should: it closes this channel, changes no other receiver, does not
panic, and deregisters it.  Missing: receivers that are no longer registered (`C38_full_violated`). -/
theorem C38_close_partial {n : Nat} {s s' : State ε} {r : Nat} (h : Reach n s) (hreg : registered r s.log = true)
    (hst : step s (.recvClose r) = some s') :
    (∃ c, s.rcvs[r]? = some c ∧ s'.rcvs[r]? = some { c with closed := true }) ∧
    (∀ q : Nat, q ≠ r → s'.rcvs[q]? = s.rcvs[q]?) ∧
    (∀ q, Ev.recvClosePanic q ∈ s'.log → Ev.recvClosePanic q ∈ s.log) ∧
    registered r s'.log = false ∧ (∀ q, q ≠ r → registered q s'.log = registered q s.log) ∧
    s'.wedged = s.wedged := by
  have w := reach_wf h
  have hm := (reach_reg h r).mp hreg
  obtain ⟨c, hc, hop, hcm⟩ := w.mem_open hm
  have hlk : lookup s.map c.name = some r := by
    cases hl : lookup s.map c.name with
    | none => exact absurd rfl (lookup_none hl _ hcm)
    | some q =>
      have := w.key_unique hcm (lookup_some hl) rfl
      simp at this; rw [this]
  have h' : Reach n s' := h.trans (.step _ hst)
  simp only [step, hc, hlk, hop] at hst
  split at hst
  · simp at hst
    have hcl := closed_one s r c hc (without s.map c.name)
    have hs' : s' = { closeCh s r c with map := without s.map c.name, log := (closeCh s r c).log ++ [.unreg r] } := by
      rw [← hst]
    rw [← hs'] at hcl
    obtain ⟨suf, he, hcs, hu⟩ := hcl.log
    have hmap : s'.map = s.map.filter (fun p => p.2 ∉ [r]) := by rw [hs']; exact w.without_eq hcm
    refine ⟨⟨c, hc, ?_⟩, ?_, ?_, ?_, ?_, hcl.wedged⟩
    · rw [hcl.rcvs, hc]; simp
    · intro q hq
      rw [hcl.rcvs]
      simp [hq]
    · intro q hq
      rw [he, List.mem_append] at hq
      rcases hq with hq | hq
      · exact hq
      · exact absurd (hcs _ hq) (by simp [Ev.isClosing])
    · have := registered_closing r suf s.log hcs
      rw [← he] at this
      rw [Bool.eq_false_iff]
      intro hh
      exact (this.mp hh).2 ((hu r).mpr (by simp))
    · intro q hq
      have := registered_closing q suf s.log hcs
      rw [← he] at this
      rw [Bool.eq_iff_iff, this, hu]
      simp [hq]
  · simp at hst

/-- Closing one of two receivers. -/
example : ∃ s s' : State Nat, exec step (new 0) [.newRecv "a" 1 .drop, .newRecv "b" 1 .block] = some s ∧
    registered 0 s.log = true ∧ step s (.recvClose 0) = some s' ∧
    (s'.rcvs[0]?.map Rcv.closed) = some true ∧ (s'.rcvs[1]?.map Rcv.closed) = some false :=
  ⟨_, _, rfl, by decide, rfl, by decide, by decide⟩

/-! ### C39 -/

theorem drain_loop : ∀ (buf : List ε) (s : State ε) (k : Nat) (rd : Reader ε) (c : Rcv ε),
    s.rds[k]? = some rd → rd.drain = true → rd.st = .run → s.rcvs[rd.r]? = some c → c.buf = buf →
    ∃ s', exec step s (List.replicate (buf.length + 1) (.recv k)) = some s' ∧
      s'.rds[k]? = some { rd with st := .ret, data := rd.data ++ buf.map some } ∧
      s'.rcvs[rd.r]? = some { c with buf := [] } ∧ (∀ q : Nat, q ≠ rd.r → s'.rcvs[q]? = s.rcvs[q]?)
  | [], s, k, rd, c, hk, hd, hst, hc, hb => by
    have hlt := getElem?_lt hk
    have hcb : ({ c with buf := [] } : Rcv ε) = c := by
      cases c; simp at hb; simp [hb]
    by_cases hcl : c.closed = true
    · refine ⟨{ s with rds := s.rds.set k rd.onClosed, log := s.log ++ [.readNil rd.r k] }, ?_, ?_, ?_, ?_⟩
      · simp [exec, step, hk, hst, hc, hb, hcl]
      · simp [List.getElem?_set, hlt, Reader.onClosed, hd]
      · simp only; rw [hcb]; exact hc
      · intro q _; rfl
    · refine ⟨{ s with rds := s.rds.set k { rd with st := .ret } }, ?_, ?_, ?_, ?_⟩
      · simp [exec, step, hk, hst, hc, hb, hcl, hd]
      · simp [List.getElem?_set, hlt]
      · simp only; rw [hcb]; exact hc
      · intro q _; rfl
  | v :: buf, s, k, rd, c, hk, hd, hst, hc, hb => by
    have hlt := getElem?_lt hk
    have hlt2 := getElem?_lt hc
    obtain ⟨s', h1, h2, h3, h4⟩ := drain_loop buf
      { s with rcvs := s.rcvs.set rd.r { c with buf := buf },
               rds := s.rds.set k { rd with data := rd.data ++ [some v] },
               log := s.log ++ [.read rd.r k v] } k { rd with data := rd.data ++ [some v] } { c with buf := buf }
      (by simp [List.getElem?_set, hlt]) hd hst (by simp [List.getElem?_set, hlt2]) rfl
    refine ⟨s', ?_, ?_, ?_, ?_⟩
    · rw [List.length_cons, List.replicate_succ]
      rw [hst] at h1
      simp only [exec, step, hk, hst, hc, hb, if_true]
      exact h1
    · rw [h2]; simp
    · rw [h3]
    · intro q hq
      rw [h4 q hq]
      have : rd.r ≠ q := fun h => hq h.symm
      simp [List.getElem?_set, this]

/-- C39: `Drain` without concurrent activity (in particular no dispatcher waits for room in the channel): it ends,
after one receive per buffered event and one more; it returns the buffered events in order; the buffer is empty then.
The receiver may be open or closed. -/
theorem C39_drain (s s0 : State ε) (r : Nat) (c : Rcv ε) (hc : s.rcvs[r]? = some c)
    (h0 : step s (.startRead r true) = some s0) :
    ∃ s', exec step s0 (List.replicate (c.buf.length + 1) (.recv s.rds.length)) = some s' ∧
      s'.rds[s.rds.length]? = some ⟨r, true, .ret, c.buf.map some⟩ ∧
      s'.rcvs[r]? = some { c with buf := [] } ∧ ∀ q : Nat, q ≠ r → s'.rcvs[q]? = s.rcvs[q]? := by
  have hlt := getElem?_lt hc
  simp only [step, hlt, if_true] at h0
  simp at h0; subst h0
  obtain ⟨s', h1, h2, h3, h4⟩ := drain_loop c.buf { s with rds := s.rds ++ [⟨r, true, .run, []⟩] } s.rds.length
    ⟨r, true, .run, []⟩ c (by simp) rfl rfl hc rfl
  exact ⟨s', h1, by simpa using h2, h3, h4⟩

/-- C39, concurrent activity allowed: a `Drain` call returns the events that it read, in order, and never a zero
value. -/
theorem C39_drain_concurrent {n : Nat} {s : State ε} (h : Reach n s) {k : Nat} {rd : Reader ε}
    (hk : s.rds[k]? = some rd) (hd : rd.drain = true) : rd.data = (readBy k rd.r s.log).map some := by
  obtain ⟨m, h1, h2⟩ := (reach_rd h).1 k rd hk
  rcases Nat.eq_zero_or_pos m with h0 | h0
  · subst h0; simpa using h1
  · have := (h2 h0).1
    rw [hd] at this; simp at this

/-- Draining a closed receiver with two buffered events. -/
example : ∃ s s' : State Nat, exec step (new 0)
      [.goDispatch, .newRecv "a" 2 .drop, .sendTo 0 10, .rlock 0, .visit 0 0 0, .runlock 0,
       .sendTo 0 20, .rlock 0, .visit 0 0 0, .runlock 0, .recvClose 0, .startRead 0 true] = some s ∧
    exec step s (List.replicate 3 (.recv 0)) = some s' ∧
    s'.rds[0]? = some ⟨0, true, .ret, [some 10, some 20]⟩ := ⟨_, _, rfl, rfl, by decide⟩

/-- A dispatcher that waits for a reader of a receiver without buffer hands its event to a `Drain` call. -/
example : ∃ s : State Nat, exec step (new 0)
      [.goDispatch, .newRecv "a" 0 .block, .sendTo 0 10, .rlock 0, .startRead 0 true, .recvFrom 0 0, .runlock 0,
       .recv 0] = some s ∧
    s.rds[0]? = some ⟨0, true, .ret, [some 10]⟩ ∧ s.disp[0]? = some .idle := ⟨_, rfl, by decide, by decide⟩

/-! ### C40 -/

/-- `readBy` is about reads of this receiver. -/
theorem readBy_sublist (k r : Nat) (l : List (Ev ε)) : (readBy k r l).Sublist (readOf r l) := by
  induction l with
  | nil => simp [readBy, readOf]
  | cons e l ih =>
    cases e with
    | read q j v =>
      simp only [readBy, readOf, List.filterMap_cons] at ih ⊢
      by_cases hq : q = r
      · by_cases hj : j = k
        · simp [hq, hj]; exact ih
        · simp [hq, hj]; exact ih.trans (List.sublist_cons_self _ _)
      · simp [hq]; exact ih
    | _ => simpa [readBy, readOf] using ih

/-- C40 (full statement): what a `CollectTimeout` call has collected are events delivered to the receiver, in order,
and nothing else. -/
def C40_full (ε : Type) : Prop :=
  ∀ (n : Nat) (s : State ε) (k : Nat) (rd : Reader ε), Reach n s → s.rds[k]? = some rd → rd.drain = false →
    ∃ evs : List ε, rd.data = evs.map some ∧ evs.Sublist (deliverOf rd.r s.log)

/-- C40 does not hold: a receiver that is closed makes `CollectTimeout` collect zero values, as many as it has time
for (here 3), although no event was ever sent. -/
theorem C40_full_violated : ¬ C40_full Nat := by
  intro h
  obtain ⟨evs, h1, _⟩ := h 0 _ 0 ⟨0, false, .ret, [none, none, none]⟩
    ⟨[.newRecv "a" 1 .drop, .startRead 0 false, .recvClose 0, .recv 0, .recv 0, .recv 0, .timeout 0], rfl⟩ rfl rfl
  cases evs <;> simp at h1

/-- C40 (partial): the collected values are events delivered to the receiver, in order, followed by zero values; there
are no zero values as long as the receiver is open.  Missing: a receiver closed before or during the call. -/
theorem C40_collect_partial {n : Nat} {s : State ε} (h : Reach n s) {k : Nat} {rd : Reader ε}
    (hk : s.rds[k]? = some rd) :
    ∃ (evs : List ε) (m : Nat), rd.data = evs.map some ++ List.replicate m none ∧ evs.Sublist (deliverOf rd.r s.log) ∧
      (0 < m → ∃ c, s.rcvs[rd.r]? = some c ∧ c.closed = true) := by
  obtain ⟨m, h1, h2⟩ := (reach_rd h).1 k rd hk
  refine ⟨_, m, h1, ?_, ?_⟩
  · obtain ⟨c, hc, _⟩ := (reach_wf h).rdr k rd hk
    rw [(reach_buf h).1 _ c hc]
    exact (readBy_sublist _ _ _).trans (List.sublist_append_left _ _)
  · intro hm
    obtain ⟨_, c, hc, hcl, _⟩ := h2 hm
    exact ⟨c, hc, hcl⟩

/-- Collecting on an open receiver: one event from the buffer, one handed over, then the timer. -/
example : ∃ s : State Nat, exec step (new 0)
      [.goDispatch, .newRecv "a" 1 .drop, .sendTo 0 10, .rlock 0, .visit 0 0 0, .runlock 0, .startRead 0 false, .recv 0,
       .recv 0, .sendTo 0 20, .rlock 0, .visit 0 0 0, .runlock 0, .timeout 0] = some s ∧
    s.rds[0]? = some ⟨0, false, .ret, [some 10, some 20]⟩ := ⟨_, rfl, by decide⟩

end Gears.Bus
