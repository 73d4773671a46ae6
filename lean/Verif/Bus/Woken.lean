import Verif.Bus.Props

/-
C37 and C38 again: which waiting receives are completed when channels of receivers are closed (/repo/event/bus.go:86-93, 106-111, 133-135;
model Bus/Model.lean).  No new model of the code.
-/

namespace Gears.Bus

variable {ε : Type}

/-- Reading goroutine `k` waits in a receive from the channel of receiver `q`. -/
def WaitsAt (s : State ε) (q k : Nat) : Prop := ∃ rd, s.rds[k]? = some rd ∧ rd.st = .parked ∧ rd.r = q

theorem mem_wakeLog (r : Nat) (rds : List (Reader ε)) (q k : Nat) :
    Ev.readNil q k ∈ wakeLog r rds ↔ q = r ∧ ∃ rd, rds[k]? = some rd ∧ rd.st = .parked ∧ rd.r = q := by
  unfold wakeLog
  rw [List.mem_filterMap]
  constructor
  · rintro ⟨k', _, hk⟩
    split at hk
    · next rd hrd =>
      split at hk
      · next hw =>
        injection hk with hk
        injection hk with h1 h2
        subst h1 h2
        exact ⟨rfl, rd, hrd, (rd.waitsOn_iff _).mp hw⟩
      · cases hk
    · cases hk
  · rintro ⟨rfl, rd, hrd, hw⟩
    refine ⟨k, List.mem_range.2 (getElem?_lt hrd), ?_⟩
    rw [hrd]
    simp only [(rd.waitsOn_iff q).mpr hw, if_true]

theorem waitsAt_wake (s : State ε) (r : Nat) (c : Rcv ε) (q k : Nat) :
    WaitsAt (closeCh s r c) q k ↔ WaitsAt s q k ∧ q ≠ r := by
  simp only [WaitsAt, closeCh, wake, List.getElem?_map, Option.map_eq_some_iff]
  constructor
  · rintro ⟨rd, ⟨rd0, h0, rfl⟩, h1, h2⟩
    by_cases hw : rd0.waitsOn r = true
    · rw [if_pos hw] at h1
      exact absurd h1 rd0.onClosed_not_parked
    · rw [if_neg hw] at h1 h2
      exact ⟨⟨rd0, h0, h1, h2⟩, fun h => hw ((rd0.waitsOn_iff r).mpr ⟨h1, h2.trans h⟩)⟩
  · rintro ⟨⟨rd, h0, h1, h2⟩, h3⟩
    have hw : ¬ rd.waitsOn r = true := fun h => h3 (h2.symm.trans ((rd.waitsOn_iff r).mp h).2)
    exact ⟨rd, ⟨rd, h0, if_neg hw⟩, h1, h2⟩

theorem closeAll_woken : ∀ (m : List (String × Nat)) (s s' : State ε), closeAll s m = some s' →
    ∃ suf, s'.log = s.log ++ suf ∧ ∀ q k, Ev.readNil q k ∈ suf ↔ q ∈ m.map Prod.snd ∧ WaitsAt s q k
  | [], s, s', h => by
    simp only [closeAll, Option.some.injEq] at h
    subst h
    exact ⟨[], by simp, by simp⟩
  | (_, r) :: m, s, s', h => by
    simp only [closeAll] at h
    split at h
    · cases h
    · next c hc =>
      split at h
      · cases h
      · obtain ⟨suf, h1, h2⟩ := closeAll_woken m _ s' h
        refine ⟨(.closed r :: wakeLog r s.rds) ++ [.unreg r] ++ suf, by rw [h1]; simp [closeCh], fun q k => ?_⟩
        have h3 : WaitsAt { closeCh s r c with log := (closeCh s r c).log ++ [.unreg r] } q k ↔ WaitsAt s q k ∧ q ≠ r :=
          waitsAt_wake s r c q k
        have h4 := h2 q k
        rw [h3] at h4
        have h5 := mem_wakeLog r s.rds q k
        simp only [List.mem_append, List.mem_cons, List.not_mem_nil, or_false, reduceCtorEq, false_or, h4, h5, List.map_cons]
        constructor
        · rintro (⟨hq, hw⟩ | ⟨hm, hw, _⟩)
          · exact ⟨.inl hq, hw⟩
          · exact ⟨.inr hm, hw⟩
        · rintro ⟨hm | hm, hw⟩
          · exact .inl ⟨hm, hw⟩
          · by_cases hq : q = r
            · exact .inl ⟨hq, hw⟩
            · exact .inr ⟨hm, hw, hq⟩

/-- **C37**: `Close` of the bus ends exactly the receives that wait on the channel of a registered receiver, with the zero value. -/
theorem C37_woken {n : Nat} {s s' : State ε} (h : Reach n s) (hst : step s .busClose2 = some s') :
    ∃ suf, s'.log = s.log ++ suf ∧ ∀ q k, Ev.readNil q k ∈ suf ↔ q ∈ s.map.map Prod.snd ∧ WaitsAt s q k := by
  have hcl : s.closing = true ∧ lockable s = true := by
    simp only [step] at hst
    split at hst
    · next hc => exact hc
    · cases hst
  simp only [step, hcl, and_self, if_true] at hst
  split at hst
  · next s1 h1 =>
    obtain ⟨suf, h2, h3⟩ := closeAll_woken _ _ _ h1
    injection hst with hst
    subst hst
    exact ⟨suf, h2, h3⟩
  · next h1 =>
    exfalso
    have w := reach_wf h
    obtain ⟨s2, h2, _⟩ := closeAll_spec s.map s w.ids_nodup (fun p hp => by
      obtain ⟨c, hc, _, hop⟩ := w.entry p hp
      exact ⟨c, hc, hop⟩)
    rw [h2] at h1
    cases h1

/-- **C38**: `Close` of a receiver that closes the channel of receiver `q` ends exactly the receives that wait on that channel. -/
theorem C38_woken {s s' : State ε} {r q : Nat} {me c : Rcv ε} (hme : s.rcvs[r]? = some me) (hq : lookup s.map me.name = some q)
    (hc : s.rcvs[q]? = some c) (ho : c.closed = false) (hst : step s (.recvClose r) = some s') :
    ∃ suf, s'.log = s.log ++ suf ∧ ∀ q' k, Ev.readNil q' k ∈ suf ↔ q' = q ∧ WaitsAt s q' k := by
  simp only [step, hme, hq, hc, ho] at hst
  split at hst
  · simp only [Bool.false_eq_true, if_false, Option.some.injEq] at hst
    subst hst
    refine ⟨(.closed q :: wakeLog q s.rds) ++ [.unreg q], by simp [closeCh], fun q' k => ?_⟩
    have h5 := mem_wakeLog q s.rds q' k
    simp only [List.mem_append, List.mem_cons, List.not_mem_nil, or_false, reduceCtorEq, false_or, h5]
    rfl
  · cases hst

/-- Non-vacuity: a reader of receiver 0 waits and one of receiver 1 does not; closing receiver 0 ends the first. -/
example : wakeLog 0 [(⟨0, false, .parked, []⟩ : Reader Nat), ⟨1, false, .parked, []⟩, ⟨0, false, .run, []⟩] = [.readNil 0 0] := by decide

end Gears.Bus
