import Verif.Bus.Lemmas

/-
Invariants of the bus.
-/

namespace Gears.Bus

variable {ε : Type}

theorem set_some {α : Type} {l : List α} {i j : Nat} {a b : α} (h : (l.set i a)[j]? = some b) :
    (i = j ∧ b = a) ∨ (i ≠ j ∧ l[j]? = some b) := by
  rw [List.getElem?_set] at h
  split at h
  · rename_i hij
    split at h
    · simp at h; exact Or.inl ⟨hij, h.symm⟩
    · simp at h
  · rename_i hij
    exact Or.inr ⟨hij, h⟩

theorem snoc_some {α : Type} {l : List α} {j : Nat} {a b : α} (h : (l ++ [a])[j]? = some b) :
    (j = l.length ∧ b = a) ∨ (j < l.length ∧ l[j]? = some b) := by
  rw [List.getElem?_append] at h
  split at h
  · rename_i hj; exact Or.inr ⟨hj, h⟩
  · rename_i hj
    rcases hk : j - l.length with _ | k
    · simp [hk] at h
      exact Or.inl ⟨by omega, h.symm⟩
    · simp [hk] at h

theorem getElem?_lt {α : Type} {l : List α} {j : Nat} {b : α} (h : l[j]? = some b) : j < l.length := by
  rw [List.getElem?_eq_some_iff] at h; exact h.1

theorem lockable_no_visit {s : State ε} (h : lockable s = true) (d : Nat) (v : ε) (rem : List Nat) :
    s.disp[d]? ≠ some (.visiting v rem) := by
  intro hd
  unfold lockable rlocked at h
  simp at h
  have := h.2 _ (List.mem_of_getElem? hd)
  simp at this

theorem wf_new (n : Nat) : Wf (new n : State ε) := by
  refine ⟨by simp [new], by simp [new], by simp [new], by simp [new]⟩

/-- `entry` and `rdr` survive changes of a buffer. -/
theorem set_entry {rcvs : List (Rcv ε)} {r q : Nat} {c : Rcv ε} {b : List ε} (hc : rcvs[r]? = some c)
    {P : Rcv ε → Prop} (h : ∃ x, rcvs[q]? = some x ∧ P x) (hP : q = r → P c → P { c with buf := b }) :
    ∃ x, (rcvs.set r { c with buf := b })[q]? = some x ∧ P x := by
  obtain ⟨x, hx, px⟩ := h
  by_cases hq : r = q
  · subst hq
    rw [hc] at hx; simp at hx; subst hx
    exact ⟨_, by rw [List.getElem?_set]; simp [getElem?_lt hc], hP rfl px⟩
  · exact ⟨x, by rw [List.getElem?_set]; simp [hq, hx], px⟩

theorem rem_set {s : State ε} {m : List (String × Nat)} (h : ∀ (d : Nat) v rem, s.disp[d]? = some (.visiting v rem) →
      rem.Nodup ∧ ∀ r ∈ rem, r ∈ ids m) (d0 : Nat) (p : DPC ε)
    (hp : ∀ v rem, p = .visiting v rem → rem.Nodup ∧ ∀ r ∈ rem, r ∈ ids m) :
    ∀ (d : Nat) v rem, (s.disp.set d0 p)[d]? = some (.visiting v rem) → rem.Nodup ∧ ∀ r ∈ rem, r ∈ ids m := by
  intro d v rem hd
  rcases set_some hd with ⟨_, he⟩ | ⟨_, he⟩
  · exact hp v rem he.symm
  · exact h d v rem he

theorem rdr_set {s : State ε} {rcvs : List (Rcv ε)}
    (h : ∀ (k : Nat) rd, s.rds[k]? = some rd →
            ∃ c, rcvs[rd.r]? = some c ∧ (rd.st = .parked → c.buf = [] ∧ c.closed = false ∧ rd.drain = false))
    (k0 : Nat) (x : Reader ε)
    (hx : ∃ c, rcvs[x.r]? = some c ∧ (x.st = .parked → c.buf = [] ∧ c.closed = false ∧ x.drain = false)) :
    ∀ (k : Nat) rd, (s.rds.set k0 x)[k]? = some rd →
            ∃ c, rcvs[rd.r]? = some c ∧ (rd.st = .parked → c.buf = [] ∧ c.closed = false ∧ rd.drain = false) := by
  intro k rd hk
  rcases set_some hk with ⟨_, he⟩ | ⟨_, he⟩
  · subst he; exact hx
  · exact h k rd he

theorem erase_ok {m : List (String × Nat)} {rem : List Nat} {r : Nat} (h : rem.Nodup ∧ ∀ r ∈ rem, r ∈ ids m) :
    (rem.erase r).Nodup ∧ ∀ x ∈ rem.erase r, x ∈ ids m :=
  ⟨h.1.erase r, fun x hx => h.2 x (List.mem_of_mem_erase hx)⟩

theorem wf_tr {s s' : State ε} (w : Wf s) (t : Tr s s') : Wf s' := by
  have w0 := w
  obtain ⟨w1, w2, w3, w4⟩ := w
  cases t with
  | sendPanic h => exact ⟨w1, w2, w3, w4⟩
  | send v h hl => exact ⟨w1, w2, w3, w4⟩
  | sendTo d v h _ _ => exact ⟨w1, w2, rem_set w3 d _ (by simp), w4⟩
  | goDispatch =>
    refine ⟨w1, w2, ?_, w4⟩
    intro d v rem hd
    rcases snoc_some hd with ⟨_, he⟩ | ⟨_, he⟩
    · simp at he
    · exact w3 d v rem he
  | take d v ch h _ => exact ⟨w1, w2, rem_set w3 d _ (by simp), w4⟩
  | gone d h _ _ => exact ⟨w1, w2, rem_set w3 d _ (by simp), w4⟩
  | rlock d v h _ =>
    refine ⟨w1, w2, rem_set w3 d _ ?_, w4⟩
    intro v' rem' he
    simp at he
    obtain ⟨_, rfl⟩ := he
    exact ⟨w0.ids_nodup, fun r hr => hr⟩
  | skip d r v rem c h hr hc _ =>
    refine ⟨w1, w2, rem_set w3 d _ ?_, w4⟩
    intro v' rem' he
    simp at he
    obtain ⟨_, rfl⟩ := he
    exact erase_ok (w3 d v rem h)
  | hand d r k v rem c rd h hr hc hop hs hk hp hrr =>
    refine ⟨w1, w2, rem_set w3 d _ ?_, rdr_set w4 k _ ?_⟩
    · intro v' rem' he
      simp at he
      obtain ⟨_, rfl⟩ := he
      exact erase_ok (w3 d v rem h)
    · obtain ⟨c', hc', _⟩ := w4 k rd hk
      exact ⟨c', hc', by simp⟩
  | buffer d r v rem c h hr hc hop hs hw hl =>
    refine ⟨w1, ?_, rem_set w3 d _ ?_, ?_⟩
    · intro p hp
      exact set_entry hc (w2 p hp) (fun _ hh => hh)
    · intro v' rem' he
      simp at he
      obtain ⟨_, rfl⟩ := he
      exact erase_ok (w3 d v rem h)
    · intro k rd hk
      refine set_entry hc (w4 k rd hk) ?_
      intro he _ hp
      have : waiting s r = true := (waiting_iff s r).mpr ⟨k, rd, hk, hp, he⟩
      rw [hw] at this; simp at this
  | dropped d r v rem c h hr hc hop hs hw hl =>
    refine ⟨w1, w2, rem_set w3 d _ ?_, w4⟩
    intro v' rem' he
    simp at he
    obtain ⟨_, rfl⟩ := he
    exact erase_ok (w3 d v rem h)
  | runlock d v h => exact ⟨w1, w2, rem_set w3 d _ (by simp), w4⟩
  | newRecv name cap strat hl =>
    refine ⟨?_, ?_, ?_, ?_⟩
    · simp only [List.map_append, List.map_cons, List.map_nil]
      rw [List.nodup_append]
      refine ⟨w1.sublist (List.Sublist.map _ List.filter_sublist), by simp, ?_⟩
      intro a ha b hb
      simp [without] at ha hb
      subst hb
      exact ha.2
    · intro p hp
      simp [without] at hp
      rcases hp with ⟨hp, _⟩ | rfl
      · obtain ⟨c, hc, hn⟩ := w2 p hp
        exact ⟨c, by simp only; rw [List.getElem?_append_left (getElem?_lt hc)]; exact hc, hn⟩
      · exact ⟨⟨name, cap, strat, [], false⟩, by simp, rfl, rfl⟩
    · intro d v rem hd
      exact absurd hd (lockable_no_visit hl d v rem)
    · intro k rd hk
      obtain ⟨c, hc, hn⟩ := w4 k rd hk
      exact ⟨c, by simp only; rw [List.getElem?_append_left (getElem?_lt hc)]; exact hc, hn⟩
  | wedge r me hme hl hn => exact ⟨w1, w2, w3, w4⟩
  | close s' rs hl hcl hm hrs =>
    refine ⟨?_, ?_, ?_, ?_⟩
    · rw [hm]
      exact w1.sublist (List.Sublist.map _ List.filter_sublist)
    · intro p hp
      rw [hm] at hp
      simp at hp
      obtain ⟨c, hc, hn⟩ := w2 p hp.1
      exact ⟨c, by rw [hcl.rcvs, hc]; simp [hp.2], hn⟩
    · intro d v rem hd
      rw [hcl.disp] at hd
      exact absurd hd (lockable_no_visit hl d v rem)
    · intro k rd hk
      rw [hcl.rds] at hk
      rw [Option.map_eq_some_iff] at hk
      obtain ⟨rd0, hk0, rfl⟩ := hk
      obtain ⟨c, hc, hn⟩ := w4 k rd0 hk0
      by_cases hp : rd0.st = .parked ∧ rd0.r ∈ rs
      · simp only [hp, and_self, if_true, Reader.onClosed_r]
        refine ⟨{ c with closed := true }, by rw [hcl.rcvs, hc]; simp [hp.2], ?_⟩
        intro h
        exact absurd h rd0.onClosed_not_parked
      · simp only [hp, if_false]
        by_cases hr : rd0.r ∈ rs
        · refine ⟨{ c with closed := true }, by rw [hcl.rcvs, hc]; simp [hr], ?_⟩
          intro h
          exact absurd ⟨h, hr⟩ hp
        · exact ⟨c, by rw [hcl.rcvs, hc]; simp [hr], hn⟩
  | busPanic h => exact ⟨w1, w2, w3, w4⟩
  | busClose1 h => exact ⟨w1, w2, w3, w4⟩
  | startRead r drain hl =>
    refine ⟨w1, w2, w3, ?_⟩
    intro k rd hk
    rcases snoc_some hk with ⟨_, he⟩ | ⟨_, he⟩
    · subst he
      exact ⟨s.rcvs[r], List.getElem?_eq_getElem hl, by simp⟩
    · exact w4 k rd he
  | readBuf k rd c v buf hk hst hc hb =>
    refine ⟨w1, ?_, w3, ?_⟩
    · intro p hp
      exact set_entry hc (w2 p hp) (fun _ hh => hh)
    · refine rdr_set (fun k rd' hk' => ?_) k _ ?_
      · refine set_entry hc (w4 k rd' hk') ?_
        intro _ hh hp
        have := (hh hp).1
        rw [hb] at this; simp at this
      · refine ⟨{ c with buf := buf }, by rw [List.getElem?_set]; simp [getElem?_lt hc], ?_⟩
        simp [hst]
  | readClosed k rd c hk hst hc hb hcl =>
    refine ⟨w1, w2, w3, rdr_set w4 k _ ?_⟩
    rw [rd.onClosed_r]
    exact ⟨c, hc, fun h => absurd h rd.onClosed_not_parked⟩
  | drained k rd c hk hst hc hb hcl hd =>
    exact ⟨w1, w2, w3, rdr_set w4 k _ ⟨c, hc, by simp⟩⟩
  | park k rd c hk hst hc hb hcl hd =>
    exact ⟨w1, w2, w3, rdr_set w4 k _ ⟨c, hc, fun _ => ⟨hb, hcl, hd⟩⟩⟩
  | timeout k rd hk hd =>
    obtain ⟨c, hc, _⟩ := w4 k rd hk
    exact ⟨w1, w2, w3, rdr_set w4 k _ ⟨c, hc, by simp⟩⟩

/-- Invariants are proved from the case analysis. -/
theorem reach_inv {n : Nat} {s : State ε} {I : State ε → Prop} (h : Reach n s) (h0 : I (new n))
    (hs : ∀ s s', Wf s → I s → Tr s s' → I s') : Wf s ∧ I s :=
  Reachable.inv (I := fun s => Wf s ∧ I s) h ⟨wf_new n, h0⟩
    (fun s _ s' hi hst =>
      have t := step_tr hi.1 hst
      ⟨wf_tr hi.1 t, hs s s' hi.1 hi.2 t⟩)

theorem reach_wf {n : Nat} {s : State ε} (h : Reach n s) : Wf s :=
  (reach_inv (I := fun _ => True) h trivial (fun _ _ _ _ _ => trivial)).1

end Gears.Bus
