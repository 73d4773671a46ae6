import Verif.Bus.Model
import Mathlib.Data.List.Nodup

/-
A clean case analysis of the steps of the bus (`Tr`), and the structural invariant.
-/

namespace Gears.Bus

variable {ε : Type}

/-- Receivers in the map. -/
def ids (m : List (String × Nat)) : List Nat := m.map Prod.snd

/-- Structural invariant: map keys are distinct, the entry for a name is an open receiver of that name, dispatchers
visit receivers in the map, readers read existing receivers and wait only on open channels with empty buffers. -/
structure Wf (s : State ε) : Prop where
  names : (s.map.map Prod.fst).Nodup
  entry : ∀ p ∈ s.map, ∃ c, s.rcvs[p.2]? = some c ∧ c.name = p.1 ∧ c.closed = false
  rem   : ∀ (d : Nat) v rem, s.disp[d]? = some (.visiting v rem) → rem.Nodup ∧ ∀ r ∈ rem, r ∈ ids s.map
  rdr   : ∀ (k : Nat) rd, s.rds[k]? = some rd →
            ∃ c, s.rcvs[rd.r]? = some c ∧ (rd.st = .parked → c.buf = [] ∧ c.closed = false ∧ rd.drain = false)

theorem Wf.ids_nodup {s : State ε} (w : Wf s) : (ids s.map).Nodup := by
  unfold ids
  refine (List.Nodup.of_map _ w.names).map_on ?_
  intro a ha b hb hab
  obtain ⟨c, hc, hn, _⟩ := w.entry a ha
  obtain ⟨c', hc', hn', _⟩ := w.entry b hb
  rw [hab] at hc
  rw [hc] at hc'
  simp at hc'; subst hc'
  exact Prod.ext (hn.symm.trans hn') hab

/-- Log entries of closing channels. -/
def Ev.isClosing : Ev ε → Prop
  | .closed _ | .unreg _ | .readNil _ _ => True
  | _ => False

/-- `s'` is `s` after closing the channels of the receivers `rs` and removing them from the map. -/
structure Closed (s s' : State ε) (rs : List Nat) : Prop where
  ch       : s'.ch = s.ch
  chCap    : s'.chCap = s.chCap
  chClosed : s'.chClosed = s.chClosed
  disp     : s'.disp = s.disp
  wedged   : s'.wedged = s.wedged
  rcvs     : ∀ r : Nat, s'.rcvs[r]? = (s.rcvs[r]?).map (fun c => if r ∈ rs then { c with closed := true } else c)
  rds      : ∀ k : Nat, s'.rds[k]? =
              (s.rds[k]?).map (fun rd => if rd.st = .parked ∧ rd.r ∈ rs then rd.onClosed else rd)
  log      : ∃ suf, s'.log = s.log ++ suf ∧ (∀ e ∈ suf, e.isClosing) ∧ (∀ r, Ev.unreg r ∈ suf ↔ r ∈ rs)

theorem Reader.waitsOn_iff (rd : Reader ε) (r : Nat) : rd.waitsOn r = true ↔ rd.st = .parked ∧ rd.r = r := by
  unfold Reader.waitsOn
  cases h : rd.st <;> simp

theorem waiting_iff (s : State ε) (r : Nat) :
    waiting s r = true ↔ ∃ (k : Nat) (rd : Reader ε), s.rds[k]? = some rd ∧ rd.st = .parked ∧ rd.r = r := by
  unfold waiting
  rw [List.any_eq_true]
  constructor
  · rintro ⟨rd, hm, hw⟩
    obtain ⟨k, hk⟩ := List.getElem?_of_mem hm
    exact ⟨k, rd, hk, (rd.waitsOn_iff r).mp hw⟩
  · rintro ⟨k, rd, hk, hw⟩
    exact ⟨rd, List.mem_of_getElem? hk, (rd.waitsOn_iff r).mpr hw⟩

theorem wakeLog_closing (r : Nat) (rds : List (Reader ε)) :
    ∀ e ∈ wakeLog r rds, e.isClosing ∧ ∀ q, e ≠ Ev.unreg q := by
  intro e he
  unfold wakeLog at he
  rw [List.mem_filterMap] at he
  obtain ⟨k, _, hk⟩ := he
  split at hk
  · split at hk
    · simp at hk; subst hk; simp [Ev.isClosing]
    · simp at hk
  · simp at hk

theorem Reader.onClosed_not_parked (rd : Reader ε) : rd.onClosed.st ≠ .parked := by
  unfold Reader.onClosed
  split <;> simp

theorem Reader.onClosed_r (rd : Reader ε) : rd.onClosed.r = rd.r := by
  unfold Reader.onClosed
  split <;> simp

/-- Closing one channel and removing the receiver. -/
theorem closed_one (s : State ε) (q : Nat) (c : Rcv ε) (hc : s.rcvs[q]? = some c) (m : List (String × Nat)) :
    Closed s { closeCh s q c with map := m, log := (closeCh s q c).log ++ [.unreg q] } [q] := by
  refine ⟨rfl, rfl, rfl, rfl, rfl, ?_, ?_, ?_⟩
  · intro r
    simp only [closeCh]
    rw [List.getElem?_set]
    by_cases hr : q = r
    · subst hr
      have hlt : q < s.rcvs.length := by
        rw [List.getElem?_eq_some_iff] at hc; exact hc.1
      rw [hc]
      simp [hlt]
    · have : r ≠ q := fun h => hr h.symm
      simp [hr, this]
  · intro k
    simp only [closeCh, wake]
    rw [List.getElem?_map]
    congr 1
    funext rd
    by_cases h : rd.waitsOn q = true
    · have := (rd.waitsOn_iff q).mp h
      simp [h, this]
    · have : ¬ (rd.st = .parked ∧ rd.r = q) := fun hh => h ((rd.waitsOn_iff q).mpr hh)
      simp only [h, List.mem_singleton, this, if_false]
      simp
  · refine ⟨.closed q :: wakeLog q s.rds ++ [.unreg q], by simp [closeCh], ?_, ?_⟩
    · intro e he
      simp at he
      rcases he with rfl | he | rfl
      · simp [Ev.isClosing]
      · exact (wakeLog_closing _ _ _ he).1
      · simp [Ev.isClosing]
    · intro r
      simp
      intro h
      exact absurd rfl ((wakeLog_closing _ _ _ h).2 r)

theorem Closed.trans {s s1 s2 : State ε} {a b : List Nat} (h1 : Closed s s1 a) (h2 : Closed s1 s2 b) :
    Closed s s2 (a ++ b) := by
  refine ⟨h2.ch.trans h1.ch, h2.chCap.trans h1.chCap, h2.chClosed.trans h1.chClosed, h2.disp.trans h1.disp,
    h2.wedged.trans h1.wedged, ?_, ?_, ?_⟩
  · intro r
    rw [h2.rcvs, h1.rcvs]
    rw [Option.map_map]
    congr 1
    funext c
    by_cases ha : r ∈ a <;> by_cases hb : r ∈ b <;> simp [ha, hb]
  · intro k
    rw [h2.rds, h1.rds]
    rw [Option.map_map]
    congr 1
    funext rd
    simp only [Function.comp]
    by_cases hp : rd.st = .parked
    · by_cases ha : rd.r ∈ a
      · have := rd.onClosed_not_parked
        simp [hp, ha, this]
      · by_cases hb : rd.r ∈ b <;> simp [hp, ha, hb]
    · simp [hp]
  · obtain ⟨l1, e1, c1, u1⟩ := h1.log
    obtain ⟨l2, e2, c2, u2⟩ := h2.log
    refine ⟨l1 ++ l2, by rw [e2, e1, List.append_assoc], ?_, ?_⟩
    · intro e he
      rcases List.mem_append.mp he with he | he
      · exact c1 e he
      · exact c2 e he
    · intro r
      simp [u1, u2]

/-- The loop of `FanOutBus.Close` closes what is in the map and does not panic. -/
theorem closeAll_spec : ∀ (m : List (String × Nat)) (s : State ε), (ids m).Nodup →
    (∀ p ∈ m, ∃ c, s.rcvs[p.2]? = some c ∧ c.closed = false) →
    ∃ s', closeAll s m = some s' ∧ Closed s s' (ids m) ∧ s'.map = [] ∧ s'.closing = s.closing
  | [], s, _, _ => by
    refine ⟨_, rfl, ⟨rfl, rfl, rfl, rfl, rfl, ?_, ?_, [], by simp, by simp, by simp [ids]⟩, rfl, rfl⟩
    · intro r; simp [ids]
    · intro k; simp [ids]
  | (n, q) :: m, s, hnd, he => by
    obtain ⟨c, hc, hcl⟩ := he (n, q) (by simp)
    have hq := closed_one s q c hc s.map
    simp only at hc
    have hnd' : q ∉ ids m ∧ (ids m).Nodup := by simpa [ids] using hnd
    obtain ⟨s', h1, h2, h3, h4⟩ := closeAll_spec m
      { closeCh s q c with map := s.map, log := (closeCh s q c).log ++ [.unreg q] } hnd'.2 (by
        intro p hp
        obtain ⟨c', hc', hcl'⟩ := he p (by simp [hp])
        refine ⟨c', ?_, hcl'⟩
        rw [hq.rcvs, hc']
        have : p.2 ≠ q := by
          intro h
          exact hnd'.1 (h ▸ List.mem_map_of_mem hp)
        simp [this])
    refine ⟨s', ?_, ?_, h3, ?_⟩
    · simp only [closeAll, hc, hcl]
      exact h1
    · exact hq.trans h2
    · rw [h4]; rfl

/-- What a step does, case by case. -/
inductive Tr (s : State ε) : State ε → Prop
  | sendPanic : s.chClosed = true → Tr s { s with log := s.log ++ [.sendPanic] }
  | send (v : ε) : s.chClosed = false → s.ch.length < s.chCap →
      Tr s { s with ch := s.ch ++ [v], log := s.log ++ [.sent v] }
  | sendTo (d : Nat) (v : ε) : s.disp[d]? = some .idle → s.ch = [] → s.chClosed = false →
      Tr s { s with disp := s.disp.set d (.got v), log := s.log ++ [.sent v] }
  | goDispatch : Tr s { s with disp := s.disp ++ [.idle] }
  | take (d : Nat) (v : ε) (ch : List ε) : s.disp[d]? = some .idle → s.ch = v :: ch →
      Tr s { s with ch := ch, disp := s.disp.set d (.got v) }
  | gone (d : Nat) : s.disp[d]? = some .idle → s.ch = [] → s.chClosed = true →
      Tr s { s with disp := s.disp.set d .gone }
  | rlock (d : Nat) (v : ε) : s.disp[d]? = some (.got v) → s.wedged = false →
      Tr s { s with disp := s.disp.set d (.visiting v (ids s.map)), log := s.log ++ [.start d v] }
  | skip (d r : Nat) (v : ε) (rem : List Nat) (c : Rcv ε) : s.disp[d]? = some (.visiting v rem) → r ∈ rem →
      s.rcvs[r]? = some c → c.strat = .other →
      Tr s { s with disp := s.disp.set d (.visiting v (rem.erase r)) }
  | hand (d r k : Nat) (v : ε) (rem : List Nat) (c : Rcv ε) (rd : Reader ε) :
      s.disp[d]? = some (.visiting v rem) → r ∈ rem → s.rcvs[r]? = some c → c.closed = false → c.strat ≠ .other →
      s.rds[k]? = some rd → (rd.st = .parked ∨ rd.st = .run ∧ c.buf = []) → rd.r = r →
      Tr s { s with disp := s.disp.set d (.visiting v (rem.erase r)),
                    rds := s.rds.set k { rd with st := .run, data := rd.data ++ [some v] },
                    log := s.log ++ [.deliver d r v, .read r k v] }
  | buffer (d r : Nat) (v : ε) (rem : List Nat) (c : Rcv ε) :
      s.disp[d]? = some (.visiting v rem) → r ∈ rem → s.rcvs[r]? = some c → c.closed = false → c.strat ≠ .other →
      waiting s r = false → c.buf.length < c.cap →
      Tr s { s with disp := s.disp.set d (.visiting v (rem.erase r)),
                    rcvs := s.rcvs.set r { c with buf := c.buf ++ [v] },
                    log := s.log ++ [.deliver d r v] }
  | dropped (d r : Nat) (v : ε) (rem : List Nat) (c : Rcv ε) :
      s.disp[d]? = some (.visiting v rem) → r ∈ rem → s.rcvs[r]? = some c → c.closed = false → c.strat = .drop →
      waiting s r = false → ¬ c.buf.length < c.cap →
      Tr s { s with disp := s.disp.set d (.visiting v (rem.erase r)), log := s.log ++ [.dropped d r v] }
  | runlock (d : Nat) (v : ε) : s.disp[d]? = some (.visiting v []) →
      Tr s { s with disp := s.disp.set d .idle, log := s.log ++ [.fin d] }
  | newRecv (name : String) (cap : Nat) (strat : Strategy) : lockable s = true →
      Tr s { s with rcvs := s.rcvs ++ [⟨name, cap, strat, [], false⟩],
                    map := without s.map name ++ [(name, s.rcvs.length)],
                    log := s.log ++ ((lookup s.map name).toList.map .unreg ++ [.reg s.rcvs.length]) }
  | wedge (r : Nat) (me : Rcv ε) : s.rcvs[r]? = some me → lockable s = true → lookup s.map me.name = none →
      Tr s { s with wedged := true, log := s.log ++ [.recvClosePanic r] }
  | close (s' : State ε) (rs : List Nat) : lockable s = true → Closed s s' rs →
      s'.map = s.map.filter (fun p => p.2 ∉ rs) → (∀ r ∈ rs, r ∈ ids s.map) → Tr s s'
  | busPanic : s.chClosed = true → Tr s { s with log := s.log ++ [.busClosePanic] }
  | busClose1 : s.chClosed = false → Tr s { s with chClosed := true, closing := true }
  | startRead (r : Nat) (drain : Bool) : r < s.rcvs.length →
      Tr s { s with rds := s.rds ++ [⟨r, drain, .run, []⟩] }
  | readBuf (k : Nat) (rd : Reader ε) (c : Rcv ε) (v : ε) (buf : List ε) :
      s.rds[k]? = some rd → rd.st = .run → s.rcvs[rd.r]? = some c → c.buf = v :: buf →
      Tr s { s with rcvs := s.rcvs.set rd.r { c with buf := buf },
                    rds := s.rds.set k { rd with data := rd.data ++ [some v] },
                    log := s.log ++ [.read rd.r k v] }
  | readClosed (k : Nat) (rd : Reader ε) (c : Rcv ε) :
      s.rds[k]? = some rd → rd.st = .run → s.rcvs[rd.r]? = some c → c.buf = [] → c.closed = true →
      Tr s { s with rds := s.rds.set k rd.onClosed, log := s.log ++ [.readNil rd.r k] }
  | drained (k : Nat) (rd : Reader ε) (c : Rcv ε) :
      s.rds[k]? = some rd → rd.st = .run → s.rcvs[rd.r]? = some c → c.buf = [] → c.closed = false → rd.drain = true →
      Tr s { s with rds := s.rds.set k { rd with st := .ret } }
  | park (k : Nat) (rd : Reader ε) (c : Rcv ε) :
      s.rds[k]? = some rd → rd.st = .run → s.rcvs[rd.r]? = some c → c.buf = [] → c.closed = false → rd.drain = false →
      Tr s { s with rds := s.rds.set k { rd with st := .parked } }
  | timeout (k : Nat) (rd : Reader ε) : s.rds[k]? = some rd → rd.drain = false →
      Tr s { s with rds := s.rds.set k { rd with st := .ret } }

theorem mem_ids {m : List (String × Nat)} {r : Nat} : r ∈ ids m ↔ ∃ p ∈ m, p.2 = r := by
  simp [ids]

theorem lookup_some {m : List (String × Nat)} {name : String} {q : Nat} (h : lookup m name = some q) :
    (name, q) ∈ m := by
  unfold lookup at h
  rw [Option.map_eq_some_iff] at h
  obtain ⟨p, hp, hq⟩ := h
  have h1 := List.mem_of_find?_eq_some hp
  have h2 := List.find?_some hp
  simp at h2
  rw [← h2, ← hq]
  exact h1

theorem lookup_none {m : List (String × Nat)} {name : String} (h : lookup m name = none) :
    ∀ p ∈ m, p.1 ≠ name := by
  unfold lookup at h
  simp at h
  intro p hp hn
  exact h p.1 p.2 hp hn

theorem Wf.mem_open {s : State ε} (w : Wf s) {r : Nat} (hr : r ∈ ids s.map) :
    ∃ c, s.rcvs[r]? = some c ∧ c.closed = false ∧ (c.name, r) ∈ s.map := by
  obtain ⟨p, hp, rfl⟩ := mem_ids.mp hr
  obtain ⟨c, hc, hn, hcl⟩ := w.entry p hp
  exact ⟨c, hc, hcl, by rw [hn]; exact hp⟩

/-- Entries with the same key are the same. -/
theorem Wf.key_unique {s : State ε} (w : Wf s) {p q : String × Nat} (hp : p ∈ s.map) (hq : q ∈ s.map)
    (h : p.1 = q.1) : p = q :=
  List.inj_on_of_nodup_map w.names hp hq h

theorem Wf.without_eq {s : State ε} (w : Wf s) {name : String} {q : Nat} (h : (name, q) ∈ s.map) :
    without s.map name = s.map.filter (fun p => p.2 ∉ [q]) := by
  unfold without
  apply List.filter_congr
  intro p hp
  have h1 : p.1 = name → p.2 = q := by
    intro hn
    have := w.key_unique hp h hn
    rw [this]
  have h2 : p.2 = q → p.1 = name := by
    intro hn
    obtain ⟨c, hc, hcn, _⟩ := w.entry p hp
    obtain ⟨c', hc', hcn', _⟩ := w.entry _ h
    rw [hn] at hc
    simp only at hc'
    rw [hc] at hc'
    simp at hc'; subst hc'
    exact hcn.symm.trans hcn'
  by_cases hh : p.1 = name
  · simp [hh, h1 hh]
  · have : p.2 ≠ q := fun h => hh (h2 h)
    simp [hh, this]

theorem step_tr {s s' : State ε} (w : Wf s) {a : Action ε} (h : step s a = some s') : Tr s s' := by
  cases a with
  | send v =>
    simp only [step] at h
    split at h
    · rename_i hc
      simp at h; subst h; exact .sendPanic hc
    · rename_i hc
      split at h
      · rename_i hl
        simp at h; subst h; exact .send v (by simpa using hc) hl
      · simp at h
  | sendTo d v =>
    simp only [step] at h
    split at h
    · rename_i h1 h2 h3
      simp at h; subst h; exact .sendTo d v h1 h2 h3
    · simp at h
  | goDispatch =>
    simp only [step] at h
    simp at h; subst h; exact .goDispatch
  | take d =>
    simp only [step] at h
    split at h
    · rename_i h1
      split at h
      · rename_i v ch h2
        simp at h; subst h; exact .take d v ch h1 h2
      · rename_i h2
        split at h
        · rename_i h3
          simp at h; subst h; exact .gone d h1 h2 h3
        · simp at h
    · simp at h
  | rlock d =>
    simp only [step] at h
    split at h
    · rename_i v h1
      split at h
      · simp at h
      · rename_i h2
        simp at h; subst h; exact .rlock d v h1 (by simpa using h2)
    · simp at h
  | visit d r k =>
    simp only [step] at h
    split at h
    · rename_i v rem h1
      split at h
      · rename_i hr
        split at h
        · rename_i c hc
          unfold offer at h
          dsimp only at h
          obtain ⟨c', hc', hop, _⟩ := w.mem_open ((w.rem d v rem h1).2 r hr)
          rw [hc] at hc'; simp at hc'; subst hc'
          split at h
          · rename_i hs
            simp at h; subst h; exact .skip d r v rem c h1 hr hc hs
          · rename_i hs
            split at h
            · rename_i hcl; simp [hop] at hcl
            · split at h
              · rename_i hw
                split at h
                · rename_i rd hrd
                  split at h
                  · rename_i hwo
                    obtain ⟨hp, hrr⟩ := (rd.waitsOn_iff r).mp hwo
                    simp at h; subst h
                    exact .hand d r k v rem c rd h1 hr hc hop hs hrd (.inl hp) hrr
                  · simp at h
                · simp at h
              · rename_i hw
                split at h
                · rename_i hl
                  simp at h; subst h
                  exact .buffer d r v rem c h1 hr hc hop hs (by simpa using hw) hl
                · rename_i hl
                  split at h
                  · rename_i hst
                    simp at h; subst h
                    exact .dropped d r v rem c h1 hr hc hop hst (by simpa using hw) hl
                  · simp at h
        · simp at h
      · simp at h
    · simp at h
  | runlock d =>
    simp only [step] at h
    split at h
    · rename_i v h1
      simp at h; subst h; exact .runlock d v h1
    · simp at h
  | newRecv name cap strat =>
    simp only [step] at h
    split at h
    · rename_i hl
      simp at h; subst h
      have := Tr.newRecv (s := s) name cap strat hl
      simpa using this
    · simp at h
  | recvClose r =>
    simp only [step] at h
    split at h
    · simp at h
    · rename_i me hme
      split at h
      · rename_i hl
        split at h
        · rename_i hn
          simp at h; subst h; exact .wedge r me hme hl hn
        · rename_i q hq
          have hm := lookup_some hq
          obtain ⟨c, hc, hcn, hop⟩ := w.entry _ hm
          simp only at hc
          rw [hc] at h
          simp only [hop] at h
          simp at h; subst h
          refine .close _ [q] hl ?_ ?_ ?_
          · have := closed_one s q c hc (without s.map me.name)
            exact this
          · exact w.without_eq hm
          · intro x hx
            simp at hx; subst hx
            exact mem_ids.mpr ⟨_, hm, rfl⟩
      · simp at h
  | busClose1 =>
    simp only [step] at h
    split at h
    · rename_i hc
      simp at h; subst h; exact .busPanic hc
    · rename_i hc
      simp at h; subst h; exact .busClose1 (by simpa using hc)
  | busClose2 =>
    simp only [step] at h
    split at h
    · rename_i hl
      obtain ⟨s1, h1, h2, h3, h4⟩ := closeAll_spec s.map s w.ids_nodup (by
        intro p hp
        obtain ⟨c, hc, _, hop⟩ := w.entry p hp
        exact ⟨c, hc, hop⟩)
      rw [h1] at h
      simp at h; subst h
      refine .close _ (ids s.map) hl.2 ⟨h2.ch, h2.chCap, h2.chClosed, h2.disp, h2.wedged, h2.rcvs, h2.rds, h2.log⟩ ?_
        (fun r hr => hr)
      simp only [h3]
      symm
      rw [List.filter_eq_nil_iff]
      intro p hp
      simp [mem_ids]
      exact ⟨p.1, hp⟩
    · simp at h
  | startRead r drain =>
    simp only [step] at h
    split at h
    · rename_i hl
      simp at h; subst h; exact .startRead r drain hl
    · simp at h
  | recv k =>
    simp only [step] at h
    split at h
    · rename_i rd hrd
      split at h
      · rename_i hst
        split at h
        · simp at h
        · rename_i c hc
          split at h
          · rename_i v buf hb
            simp at h; subst h; exact .readBuf k rd c v buf hrd hst hc hb
          · rename_i hb
            split at h
            · rename_i hcl
              simp at h; subst h; exact .readClosed k rd c hrd hst hc hb hcl
            · rename_i hcl
              split at h
              · rename_i hd
                simp at h; subst h; exact .drained k rd c hrd hst hc hb (by simpa using hcl) hd
              · rename_i hd
                simp at h; subst h; exact .park k rd c hrd hst hc hb (by simpa using hcl) (by simpa using hd)
      · simp at h
    · simp at h
  | recvFrom k d =>
    simp only [step] at h
    split at h
    · rename_i rd v rem hrd hd
      split at h
      · simp at h
      · rename_i c hc
        split at h
        · rename_i hh
          obtain ⟨h1, h2, h3, h4, _, h6, _⟩ := hh
          simp at h; subst h
          have := Tr.hand d rd.r k v rem c rd hd h2 hc h4 (by rw [h3]; simp) hrd (.inr ⟨h1, h6⟩) rfl
          rw [← h1] at this
          exact this
        · simp at h
    · simp at h
  | timeout k =>
    simp only [step] at h
    split at h
    · rename_i rd hrd
      split at h
      · rename_i hd
        simp at h; subst h; exact .timeout k rd hrd hd.1
      · simp at h
    · simp at h

end Gears.Bus
