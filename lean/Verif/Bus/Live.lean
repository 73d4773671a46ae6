import Verif.Bus.Inv
import Verif.Common.Fair

/-
C159: what the bus (/repo/event/bus.go) does some time, in infinite executions of the model of `Bus/Model`.

Hypotheses about the scheduler:
* dispatchers: one that can take its next step again and again moves some time (`FairD`).  The Go runtime serves the senders that
  wait on a channel first-in first-out, so a dispatcher that waits for room in the channel of a receiver gets it.
* readers: one that can execute its receive all the time does so some time (`FairR`).
-/

namespace Gears.Bus.Live

open Gears.Bus

variable {ε : Type}

/-- The steps that dispatcher `d` takes, or that a reader takes for it. -/
def mine (d : Nat) : Action ε → Bool
  | .take d' => d' == d
  | .rlock d' => d' == d
  | .visit d' _ _ => d' == d
  | .runlock d' => d' == d
  | .recvFrom _ d' => d' == d
  | _ => false

/-- Dispatcher `d` can go on. -/
def Can (s : State ε) (d : Nat) : Prop := ∃ x, mine d x = true ∧ (step s x).isSome = true

/-- Dispatcher `d` goes on again and again if it can go on again and again. -/
def FairD (s : Nat → State ε) (d : Nat) : Prop :=
  (∀ i, ∃ j, i ≤ j ∧ Can (s j) d) → ∀ i, ∃ j, i ≤ j ∧ (s (j + 1)).disp[d]? ≠ (s j).disp[d]?

/-- Reading goroutine `k` executes its receive some time if it could do so all the time. -/
def FairR (s : Nat → State ε) (a : Nat → Option (Action ε)) (k : Nat) : Prop :=
  ∀ i, (∀ j, i ≤ j → (step (s j) (.recv k)).isSome = true) → ∃ j, i ≤ j ∧ (a j = some (.recv k) ∨ ∃ d, a j = some (.recvFrom k d))

/-- Receiver `r` can be given an event: somebody waits for it, or there is room, or somebody is about to receive from the channel, which has
no buffer. -/
def Ready (s : State ε) (r : Nat) : Prop :=
  waiting s r = true ∨ (∃ c, s.rcvs[r]? = some c ∧ c.buf.length < c.cap) ∨
  ((∃ c, s.rcvs[r]? = some c ∧ c.cap = 0) ∧ ∃ (k : Nat) (rd : Reader ε), s.rds[k]? = some rd ∧ rd.r = r ∧ rd.st = .run)

/-- Every Block receiver that stays registered can be given an event again and again. -/
def Served (s : Nat → State ε) : Prop :=
  ∀ i r c, (s i).rcvs[r]? = some c → c.strat = .block → (∀ j, i ≤ j → r ∈ ids (s j).map) → ∀ i', ∃ j, i' ≤ j ∧ Ready (s j) r

/-- Every Block receiver that stays registered has, from some time on, a reading goroutine that does not return. -/
def HasReaders (s : Nat → State ε) : Prop :=
  ∀ i r c, (s i).rcvs[r]? = some c → c.strat = .block → (∀ j, i ≤ j → r ∈ ids (s j).map) →
    ∃ k j0 : Nat, ∀ j, j0 ≤ j → ∃ rd : Reader ε, (s j).rds[k]? = some rd ∧ rd.r = r ∧ rd.st ≠ .ret

/-- A fair execution of a bus that nobody broke by closing a receiver twice (C38), and whose Block receivers are read. -/
structure Fair (n : Nat) (s : Nat → State ε) (a : Nat → Option (Action ε)) : Prop where
  run    : IsRun step s a
  init   : Reach n (s 0)
  whole  : ∀ i, (s i).wedged = false
  disp   : ∀ d, FairD s d
  served : Served s

/-- Dispatcher `d` offers event `v` to receiver `r`: it is delivered, or dropped, or the strategy of the receiver is no strategy. -/
def Offered (s s' : State ε) (d r : Nat) (v : ε) : Prop :=
  s'.log = s.log ++ [.deliver d r v] ∨ (∃ k, s'.log = s.log ++ [.deliver d r v, .read r k v]) ∨
  (s'.log = s.log ++ [.dropped d r v] ∧ ∃ c, s.rcvs[r]? = some c ∧ c.strat = .drop) ∨ ∃ c, s.rcvs[r]? = some c ∧ c.strat = .other

/-! ### Steps -/

/-- An execution of the model. -/
structure Exe (n : Nat) (s : Nat → State ε) (a : Nat → Option (Action ε)) : Prop where
  run    : IsRun step s a
  init   : Reach n (s 0)

theorem Exe.reach {n : Nat} {s : Nat → State ε} {a : Nat → Option (Action ε)} (h : Exe n s a) (i : Nat) : Reach n (s i) :=
  h.run.reach h.init i

theorem Exe.tr {n : Nat} {s : Nat → State ε} {a : Nat → Option (Action ε)} (h : Exe n s a) (i : Nat) :
    s (i + 1) = s i ∨ Tr (s i) (s (i + 1)) := by
  rcases h.run.next i with e | ⟨x, -, e⟩
  · exact .inl e
  · exact .inr (step_tr (reach_wf (h.reach i)) e)

theorem Fair.exe {n : Nat} {s : Nat → State ε} {a : Nat → Option (Action ε)} (h : Fair n s a) : Exe n s a := ⟨h.run, h.init⟩

theorem Fair.reach {n : Nat} {s : Nat → State ε} {a : Nat → Option (Action ε)} (h : Fair n s a) (i : Nat) : Reach n (s i) := h.exe.reach i

theorem Fair.tr {n : Nat} {s : Nat → State ε} {a : Nat → Option (Action ε)} (h : Fair n s a) (i : Nat) :
    s (i + 1) = s i ∨ Tr (s i) (s (i + 1)) := h.exe.tr i

theorem get_set {α : Type} {l : List α} {i d : Nat} {x p : α} (h : l[d]? = some p) :
    (i = d ∧ (l.set i x)[d]? = some x) ∨ (i ≠ d ∧ (l.set i x)[d]? = some p) := by
  have hlt := getElem?_lt h
  rw [List.getElem?_set]
  by_cases e : i = d
  · left; subst e; exact ⟨rfl, by simp [hlt]⟩
  · right; exact ⟨e, by simp [e, h]⟩

/-- What a step does to dispatcher `d`. -/
theorem disp_tr {s s' : State ε} (t : Tr s s') {d : Nat} {p : DPC ε} (hd : s.disp[d]? = some p) :
    s'.disp[d]? = some p ∨
    (p = .idle ∧ ∃ v, s.ch = v :: s'.ch ∧ s'.disp[d]? = some (.got v)) ∨
    (p = .idle ∧ ∃ v, s.ch = [] ∧ s.chClosed = false ∧ s'.disp[d]? = some (.got v)) ∨
    (p = .idle ∧ s.ch = [] ∧ s.chClosed = true ∧ s'.disp[d]? = some .gone) ∨
    (∃ v, p = .got v ∧ s'.disp[d]? = some (.visiting v (ids s.map))) ∨
    (∃ v rem r, p = .visiting v rem ∧ r ∈ rem ∧ s'.disp[d]? = some (.visiting v (rem.erase r)) ∧ Offered s s' d r v) ∨
    (∃ v, p = .visiting v [] ∧ s'.disp[d]? = some .idle) := by
  cases t with
  | sendTo d0 v h1 h2 h3 =>
    rcases get_set (i := d0) (x := DPC.got v) hd with ⟨rfl, e⟩ | ⟨-, e⟩
    · rw [hd] at h1; cases h1
      exact .inr (.inr (.inl ⟨rfl, v, h2, h3, e⟩))
    · exact .inl e
  | goDispatch =>
    left
    show (s.disp ++ [DPC.idle])[d]? = some p
    rw [List.getElem?_append_left (getElem?_lt hd)]; exact hd
  | take d0 v ch h1 h2 =>
    rcases get_set (i := d0) (x := DPC.got v) hd with ⟨rfl, e⟩ | ⟨-, e⟩
    · rw [hd] at h1; cases h1
      exact .inr (.inl ⟨rfl, v, h2, e⟩)
    · exact .inl e
  | gone d0 h1 h2 h3 =>
    rcases get_set (i := d0) (x := DPC.gone) hd with ⟨rfl, e⟩ | ⟨-, e⟩
    · rw [hd] at h1; cases h1
      exact .inr (.inr (.inr (.inl ⟨rfl, h2, h3, e⟩)))
    · exact .inl e
  | rlock d0 v h1 h2 =>
    rcases get_set (i := d0) (x := DPC.visiting v (ids s.map)) hd with ⟨rfl, e⟩ | ⟨-, e⟩
    · rw [hd] at h1; cases h1
      exact .inr (.inr (.inr (.inr (.inl ⟨v, rfl, e⟩))))
    · exact .inl e
  | skip d0 r v rem c h1 h2 h3 h4 =>
    rcases get_set (i := d0) (x := DPC.visiting v (rem.erase r)) hd with ⟨rfl, e⟩ | ⟨-, e⟩
    · rw [hd] at h1; cases h1
      exact .inr (.inr (.inr (.inr (.inr (.inl ⟨v, rem, r, rfl, h2, e, .inr (.inr (.inr ⟨c, h3, h4⟩))⟩)))))
    · exact .inl e
  | hand d0 r k v rem c rd h1 h2 h3 h4 h5 h6 h7 h8 =>
    rcases get_set (i := d0) (x := DPC.visiting v (rem.erase r)) hd with ⟨rfl, e⟩ | ⟨-, e⟩
    · rw [hd] at h1; cases h1
      exact .inr (.inr (.inr (.inr (.inr (.inl ⟨v, rem, r, rfl, h2, e, .inr (.inl ⟨k, rfl⟩)⟩)))))
    · exact .inl e
  | buffer d0 r v rem c h1 h2 h3 h4 h5 h6 h7 =>
    rcases get_set (i := d0) (x := DPC.visiting v (rem.erase r)) hd with ⟨rfl, e⟩ | ⟨-, e⟩
    · rw [hd] at h1; cases h1
      exact .inr (.inr (.inr (.inr (.inr (.inl ⟨v, rem, r, rfl, h2, e, .inl rfl⟩)))))
    · exact .inl e
  | dropped d0 r v rem c h1 h2 h3 h4 h5 h6 h7 =>
    rcases get_set (i := d0) (x := DPC.visiting v (rem.erase r)) hd with ⟨rfl, e⟩ | ⟨-, e⟩
    · rw [hd] at h1; cases h1
      exact .inr (.inr (.inr (.inr (.inr (.inl ⟨v, rem, r, rfl, h2, e, .inr (.inr (.inl ⟨rfl, c, h3, h5⟩))⟩)))))
    · exact .inl e
  | runlock d0 v h1 =>
    rcases get_set (i := d0) (x := DPC.idle) hd with ⟨rfl, e⟩ | ⟨-, e⟩
    · rw [hd] at h1; cases h1
      exact .inr (.inr (.inr (.inr (.inr (.inr ⟨v, rfl, e⟩)))))
    · exact .inl e
  | close s' rs h1 h2 h3 h4 => left; rw [h2.disp]; exact hd
  | _ => exact .inl hd

/-- What a step does to the channel of the bus. -/
theorem ch_tr {s s' : State ε} (t : Tr s s') : s'.ch = s.ch ∨ (∃ v, s'.ch = s.ch ++ [v] ∧ s.chClosed = false ∧ s.ch.length < s.chCap) ∨
    ∃ (v : ε) (d : Nat), s.ch = v :: s'.ch ∧ s.disp[d]? = some .idle ∧ s'.disp[d]? = some (.got v) := by
  cases t with
  | send v h1 h2 => exact .inr (.inl ⟨v, rfl, h1, h2⟩)
  | take d0 v ch h1 h2 =>
    rcases get_set (i := d0) (x := DPC.got v) h1 with ⟨-, e⟩ | ⟨h, -⟩
    · exact .inr (.inr ⟨v, d0, h2, h1, e⟩)
    · exact absurd rfl h
  | close s' rs h1 h2 h3 h4 => exact .inl h2.ch
  | _ => exact .inl rfl

theorem closed_tr {s s' : State ε} (t : Tr s s') (h : s.chClosed = true) : s'.chClosed = true := by
  cases t with
  | close s' rs h1 h2 h3 h4 => rw [h2.chClosed]; exact h
  | busClose1 _ => rfl
  | _ => exact h

theorem cap_tr {s s' : State ε} (t : Tr s s') : s'.chCap = s.chCap := by
  cases t with
  | close s' rs h1 h2 h3 h4 => exact h2.chCap
  | _ => rfl

/-- A receiver keeps its strategy and the size of its channel. -/
theorem rcv_tr {s s' : State ε} (t : Tr s s') {r : Nat} {c : Rcv ε} (hc : s.rcvs[r]? = some c) :
    ∃ c', s'.rcvs[r]? = some c' ∧ c'.strat = c.strat ∧ c'.cap = c.cap := by
  cases t with
  | buffer d0 r0 v rem c0 h1 h2 h3 h4 h5 h6 h7 =>
    rcases get_set (i := r0) (x := ({ c0 with buf := c0.buf ++ [v] } : Rcv ε)) hc with ⟨rfl, e⟩ | ⟨-, e⟩
    · rw [hc] at h3; cases h3; exact ⟨_, e, rfl, rfl⟩
    · exact ⟨c, e, rfl, rfl⟩
  | newRecv name cap strat h1 =>
    refine ⟨c, ?_, rfl, rfl⟩
    show (s.rcvs ++ [_])[r]? = some c
    rw [List.getElem?_append_left (getElem?_lt hc)]; exact hc
  | close s' rs h1 h2 h3 h4 =>
    refine ⟨if r ∈ rs then { c with closed := true } else c, by rw [h2.rcvs, hc]; rfl, ?_, ?_⟩ <;> split <;> rfl
  | readBuf k rd c0 v buf h1 h2 h3 h4 =>
    rcases get_set (i := rd.r) (x := ({ c0 with buf := buf } : Rcv ε)) hc with ⟨e0, e⟩ | ⟨-, e⟩
    · rw [e0, hc] at h3; cases h3; exact ⟨_, e, rfl, rfl⟩
    · exact ⟨c, e, rfl, rfl⟩
  | _ => exact ⟨c, hc, rfl, rfl⟩

/-- Channels hold no more than fits. -/
def Fits (s : State ε) : Prop := s.ch.length ≤ s.chCap ∧ ∀ (r : Nat) c, s.rcvs[r]? = some c → c.buf.length ≤ c.cap

theorem fits_tr {s s' : State ε} (h : Fits s) (t : Tr s s') : Fits s' := by
  have hch : s'.ch.length ≤ s'.chCap := by
    rw [cap_tr t]
    have := h.1
    rcases ch_tr t with e | ⟨v, e, -, hl⟩ | ⟨v, d, e, -, -⟩
    · rw [e]; exact this
    · rw [e]; simp; omega
    · rw [e] at this; simp at this; omega
  refine ⟨hch, ?_⟩
  intro r c' hc'
  cases t with
  | buffer d0 r0 v rem c0 h1 h2 h3 h4 h5 h6 h7 =>
    rcases set_some hc' with ⟨-, rfl⟩ | ⟨-, e⟩
    · simp; omega
    · exact h.2 r c' e
  | newRecv name cap strat h1 =>
    rcases snoc_some hc' with ⟨-, rfl⟩ | ⟨-, e⟩
    · simp
    · exact h.2 r c' e
  | close s' rs h1 h2 h3 h4 =>
    rw [h2.rcvs, Option.map_eq_some_iff] at hc'
    obtain ⟨c, hc, rfl⟩ := hc'
    have := h.2 r c hc
    split <;> exact this
  | readBuf k rd c0 v buf h1 h2 h3 h4 =>
    rcases set_some hc' with ⟨-, rfl⟩ | ⟨-, e⟩
    · have := h.2 _ _ h3; rw [h4] at this; simp at this ⊢; omega
    · exact h.2 r c' e
  | _ => exact h.2 r c' hc'

theorem Exe.fits {n : Nat} {s : Nat → State ε} {a : Nat → Option (Action ε)} (h : Exe n s a) (i : Nat) : Fits (s i) :=
  (reach_inv (I := Fits) (h.reach i) ⟨by simp [new], by intro r c hc; simp [new] at hc⟩ (fun _ _ _ hi t => fits_tr hi t)).2

theorem Fair.fits {n : Nat} {s : Nat → State ε} {a : Nat → Option (Action ε)} (h : Fair n s a) (i : Nat) : Fits (s i) := h.exe.fits i

theorem cap_const {n : Nat} {s : Nat → State ε} {a : Nat → Option (Action ε)} (h : Fair n s a) (i j : Nat) : (s i).chCap = (s j).chCap := by
  have : ∀ i, (s i).chCap = (s 0).chCap := by
    intro i
    induction i with
    | zero => rfl
    | succ i ih =>
      rcases h.tr i with e | t
      · rw [e]; exact ih
      · rw [cap_tr t]; exact ih
  rw [this i, this j]

/-! ### Dispatchers go on -/

/-- An offer that does not wait. -/
theorem visit_can {s : State ε} (w : Wf s) {d r : Nat} {v : ε} {rem : List Nat} {c : Rcv ε} (hd : s.disp[d]? = some (.visiting v rem))
    (hr : r ∈ rem) (hc : s.rcvs[r]? = some c) (h : c.strat ≠ .block ∨ waiting s r = true ∨ c.buf.length < c.cap) : Can s d := by
  obtain ⟨c', hc', hop, -⟩ := w.mem_open ((w.rem d v rem hd).2 r hr)
  rw [hc] at hc'; cases hc'
  by_cases hw : waiting s r = true
  · obtain ⟨k, rd, hk, hp, hrr⟩ := (waiting_iff s r).mp hw
    refine ⟨.visit d r k, by simp [mine], ?_⟩
    have := (rd.waitsOn_iff r).mpr ⟨hp, hrr⟩
    simp only [step, hd, hr, if_true, hc, offer, hop, hw, hk, this]
    split <;> simp
  · refine ⟨.visit d r 0, by simp [mine], ?_⟩
    simp only [step, hd, hr, if_true, hc, offer, hop, hw]
    split
    · simp
    · rename_i ho
      simp only [Bool.false_eq_true, if_false]
      split
      · simp
      · rename_i hl
        have hnb : c.strat ≠ .block := by
          rcases h with h | h | h
          · exact h
          · exact absurd h hw
          · exact absurd h hl
        cases hs : c.strat <;> simp [hs] at hnb ho ⊢

/-- A reader of a channel with a buffer makes room again and again. -/
theorem room {n : Nat} {s : Nat → State ε} {a : Nat → Option (Action ε)} (h : Exe n s a) {r k j0 : Nat} (hfair : FairR s a k) {C : Nat} (hC : 0 < C)
    (hcap : ∀ j, j0 ≤ j → ∃ c, (s j).rcvs[r]? = some c ∧ c.cap = C)
    (hk : ∀ j, j0 ≤ j → ∃ rd, (s j).rds[k]? = some rd ∧ rd.r = r ∧ rd.st ≠ .ret) (i : Nat) (hi : j0 ≤ i) :
    ∃ j, i ≤ j ∧ (waiting (s j) r = true ∨ ∃ c, (s j).rcvs[r]? = some c ∧ c.buf.length < c.cap) := by
  refine Classical.byContradiction fun hno => ?_
  have run : ∀ j, i ≤ j → ∃ rd, (s j).rds[k]? = some rd ∧ rd.r = r ∧ rd.st = .run := by
    intro j hj
    obtain ⟨rd, h1, h2, h3⟩ := hk j (by omega)
    refine ⟨rd, h1, h2, ?_⟩
    cases hst : rd.st with
    | run => rfl
    | ret => exact absurd hst h3
    | parked => exact absurd ⟨j, hj, .inl ((waiting_iff _ _).mpr ⟨k, rd, h1, hst, h2⟩)⟩ hno
  have full : ∀ j, i ≤ j → ∃ c v buf, (s j).rcvs[r]? = some c ∧ c.buf = v :: buf ∧ c.cap = C ∧ ¬ c.buf.length < c.cap := by
    intro j hj
    obtain ⟨c, h1, h2⟩ := hcap j (by omega)
    have hl : ¬ c.buf.length < c.cap := fun e => hno ⟨j, hj, .inr ⟨c, h1, e⟩⟩
    cases hb : c.buf with
    | nil => rw [hb, h2] at hl; simp at hl; omega
    | cons v buf => exact ⟨c, v, buf, h1, hb, h2, hl⟩
  have can : ∀ j, i ≤ j → (step (s j) (.recv k)).isSome = true := by
    intro j hj
    obtain ⟨rd, h1, h2, h3⟩ := run j hj
    obtain ⟨c, v, buf, h4, h5, -, -⟩ := full j hj
    simp only [step, h1, h3, if_true, h2, h4, h5]
    rfl
  obtain ⟨j, hj, hact⟩ := hfair i can
  obtain ⟨rd, h1, h2, h3⟩ := run j hj
  obtain ⟨c, v, buf, h4, h5, h6, h7⟩ := full j hj
  have hst := h.run j
  rcases hact with e | ⟨d, e⟩
  · rw [e] at hst
    simp only [step, h1, h3, if_true, h2, h4, h5] at hst
    have hs' := Option.some.inj hst
    refine hno ⟨j + 1, by omega, .inr ⟨{ c with buf := buf }, ?_, ?_⟩⟩
    · rw [← hs']
      show ((s j).rcvs.set r { c with buf := buf })[r]? = _
      rw [List.getElem?_set]; simp [getElem?_lt h4]
    · have := (h.fits j).2 r c h4
      rw [h5] at this
      show buf.length < c.cap
      simp at this; omega
  · rw [e] at hst
    simp only [step, h1] at hst
    split at hst
    · rename_i rd' v' rem e1 e2
      cases e1
      rw [h2] at hst
      simp only [h4] at hst
      split at hst
      · rename_i hc
        omega
      · cases hst
    · cases hst

theorem rcv_stays {n : Nat} {s : Nat → State ε} {a : Nat → Option (Action ε)} (h : Exe n s a) {r i : Nat} {c : Rcv ε}
    (hc : (s i).rcvs[r]? = some c) : ∀ j, i ≤ j → ∃ c', (s j).rcvs[r]? = some c' ∧ c'.strat = c.strat ∧ c'.cap = c.cap := by
  intro j hj
  obtain ⟨m, rfl⟩ := Nat.exists_eq_add_of_le hj
  clear hj
  induction m with
  | zero => exact ⟨c, hc, rfl, rfl⟩
  | succ m ih =>
    obtain ⟨c1, e1, e2, e3⟩ := ih
    rcases h.tr (i + m) with e | t
    · exact ⟨c1, by rw [← e1]; exact congrArg (fun x : State ε => x.rcvs[r]?) e, e2, e3⟩
    · obtain ⟨c2, f1, f2, f3⟩ := rcv_tr t e1
      exact ⟨c2, f1, f2.trans e2, f3.trans e3⟩

/-- **C159**: a reading goroutine that goes on serves its receiver. -/
theorem C159_readers {n : Nat} {s : Nat → State ε} {a : Nat → Option (Action ε)} (h : IsRun step s a) (h0 : Reach n (s 0))
    (hf : ∀ k, FairR s a k) (hk : HasReaders s) : Served s := by
  intro i r c hc hb hreg i'
  have he : Exe n s a := ⟨h, h0⟩
  obtain ⟨k, j0, hk⟩ := hk i r c hc hb hreg
  have hcs := rcv_stays he hc
  by_cases hcap : c.cap = 0
  · have hj : i ≤ max i (max i' j0) := Nat.le_max_left _ _
    have hj0 : j0 ≤ max i (max i' j0) := Nat.le_trans (Nat.le_max_right i' j0) (Nat.le_max_right _ _)
    refine ⟨max i (max i' j0), Nat.le_trans (Nat.le_max_left i' j0) (Nat.le_max_right _ _), ?_⟩
    generalize max i (max i' j0) = j at hj hj0
    obtain ⟨c', e1, e2, e3⟩ := hcs j hj
    obtain ⟨rd, f1, f2, f3⟩ := hk j hj0
    cases hst : rd.st with
    | run => exact .inr (.inr ⟨⟨c', e1, e3.trans hcap⟩, k, rd, f1, f2, hst⟩)
    | ret => exact absurd hst f3
    | parked => exact .inl ((waiting_iff _ _).mpr ⟨k, rd, f1, hst, f2⟩)
  · obtain ⟨j, hj, hroom⟩ := room he (hf k) (r := r) (j0 := max i j0) (C := c.cap) (by omega)
      (fun j hj => (hcs j (Nat.le_trans (Nat.le_max_left _ _) hj)).imp fun _ e => ⟨e.1, e.2.2⟩)
      (fun j hj => hk j (Nat.le_trans (Nat.le_max_right _ _) hj)) (max (max i j0) i') (Nat.le_max_left _ _)
    exact ⟨j, Nat.le_trans (Nat.le_max_right _ _) hj, hroom.imp id .inl⟩

/-- While dispatcher `d` stays where it is, it can go on again and again. -/
theorem visiting_can {n : Nat} {s : Nat → State ε} {a : Nat → Option (Action ε)} (h : Fair n s a) {d i : Nat} {v : ε} {rem : List Nat}
    (hd : ∀ j, i ≤ j → (s j).disp[d]? = some (.visiting v rem)) : ∀ i', ∃ j, i' ≤ j ∧ Can (s j) d := by
  cases hrem : rem with
  | nil =>
    intro i'
    refine ⟨max i i', Nat.le_max_right _ _, .runlock d, by simp [mine], ?_⟩
    have := hd (max i i') (Nat.le_max_left _ _)
    rw [hrem] at this
    simp [step, this]
  | cons r rest =>
    have hr : r ∈ rem := by rw [hrem]; exact List.mem_cons_self ..
    have hreg : ∀ j, i ≤ j → r ∈ ids (s j).map := fun j hj => ((reach_wf (h.reach j)).rem d v rem (hd j hj)).2 r hr
    obtain ⟨c, hc, -, -⟩ := (reach_wf (h.reach i)).mem_open (hreg i (Nat.le_refl _))
    have hcs := rcv_stays h.exe hc
    intro i'
    by_cases hb : c.strat = .block
    · obtain ⟨j, hj, hready⟩ := h.served i r c hc hb hreg (max i i')
      have hij : i ≤ j := Nat.le_trans (Nat.le_max_left _ _) hj
      refine ⟨j, Nat.le_trans (Nat.le_max_right _ _) hj, ?_⟩
      obtain ⟨c', e1, e2, e3⟩ := hcs j hij
      by_cases hw : waiting (s j) r = true
      · exact visit_can (reach_wf (h.reach j)) (hd j hij) hr e1 (.inr (.inl hw))
      rcases hready with hw' | ⟨c'', f1, f2⟩ | ⟨⟨c'', f0, hcap⟩, k, rd, f1, f2, hrun⟩
      · exact absurd hw' hw
      · rw [e1] at f1; cases f1
        exact visit_can (reach_wf (h.reach j)) (hd j hij) hr e1 (.inr (.inr f2))
      · rw [e1] at f0; cases f0
        have hbuf : c'.buf = [] := by
          have := (h.fits j).2 r c' e1
          rw [hcap] at this
          exact List.eq_nil_of_length_eq_zero (by omega)
        obtain ⟨c'', g1, g2, -⟩ := (reach_wf (h.reach j)).mem_open (hreg j hij)
        rw [e1] at g1; cases g1
        refine ⟨.recvFrom k d, by simp [mine], ?_⟩
        have hb' : c'.strat = .block := e2.trans hb
        have hw' : waiting (s j) r = false := by simpa using hw
        simp only [step, f1, hd j hij, f2, e1, hrun, hr, hb', g2, hcap, hbuf, hw', and_self, if_true, Option.isSome_some]
    · refine ⟨max i i', Nat.le_max_right _ _, ?_⟩
      obtain ⟨c', e1, e2, e3⟩ := hcs (max i i') (Nat.le_max_left _ _)
      exact visit_can (reach_wf (h.reach _)) (hd _ (Nat.le_max_left _ _)) hr e1 (.inl (by rw [e2]; exact hb))

/-- A dispatcher that could go on again and again if it stayed where it is does not stay there. -/
theorem leaves {n : Nat} {s : Nat → State ε} {a : Nat → Option (Action ε)} (h : Fair n s a) {d i : Nat} {p : DPC ε}
    (hp : (s i).disp[d]? = some p)
    (hcan : (∀ j, i ≤ j → (s j).disp[d]? = some p) → ∀ i', ∃ j, i' ≤ j ∧ Can (s j) d) :
    ∃ j, i ≤ j ∧ (∀ m, i ≤ m → m ≤ j → (s m).disp[d]? = some p) ∧ (s (j + 1)).disp[d]? ≠ some p ∧ Tr (s j) (s (j + 1)) := by
  have hch : ∃ j, i ≤ j ∧ (s (j + 1)).disp[d]? ≠ (s j).disp[d]? := by
    refine Classical.byContradiction fun hno => ?_
    have hst := never_change (fun j => (s j).disp[d]?) i hno
    obtain ⟨j, hj, hne⟩ := h.disp d (hcan fun j hj => (hst j hj).trans hp) i
    exact hno ⟨j, hj, hne⟩
  obtain ⟨j, h1, h2, h3⟩ := first_change (fun j => (s j).disp[d]?) i hch
  refine ⟨j, h1, fun m hm1 hm2 => (h2 m hm1 hm2).trans hp, by rw [← hp]; exact h3, ?_⟩
  rcases h.tr j with e | t
  · exact absurd (by show (s (j + 1)).disp[d]? = _; rw [e]; exact h2 j h1 (Nat.le_refl _)) h3
  · exact t

/-- The loop of a dispatcher ends, and everybody who is left to visit is visited. -/
theorem visiting_ends {n : Nat} {s : Nat → State ε} {a : Nat → Option (Action ε)} (h : Fair n s a) {d : Nat} {v : ε} (len : Nat) :
    ∀ (i : Nat) (rem : List Nat), rem.length = len → (s i).disp[d]? = some (.visiting v rem) →
    ∃ l, i ≤ l ∧ (∀ m, i ≤ m → m ≤ l → ∃ rem', (s m).disp[d]? = some (.visiting v rem')) ∧ (s (l + 1)).disp[d]? = some .idle ∧
      ∀ r ∈ rem, ∃ m, i ≤ m ∧ m < l ∧ Offered (s m) (s (m + 1)) d r v := by
  induction len with
  | zero =>
    intro i rem hlen hd
    have hnil := List.eq_nil_of_length_eq_zero hlen
    obtain ⟨j, h1, h2, h3, t⟩ := leaves h hd (visiting_can h)
    refine ⟨j, h1, fun m a1 a2 => ⟨rem, h2 m a1 a2⟩, ?_, fun r hr => by rw [hnil] at hr; cases hr⟩
    rcases disp_tr t (h2 j h1 (Nat.le_refl _)) with e | ⟨e, -⟩ | ⟨e, -⟩ | ⟨e, -⟩ | ⟨v', e, -⟩ | ⟨v', rem', r, e, hr, -, -⟩ | ⟨v', e, e2⟩
    · exact absurd e h3
    · cases e
    · cases e
    · cases e
    · cases e
    · cases e; rw [hnil] at hr; cases hr
    · exact e2
  | succ len ih =>
    intro i rem hlen hd
    obtain ⟨j, h1, h2, h3, t⟩ := leaves h hd (visiting_can h)
    rcases disp_tr t (h2 j h1 (Nat.le_refl _)) with e | ⟨e, -⟩ | ⟨e, -⟩ | ⟨e, -⟩ | ⟨v', e, -⟩ | ⟨v', rem', r, e, hr, e2, ho⟩ | ⟨v', e, -⟩
    · exact absurd e h3
    · cases e
    · cases e
    · cases e
    · cases e
    · cases e
      obtain ⟨l, g1, g2, g3, g4⟩ := ih (j + 1) (rem.erase r) (by rw [List.length_erase_of_mem hr, hlen]; rfl) e2
      refine ⟨l, by omega, ?_, g3, ?_⟩
      · intro m a1 a2
        by_cases hm : m ≤ j
        · exact ⟨rem, h2 m a1 hm⟩
        · exact g2 m (by omega) a2
      · intro r' hr'
        by_cases he : r' = r
        · subst he; exact ⟨j, h1, by omega, ho⟩
        · obtain ⟨m, f1, f2, f3⟩ := g4 r' ((List.mem_erase_of_ne he).mpr hr')
          exact ⟨m, by omega, f2, f3⟩
    · cases e; simp at hlen

/-- From time `k` on, dispatcher `d` runs its loop for event `v`, which ends at time `l`; it offers the event to every receiver that is
registered at time `k`. -/
def Round (s : Nat → State ε) (d : Nat) (v : ε) (k l : Nat) : Prop :=
  k < l ∧ (s k).disp[d]? = some (.got v) ∧ (s (k + 1)).disp[d]? = some (.visiting v (ids (s k).map)) ∧
  (∀ m, k < m → m ≤ l → ∃ rem, (s m).disp[d]? = some (.visiting v rem)) ∧ (s (l + 1)).disp[d]? = some .idle ∧
  ∀ r ∈ ids (s k).map, ∃ m, k < m ∧ m < l ∧ Offered (s m) (s (m + 1)) d r v

/-- **C159**: an event that a dispatcher has taken is offered to all receivers. -/
theorem C159_round {n : Nat} {s : Nat → State ε} {a : Nat → Option (Action ε)} (h : Fair n s a) (i d : Nat) (v : ε)
    (hd : (s i).disp[d]? = some (.got v)) :
    ∃ k l, i ≤ k ∧ (∀ m, i ≤ m → m ≤ k → (s m).disp[d]? = some (.got v)) ∧ Round s d v k l := by
  obtain ⟨k, h1, h2, h3, t⟩ := leaves h hd (fun hst i' => ⟨max i i', Nat.le_max_right _ _, .rlock d, by simp [mine], by
    simp [step, hst _ (Nat.le_max_left i i'), h.whole]⟩)
  have hk := h2 k h1 (Nat.le_refl _)
  have hv : (s (k + 1)).disp[d]? = some (.visiting v (ids (s k).map)) := by
    rcases disp_tr t hk with e | ⟨e, -⟩ | ⟨e, -⟩ | ⟨e, -⟩ | ⟨v', e, e2⟩ | ⟨v', rem', r, e, -, -, -⟩ | ⟨v', e, -⟩
    · exact absurd e h3
    · cases e
    · cases e
    · cases e
    · cases e; exact e2
    · cases e
    · cases e
  obtain ⟨l, g1, g2, g3, g4⟩ := visiting_ends h _ (k + 1) _ rfl hv
  exact ⟨k, l, h1, h2, by omega, hk, hv, fun m a1 a2 => g2 m (by omega) a2, g3, fun r hr => by
    obtain ⟨m, f1, f2, f3⟩ := g4 r hr; exact ⟨m, by omega, f2, f3⟩⟩

theorem disp_stays {n : Nat} {s : Nat → State ε} {a : Nat → Option (Action ε)} (h : Fair n s a) {d i : Nat} {p : DPC ε}
    (hp : (s i).disp[d]? = some p) : ∀ j, i ≤ j → ∃ q, (s j).disp[d]? = some q := by
  intro j hj
  obtain ⟨m, rfl⟩ := Nat.exists_eq_add_of_le hj
  clear hj
  induction m with
  | zero => exact ⟨p, hp⟩
  | succ m ih =>
    obtain ⟨q, hq⟩ := ih
    rcases h.tr (i + m) with e | t
    · exact ⟨q, by rw [← hq]; exact congrArg (fun x : State ε => x.disp[d]?) e⟩
    · rcases disp_tr t hq with e | ⟨-, _, -, e⟩ | ⟨-, _, -, -, e⟩ | ⟨-, -, -, e⟩ | ⟨_, -, e⟩ | ⟨_, _, _, -, -, e, -⟩ | ⟨_, -, e⟩ <;> exact ⟨_, e⟩

/-- A dispatcher that has not ended is idle some time. -/
theorem gets_idle {n : Nat} {s : Nat → State ε} {a : Nat → Option (Action ε)} (h : Fair n s a) {d i : Nat} {p : DPC ε}
    (hp : (s i).disp[d]? = some p) (hg : p ≠ .gone) : ∃ j, i ≤ j ∧ (s j).disp[d]? = some .idle := by
  cases p with
  | idle => exact ⟨i, Nat.le_refl _, hp⟩
  | gone => exact absurd rfl hg
  | got v =>
    obtain ⟨k, l, h1, -, h2, -, -, -, h3, -⟩ := C159_round h i d v hp
    exact ⟨l + 1, by omega, h3⟩
  | visiting v rem =>
    obtain ⟨l, h1, -, h3, -⟩ := visiting_ends h _ i rem rfl hp
    exact ⟨l + 1, by omega, h3⟩

/-- How many events are taken from the channel of the bus between two moments. -/
def takes (s : Nat → State ε) (i : Nat) : Nat → Nat
  | 0 => 0
  | m + 1 => takes s i m + if (s (i + m + 1)).ch.length < (s (i + m)).ch.length then 1 else 0

theorem takes_succ (s : Nat → State ε) (i m : Nat) :
    takes s i (m + 1) = (if (s (i + 1)).ch.length < (s i).ch.length then 1 else 0) + takes s (i + 1) m := by
  induction m with
  | zero => simp [takes]
  | succ m ih =>
    rw [takes, ih, takes]
    have : i + (m + 1) = i + 1 + m := by omega
    rw [this]; omega

/-- Some dispatcher has not ended. -/
def Alive (s : State ε) : Prop := ∃ (d : Nat) (p : DPC ε), s.disp[d]? = some p ∧ p ≠ .gone

/-- If the channel is not empty, an event is taken some time. -/
theorem some_take {n : Nat} {s : Nat → State ε} {a : Nat → Option (Action ε)} (h : Fair n s a) {i : Nat} (ha : Alive (s i))
    (hne : (s i).ch ≠ []) : ∃ j, i ≤ j ∧ (s (j + 1)).ch.length < (s j).ch.length := by
  refine Classical.byContradiction fun hno => ?_
  obtain ⟨d, p, hp, hg⟩ := ha
  have grow : ∀ j, i ≤ j → (s j).ch ≠ [] := by
    intro j hj
    obtain ⟨m, rfl⟩ := Nat.exists_eq_add_of_le hj
    clear hj
    induction m with
    | zero => exact hne
    | succ m ih =>
      intro e
      have h1 : (s (i + m + 1)).ch.length = 0 := by rw [show i + m + 1 = i + (m + 1) by omega, e]; rfl
      have h2 : 0 < (s (i + m)).ch.length := List.length_pos_iff.mpr ih
      exact hno ⟨i + m, by omega, by omega⟩
  obtain ⟨j, hj, hidle⟩ := gets_idle h hp hg
  obtain ⟨k, h1, h2, h3, t⟩ := leaves h hidle (fun hst i' => ⟨max j i', Nat.le_max_right _ _, .take d, by simp [mine], by
    have := grow (max j i') (Nat.le_trans hj (Nat.le_max_left _ _))
    cases hch : (s (max j i')).ch with
    | nil => exact absurd hch this
    | cons v ch => simp [step, hst _ (Nat.le_max_left j i'), hch]⟩)
  rcases disp_tr t (h2 k h1 (Nat.le_refl _)) with e | ⟨-, v, e, -⟩ | ⟨-, v, e, -⟩ | ⟨-, e, -⟩ | ⟨v', e, -⟩ | ⟨v', rem', r, e, -, -, -⟩ | ⟨v', e, -⟩
  · exact h3 e
  · exact hno ⟨k, by omega, by rw [e]; simp⟩
  · exact grow k (by omega) e
  · exact grow k (by omega) e
  · cases e
  · cases e
  · cases e

/-- A dispatcher ends only when the channel is closed and empty. -/
theorem alive_stays {n : Nat} {s : Nat → State ε} {a : Nat → Option (Action ε)} (h : Fair n s a) {i : Nat} (ha : Alive (s i)) {m : Nat}
    (hne : ∀ j, i ≤ j → j < i + m → (s j).ch ≠ []) : Alive (s (i + m)) := by
  induction m with
  | zero => exact ha
  | succ m ih =>
    obtain ⟨d, p, hp, hg⟩ := ih fun j h1 h2 => hne j h1 (by omega)
    rcases h.tr (i + m) with e | t
    · exact ⟨d, p, by rw [← hp]; exact congrArg (fun x : State ε => x.disp[d]?) e, hg⟩
    · rcases disp_tr t hp with e | ⟨-, v, -, e⟩ | ⟨-, v, -, -, e⟩ | ⟨-, e, -⟩ | ⟨v', -, e⟩ | ⟨v', rem', r, -, -, e, -⟩ | ⟨v', -, e⟩
      · exact ⟨d, p, e, hg⟩
      · exact ⟨d, _, e, by simp⟩
      · exact ⟨d, _, e, by simp⟩
      · exact absurd e (hne (i + m) (by omega) (by omega))
      · exact ⟨d, _, e, by simp⟩
      · exact ⟨d, _, e, by simp⟩
      · exact ⟨d, _, e, by simp⟩

theorem takes_add (s : Nat → State ε) (i m m' : Nat) : takes s i (m + m') = takes s i m + takes s (i + m) m' := by
  induction m' with
  | zero => rfl
  | succ m' ih =>
    rw [← Nat.add_assoc, takes, ih, takes, Nat.add_assoc i m m']
    omega

/-- The first event to be taken is the first one in the channel. -/
theorem first_take {n : Nat} {s : Nat → State ε} {a : Nat → Option (Action ε)} (h : Fair n s a) {i : Nat} (ha : Alive (s i))
    (hne : (s i).ch ≠ []) :
    ∃ (m : Nat) (w : List ε) (x : ε) (d : Nat), takes s i m = 0 ∧ (s (i + m)).ch = (s i).ch ++ w ∧ (s (i + m)).ch = x :: (s (i + m + 1)).ch ∧
      (s (i + m)).disp[d]? = some .idle ∧ (s (i + m + 1)).disp[d]? = some (.got x) ∧ Alive (s (i + m + 1)) := by
  obtain ⟨j, hj, hlt⟩ := some_take h ha hne
  obtain ⟨k, rfl⟩ := Nat.exists_eq_add_of_le hj
  clear hj
  induction k generalizing i with
  | zero =>
    simp only [Nat.add_zero] at hlt
    rcases h.tr i with e | t
    · rw [e] at hlt; omega
    · rcases ch_tr t with e | ⟨v', e, -, -⟩ | ⟨x, d, e, e1, e2⟩
      · rw [e] at hlt; omega
      · rw [e] at hlt; simp at hlt; omega
      · exact ⟨0, [], x, d, rfl, by simp, e, e1, e2, d, _, e2, by simp⟩
  | succ k ih =>
    by_cases hl : (s (i + 1)).ch.length < (s i).ch.length
    · rcases h.tr i with e | t
      · rw [e] at hl; omega
      · rcases ch_tr t with e | ⟨v', e, -, -⟩ | ⟨x, d, e, e1, e2⟩
        · rw [e] at hl; omega
        · rw [e] at hl; simp at hl; omega
        · exact ⟨0, [], x, d, rfl, by simp, e, e1, e2, d, _, e2, by simp⟩
    · have hw : ∃ w, (s (i + 1)).ch = (s i).ch ++ w := by
        rcases h.tr i with e | t
        · exact ⟨[], by rw [e]; simp⟩
        · rcases ch_tr t with e | ⟨v', e, -, -⟩ | ⟨x, d, e, e1, e2⟩
          · exact ⟨[], by rw [e]; simp⟩
          · exact ⟨_, e⟩
          · exact absurd (by rw [e]; simp) hl
      obtain ⟨w, hw⟩ := hw
      have hne' : (s (i + 1)).ch ≠ [] := by rw [hw]; simp [hne]
      have ha' : Alive (s (i + 1)) := alive_stays h ha (m := 1) fun j h1 h2 => by
        rw [show j = i by omega]; exact hne
      have hlt' : (s (i + 1 + k + 1)).ch.length < (s (i + 1 + k)).ch.length := by
        rw [show i + 1 + k = i + (k + 1) by omega]; exact hlt
      obtain ⟨m, w', x, d, h1, h2, h3, h4, h5, h6⟩ := ih ha' hne' hlt'
      have e : i + 1 + m = i + (m + 1) := by omega
      rw [e] at h2 h3 h4 h5 h6
      refine ⟨m + 1, w ++ w', x, d, ?_, by rw [h2, hw, List.append_assoc], h3, h4, h5, h6⟩
      rw [takes_succ, h1, if_neg hl]

/-- **C159**: every event in the channel of the bus is taken by a dispatcher, first in, first out. -/
theorem C159_taken {n : Nat} {s : Nat → State ε} {a : Nat → Option (Action ε)} (h : Fair n s a) (p : Nat) :
    ∀ (i : Nat) (v : ε), Alive (s i) → (s i).ch[p]? = some v →
    ∃ m d : Nat, takes s i m = p ∧ (s (i + m)).ch = v :: (s (i + m + 1)).ch ∧ (s (i + m)).disp[d]? = some .idle ∧
      (s (i + m + 1)).disp[d]? = some (.got v) := by
  induction p with
  | zero =>
    intro i v ha hv
    have hne : (s i).ch ≠ [] := by intro e; rw [e] at hv; simp at hv
    obtain ⟨m, w, x, d, h1, h2, h3, h4, h5, -⟩ := first_take h ha hne
    have : x = v := by
      cases hc : (s i).ch with
      | nil => exact absurd hc hne
      | cons y ys =>
        rw [hc] at hv h2
        rw [h3] at h2
        simp at hv h2
        exact h2.1.trans hv
    subst this
    exact ⟨m, d, h1, h3, h4, h5⟩
  | succ p ih =>
    intro i v ha hv
    have hne : (s i).ch ≠ [] := by intro e; rw [e] at hv; simp at hv
    obtain ⟨m, w, x, d, h1, h2, h3, h4, h5, h6⟩ := first_take h ha hne
    have hv' : (s (i + m + 1)).ch[p]? = some v := by
      have : (s (i + m)).ch[p + 1]? = some v := by
        rw [h2, List.getElem?_append_left (getElem?_lt hv)]; exact hv
      rw [h3] at this
      simpa using this
    obtain ⟨m', d', g1, g2, g3, g4⟩ := ih (i + m + 1) v h6 hv'
    have e : i + m + 1 + m' = i + (m + 1 + m') := by omega
    rw [e] at g2 g3 g4
    refine ⟨m + 1 + m', d', ?_, g2, g3, g4⟩
    rw [takes_add, takes, h1, ← Nat.add_assoc, g1, if_pos (by rw [h3]; simp)]
    omega

/-- **C159**: every event that is in the channel of the bus is taken by a dispatcher, which offers it to every receiver that is registered
when its loop begins, and ends the loop. -/
theorem C159_event {n : Nat} {s : Nat → State ε} {a : Nat → Option (Action ε)} (h : Fair n s a) (i p : Nat) (v : ε) (ha : Alive (s i))
    (hv : (s i).ch[p]? = some v) :
    ∃ m d k l : Nat, takes s i m = p ∧ (s (i + m)).ch = v :: (s (i + m + 1)).ch ∧ i + m < k ∧
      (∀ x, i + m < x → x ≤ k → (s x).disp[d]? = some (.got v)) ∧ Round s d v k l := by
  obtain ⟨m, d, h1, h2, -, h4⟩ := C159_taken h p i v ha hv
  obtain ⟨k, l, g1, g2, g3⟩ := C159_round h (i + m + 1) d v h4
  exact ⟨m, d, k, l, h1, h2, by omega, fun x a1 a2 => g2 x (by omega) a2, g3⟩

/-- **C159**: a sender that finds no room finds some later, as long as the bus is open. -/
theorem C159_accepts {n : Nat} {s : Nat → State ε} {a : Nat → Option (Action ε)} (h : Fair n s a) (i : Nat) (v : ε) (ha : Alive (s i))
    (ho : ∀ j, (s j).chClosed = false) :
    ∃ j, i ≤ j ∧ ((step (s j) (.send v)).isSome = true ∨ ∃ d, (step (s j) (.sendTo d v)).isSome = true) := by
  by_cases hl : (s i).ch.length < (s i).chCap
  · exact ⟨i, Nat.le_refl _, .inl (by simp [step, ho, hl])⟩
  · by_cases hne : (s i).ch = []
    · obtain ⟨d, p, hp, hg⟩ := ha
      obtain ⟨j, hj, hidle⟩ := gets_idle h hp hg
      have hcap : (s i).chCap = 0 := by rw [hne] at hl; simp at hl; omega
      have hcj : (s j).chCap = 0 := by
        rw [← hcap]; exact cap_const h j i
      have hch : (s j).ch = [] := by
        have := (h.fits j).1
        rw [hcj] at this
        exact List.eq_nil_of_length_eq_zero (by omega)
      exact ⟨j, hj, .inr ⟨d, by simp [step, hidle, hch, ho]⟩⟩
    · obtain ⟨j, hj, hlt⟩ := some_take h ha hne
      refine ⟨j + 1, by omega, .inl ?_⟩
      have := (h.fits j).1
      have hc : (s (j + 1)).chCap = (s j).chCap := cap_const h (j + 1) j
      simp [step, ho]; omega

theorem closed_stays {n : Nat} {s : Nat → State ε} {a : Nat → Option (Action ε)} (h : Fair n s a) {i : Nat} (hc : (s i).chClosed = true) :
    ∀ j, i ≤ j → (s j).chClosed = true ∧ (s j).ch.length ≤ (s i).ch.length := by
  intro j hj
  obtain ⟨m, rfl⟩ := Nat.exists_eq_add_of_le hj
  clear hj
  induction m with
  | zero => exact ⟨hc, Nat.le_refl _⟩
  | succ m ih =>
    rcases h.tr (i + m) with e | t
    · rw [show i + (m + 1) = i + m + 1 by omega, e]; exact ih
    · refine ⟨closed_tr t ih.1, ?_⟩
      have := ih.2
      rcases ch_tr t with e | ⟨v', e, e', -⟩ | ⟨x, d, e, e1, e2⟩
      · rw [show i + (m + 1) = i + m + 1 by omega, e]; exact this
      · rw [ih.1] at e'; cases e'
      · rw [e] at this; simp at this
        rw [show i + (m + 1) = i + m + 1 by omega]; omega

theorem gone_stays {n : Nat} {s : Nat → State ε} {a : Nat → Option (Action ε)} (h : Fair n s a) {i d : Nat} (hc : (s i).disp[d]? = some .gone) :
    ∀ j, i ≤ j → (s j).disp[d]? = some .gone := by
  intro j hj
  obtain ⟨m, rfl⟩ := Nat.exists_eq_add_of_le hj
  clear hj
  induction m with
  | zero => exact hc
  | succ m ih =>
    rcases h.tr (i + m) with e | t
    · rw [show i + (m + 1) = i + m + 1 by omega, e]; exact ih
    · rcases disp_tr t ih with e | ⟨e, -⟩ | ⟨e, -⟩ | ⟨e, -⟩ | ⟨v', e, -⟩ | ⟨v', rem', r, e, -, -, -⟩ | ⟨v', e, -⟩
      · exact e
      all_goals cases e

/-- **C159**: after `Close` of the bus every dispatcher ends. -/
theorem C159_close {n : Nat} {s : Nat → State ε} {a : Nat → Option (Action ε)} (h : Fair n s a) (d : Nat) :
    ∀ (i : Nat) (p : DPC ε), (s i).chClosed = true → (s i).disp[d]? = some p → ∃ j, i ≤ j ∧ ∀ j', j ≤ j' → (s j').disp[d]? = some .gone := by
  intro i p hc hp
  generalize hlen : (s i).ch.length = len
  induction len using Nat.strongRecOn generalizing i p with
  | ind len ih =>
    by_cases hg : p = .gone
    · subst hg; exact ⟨i, Nat.le_refl _, gone_stays h hp⟩
    obtain ⟨j, hj, hidle⟩ := gets_idle h hp hg
    have hcl := closed_stays h hc
    obtain ⟨k, h1, h2, h3, t⟩ := leaves h hidle (fun hst i' => ⟨max j i', Nat.le_max_right _ _, .take d, by simp [mine], by
      have := (hcl (max j i') (Nat.le_trans hj (Nat.le_max_left _ _))).1
      cases hch : (s (max j i')).ch <;> simp [step, hst _ (Nat.le_max_left j i'), hch, this]⟩)
    have hk := hcl k (by omega)
    rcases disp_tr t (h2 k h1 (Nat.le_refl _)) with e | ⟨-, v, e, e2⟩ | ⟨-, v, e, e', -⟩ | ⟨-, -, -, e⟩ | ⟨v', e, -⟩ | ⟨v', rem', r, e, -, -, -⟩ | ⟨v', e, -⟩
    · exact absurd e h3
    · have hl : (s (k + 1)).ch.length < len := by
        have := hk.2; rw [e] at this; simp at this; omega
      obtain ⟨j', g1, g2⟩ := ih _ hl (k + 1) _ (hcl (k + 1) (by omega)).1 e2 rfl
      exact ⟨j', by omega, g2⟩
    · rw [hk.1] at e'; cases e'
    · exact ⟨k + 1, by omega, gone_stays h e⟩
    · cases e
    · cases e
    · cases e

/-- **C159**: after `Close` of the bus has closed the channel, and if no more dispatchers are started, nobody holds the lock from some time on,
so that the second half of `Close` is possible. -/
theorem C159_lock {n : Nat} {s : Nat → State ε} {a : Nat → Option (Action ε)} (h : Fair n s a) (i : Nat) (hc : (s i).chClosed = true)
    (hno : ∀ j, i ≤ j → (s j).disp.length = (s i).disp.length) :
    ∃ j, i ≤ j ∧ ∀ j', j ≤ j' → (∀ p ∈ (s j').disp, p = .gone) ∧ lockable (s j') = true ∧
      ((s j').closing = true → (step (s j') .busClose2).isSome = true) := by
  have key : ∀ N, N ≤ (s i).disp.length → ∃ j, i ≤ j ∧ ∀ j', j ≤ j' → ∀ d < N, (s j').disp[d]? = some .gone := by
    intro N
    induction N with
    | zero => exact fun _ => ⟨i, Nat.le_refl _, fun _ _ d hd => by omega⟩
    | succ N ih =>
      intro hN
      obtain ⟨j, h1, h2⟩ := ih (by omega)
      obtain ⟨j1, g1, g2⟩ := C159_close h N i _ hc (List.getElem?_eq_getElem (show N < (s i).disp.length by omega))
      refine ⟨max j j1, Nat.le_trans h1 (Nat.le_max_left _ _), fun j' hj' d hd => ?_⟩
      by_cases e : d = N
      · subst e; exact g2 j' (Nat.le_trans (Nat.le_max_right _ _) hj')
      · exact h2 j' (Nat.le_trans (Nat.le_max_left _ _) hj') d (by omega)
  obtain ⟨j, h1, h2⟩ := key _ (Nat.le_refl _)
  refine ⟨j, h1, fun j' hj' => ?_⟩
  have hall : ∀ p ∈ (s j').disp, p = .gone := by
    intro p hp
    obtain ⟨d, hd⟩ := List.mem_iff_getElem?.mp hp
    have := h2 j' hj' d (by rw [← hno j' (by omega)]; exact getElem?_lt hd)
    rw [hd] at this; exact Option.some.inj this
  have hl : lockable (s j') = true := by
    have : rlocked (s j') = false := by
      simp only [rlocked, List.any_eq_false]
      intro p hp
      rw [hall p hp]; simp
    simp [lockable, this, h.whole]
  refine ⟨hall, hl, fun hcl => ?_⟩
  simp only [step, hcl, hl, and_self, if_true]
  split <;> rfl

/-! ### Executions -/

/-- One dispatcher, one Block receiver with a reader, one event. -/
def good : List (Action Nat) :=
  [.goDispatch, .newRecv "a" 0 .block, .startRead 0 false, .send 7, .take 0, .rlock 0, .recv 0, .visit 0 0 0, .runlock 0, .recv 0]

/-- One dispatcher, one Block receiver without readers, two events. -/
def stuck : List (Action Nat) := [.goDispatch, .newRecv "a" 0 .block, .send 7, .take 0, .rlock 0, .send 8]

def goodEnd : State Nat := (exec step (new 1) good).getD (new 1)

def stuckEnd : State Nat := (exec step (new 1) stuck).getD (new 1)

theorem good_exec : exec step (new 1) good = some goodEnd := by decide

theorem stuck_exec : exec step (new 1) stuck = some stuckEnd := by decide

theorem good_end : goodEnd.disp = [.idle] ∧ goodEnd.ch = [] ∧ goodEnd.chClosed = false ∧ goodEnd.rds = [⟨0, false, .parked, [some 7]⟩] := by decide

theorem stuck_end : stuckEnd.disp = [.visiting 7 [0]] ∧ stuckEnd.ch = [8] ∧ stuckEnd.rds = [] ∧ stuckEnd.rcvs = [⟨"a", 0, .block, [], false⟩] := by
  decide

theorem good_cannot (d : Nat) : ¬ Can goodEnd d := by
  rintro ⟨x, hm, hx⟩
  obtain ⟨h1, h2, h3, h4⟩ := good_end
  have hd : goodEnd.disp[d]? = some .idle ∨ goodEnd.disp[d]? = none := by
    rw [h1]; cases d <;> simp
  cases x <;> simp only [mine, Bool.false_eq_true, beq_iff_eq] at hm <;> subst hm <;> rcases hd with hd | hd <;>
    simp [step, hd, h2, h3] at hx

theorem stuck_cannot (d : Nat) : ¬ Can stuckEnd d := by
  rintro ⟨x, hm, hx⟩
  obtain ⟨h1, h2, h3, h4⟩ := stuck_end
  have hd : stuckEnd.disp[d]? = some (.visiting 7 [0]) ∨ stuckEnd.disp[d]? = none := by
    rw [h1]; cases d <;> simp
  cases x <;> simp only [mine, Bool.false_eq_true, beq_iff_eq] at hm <;> subst hm <;> rcases hd with hd | hd <;>
    simp [step, hd, h3, h4, offer, waiting] at hx
  rename_i d r k
  by_cases hr : r = 0
  · subst hr; simp at hx
  · simp [hr] at hx

theorem fair_of_cannot {s0 sN : State Nat} {acts : List (Action Nat)} (h : exec step s0 acts = some sN) (hc : ∀ d, ¬ Can sN d) (d : Nat) :
    FairD (moments step s0 acts) d := by
  intro hinf
  obtain ⟨j, hj, hcan⟩ := hinf acts.length
  rw [moments_end h hj] at hcan
  exact absurd hcan (hc d)

theorem good_fair : Fair 1 (moments step (new 1) good) (fun i => good[i]?) := by
  refine ⟨moments_run good_exec, ⟨[], rfl⟩, ?_, fair_of_cannot good_exec good_cannot, ?_⟩
  · refine moments_all (P := fun st : State Nat => st.wedged = false) ?_
    have : ∀ i : Fin 11, (moments step (new 1) good i).wedged = false := by decide
    intro i hi
    exact this ⟨i, by simp [good] at hi; omega⟩
  · refine C159_readers (n := 1) (moments_run good_exec) ⟨[], rfl⟩ ?_ ?_
    · intro k i hk
      have := hk (i + good.length) (by omega)
      rw [moments_end good_exec (by omega)] at this
      obtain ⟨h1, h2, h3, h4⟩ := good_end
      cases k <;> simp [step, h4] at this
    · intro i r c hc hb hreg
      refine ⟨0, good.length, ?_⟩
      intro j hj
      obtain ⟨h1, h2, h3, h4⟩ := good_end
      have hr := hreg (i + good.length) (by omega)
      rw [moments_end good_exec (by omega)] at hr
      have hr0 : r = 0 := by
        have : ids goodEnd.map = [0] := by decide
        rw [this] at hr; simpa using hr
      subst hr0
      rw [moments_end good_exec hj]
      exact ⟨_, by rw [h4]; rfl, rfl, by decide⟩

/-- Non-vacuity: a fair execution in which an event is in the channel of the bus. -/
example : ∃ (s : Nat → State Nat) (a : Nat → Option (Action Nat)) (i : Nat), Fair 1 s a ∧ Alive (s i) ∧ (s i).ch[0]? = some 7 :=
  ⟨_, _, 4, good_fair, ⟨0, .idle, by decide, by decide⟩, by decide⟩

/-- **C159**: without readers for a Block receiver an event can stay in the channel of the bus for ever, though the scheduler is fair. -/
theorem C159_unserved : ∃ (s : Nat → State Nat) (a : Nat → Option (Action Nat)) (i : Nat), IsRun step s a ∧ Reach 1 (s 0) ∧
    (∀ j, (s j).wedged = false) ∧ (∀ d, FairD s d) ∧ (∀ k, FairR s a k) ∧ Alive (s i) ∧ ∀ j, i ≤ j → (s j).ch = [8] ∧
      (s j).disp = [.visiting 7 [0]] := by
  refine ⟨_, _, stuck.length, moments_run stuck_exec, ⟨[], rfl⟩, ?_, fair_of_cannot stuck_exec stuck_cannot, ?_, ?_, ?_⟩
  · refine moments_all (P := fun st : State Nat => st.wedged = false) ?_
    have : ∀ i : Fin 7, (moments step (new 1) stuck i).wedged = false := by decide
    intro i hi
    exact this ⟨i, by simp [stuck] at hi; omega⟩
  · intro k i hk
    have := hk (i + stuck.length) (by omega)
    rw [moments_end stuck_exec (by omega)] at this
    simp [step, stuck_end.2.2.1] at this
  · rw [moments_end stuck_exec (Nat.le_refl _)]
    exact ⟨0, .visiting 7 [0], by rw [stuck_end.1]; rfl, by simp⟩
  · intro j hj
    rw [moments_end stuck_exec hj]
    exact ⟨stuck_end.2.1, stuck_end.1⟩

end Gears.Bus.Live
