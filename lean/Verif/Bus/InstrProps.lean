import Verif.Bus.Instr

/-
Every instruction is none or one step of Model.lean: an iteration of the loop in FanOutBus.Close is a Close of the receiver.
-/

namespace Gears.Bus.Instr

open Gears.Bus

variable {ε : Type}

/-! ### Steps that do not touch the map -/

theorem step_map {a : Action ε} (ha : isPlain a = true) (s : State ε) (m : List (String × Nat)) :
    step { s with map := m } a = (step s a).map fun t => { t with map := m } := by
  cases a <;> simp only [isPlain, Bool.false_eq_true] at ha <;> simp only [step] <;> (repeat' split) <;> rfl

/-- What such a step leaves as it is. -/
structure Same (s s' : State ε) : Prop where
  map     : s'.map = s.map
  closing : s'.closing = s.closing
  chcl    : s'.chClosed = s.chClosed
  wedged  : s'.wedged = s.wedged
  rcvs    : ∀ (r : Nat) c, s.rcvs[r]? = some c → ∃ c', s'.rcvs[r]? = some c' ∧ c'.name = c.name ∧ c'.closed = c.closed

theorem same_set {s : State ε} {r : Nat} {c : Rcv ε} (hc : s.rcvs[r]? = some c) (b : List ε) :
    ∀ (r' : Nat) x, s.rcvs[r']? = some x → ∃ x', (s.rcvs.set r { c with buf := b })[r']? = some x' ∧ x'.name = x.name ∧ x'.closed = x.closed := by
  intro r' x hx
  by_cases h : r = r'
  · subst h
    rw [hc] at hx; simp at hx; subst hx
    exact ⟨{ c with buf := b }, by rw [List.getElem?_set]; simp [getElem?_lt hc], rfl, rfl⟩
  · exact ⟨x, by rw [List.getElem?_set]; simp [h, hx], rfl, rfl⟩

theorem same_plain {a : Action ε} (ha : isPlain a = true) {s s' : State ε} (h : step s a = some s') : Same s s' := by
  have hid : ∀ (r : Nat) c, s.rcvs[r]? = some c → ∃ c', s.rcvs[r]? = some c' ∧ c'.name = c.name ∧ c'.closed = c.closed :=
    fun r c hc => ⟨c, hc, rfl, rfl⟩
  cases a <;> simp only [isPlain, Bool.false_eq_true] at ha <;> simp only [step] at h <;> (repeat' split at h) <;>
    simp only [Option.some.injEq, reduceCtorEq] at h <;> subst h <;>
    first | exact ⟨rfl, rfl, rfl, rfl, hid⟩ | exact ⟨rfl, rfl, rfl, rfl, same_set (by assumption) _⟩

/-- A plain step changes no iteration. -/
theorem plain_visiting {a : Action ε} (ha : isPlain a = true) {s s' : State ε} (h : step s a = some s') (d : Nat) (v : ε) (rem : List Nat) :
    s'.disp[d]? = some (.visiting v rem) ↔ s.disp[d]? = some (.visiting v rem) := by
  have key : ∀ (d0 : Nat) (p q : DPC ε), s.disp[d0]? = some p → (∀ v r, p ≠ .visiting v r) → (∀ v r, q ≠ .visiting v r) →
      ((s.disp.set d0 q)[d]? = some (.visiting v rem) ↔ s.disp[d]? = some (.visiting v rem)) := by
    intro d0 p q h0 hp hq
    by_cases e : d0 = d
    · subst e
      rw [List.getElem?_set, h0]
      simp [getElem?_lt h0, hp v rem, hq v rem]
    · rw [List.getElem?_set_ne e]
  cases a with
  | goDispatch =>
    simp only [step, Option.some.injEq] at h
    subst h
    constructor
    · intro hd
      rcases snoc_some hd with ⟨_, he⟩ | ⟨_, he⟩
      · simp at he
      · exact he
    · intro hd
      simp only
      rw [List.getElem?_append_left (getElem?_lt hd)]; exact hd
  | sendTo d0 w =>
    simp only [step] at h
    split at h <;> simp only [Option.some.injEq, reduceCtorEq] at h
    subst h
    exact key _ _ _ (by assumption) (by simp) (by simp)
  | take d0 =>
    simp only [step] at h
    (repeat' split at h) <;> simp only [Option.some.injEq, reduceCtorEq] at h <;> subst h <;> exact key _ _ _ (by assumption) (by simp) (by simp)
  | _ =>
    simp only [isPlain, Bool.false_eq_true] at ha <;> simp only [step] at h <;> (repeat' split at h) <;>
      simp only [Option.some.injEq, reduceCtorEq] at h <;> subst h <;> rfl

/-- A visit of an open receiver, or the receive that completes it. -/
theorem visit_same {s s' : State ε} {d r k : Nat} (hop : ∀ c, s.rcvs[r]? = some c → c.closed = false) (h : step s (.visit d r k) = some s') :
    Same s s' ∧ ∃ v rem, s.disp[d]? = some (.visiting v rem) ∧ s'.disp = s.disp.set d (.visiting v (rem.erase r)) := by
  have hid : ∀ (r : Nat) c, s.rcvs[r]? = some c → ∃ c', s.rcvs[r]? = some c' ∧ c'.name = c.name ∧ c'.closed = c.closed :=
    fun r c hc => ⟨c, hc, rfl, rfl⟩
  simp only [step] at h
  (repeat' split at h) <;> try (simp only [reduceCtorEq] at h)
  rename_i c hc
  have hcl := hop c hc
  simp only [offer] at h
  (repeat' split at h) <;> simp only [Option.some.injEq, reduceCtorEq] at h <;> subst h <;>
    first
    | exact ⟨⟨rfl, rfl, rfl, rfl, hid⟩, _, _, by assumption, rfl⟩
    | exact ⟨⟨rfl, rfl, rfl, rfl, same_set (by assumption) _⟩, _, _, by assumption, rfl⟩
    | (exfalso; simp_all)

theorem from_same {s s' : State ε} {d k : Nat} (h : step s (.recvFrom k d) = some s') :
    Same s s' ∧ ∃ v rem, s.disp[d]? = some (.visiting v rem) ∧ ∃ r, s'.disp = s.disp.set d (.visiting v (rem.erase r)) := by
  have hid : ∀ (r : Nat) c, s.rcvs[r]? = some c → ∃ c', s.rcvs[r]? = some c' ∧ c'.name = c.name ∧ c'.closed = c.closed :=
    fun r c hc => ⟨c, hc, rfl, rfl⟩
  simp only [step] at h
  (repeat' split at h) <;> simp only [Option.some.injEq, reduceCtorEq] at h
  subst h
  exact ⟨⟨rfl, rfl, rfl, rfl, hid⟩, _, _, by assumption, _, rfl⟩

/-! ### The invariant -/

theorem inv_new (n : Nat) : IInv (iNew n : IState ε) := by
  constructor <;> simp [iNew, new, WPC.crit, WPC.past, WPC.self]

/-- Steps of others than the callers. -/
theorem inv_same {s s' : IState ε} (o : IInv s) (h : Same s.bus s'.bus) (hw : s'.writer = s.writer) (hc : s'.callers = s.callers)
    (h1 : s.writer ≠ none → s'.readers = []) (h2 : ∀ d, d ∈ s'.readers ↔ ∃ v rem, s'.bus.disp[d]? = some (.visiting v rem))
    (h3 : ∀ d r, s'.at' d = some r → ∃ v rem, s'.bus.disp[d]? = some (.visiting v rem) ∧ r ∈ rem) : IInv s' := by
  refine ⟨by rw [hw, hc]; exact o.lock, by rw [hw]; exact h1, h2, h3, by rw [h.wedged, hc]; exact o.wedge, ?_, ?_, ?_, ?_, ?_, ?_, ?_⟩
  · intro i r name hi
    rw [hc] at hi
    obtain ⟨me, hme, hn⟩ := o.name i r name hi
    obtain ⟨c', hc', hn', -⟩ := h.rcvs r me hme
    exact ⟨c', hc', hn'.trans hn⟩
  · rw [hc, h.map]; exact o.found
  · rw [hc, h.map]; exact o.entry
  · intro i name hi
    rw [hc] at hi
    rw [h.map]
    obtain ⟨h4, h5⟩ := o.del i name hi
    refine ⟨h4, fun q hq => ?_⟩
    obtain ⟨c, hc, hcl⟩ := h5 q hq
    obtain ⟨c', hc', -, hcl'⟩ := h.rcvs q c hc
    exact ⟨c', hc', hcl'.trans hcl⟩
  · rw [hc, h.map]; exact o.empty
  · rw [hc, h.closing, h.chcl]; exact o.past
  · rw [hc]; exact o.one

theorem closeCh_name (b : State ε) (q : Nat) (x : Rcv ε) (hx : b.rcvs[q]? = some x) (r : Nat) (c : Rcv ε) (hc : b.rcvs[r]? = some c) :
    ∃ c', (closeCh b q x).rcvs[r]? = some c' ∧ c'.name = c.name := by
  simp only [closeCh, List.getElem?_set]
  split
  · rename_i e; subst e
    rw [hx] at hc; simp at hc; subst hc
    simp [getElem?_lt hx]
  · exact ⟨c, hc, rfl⟩

theorem abs_free {s : IState ε} (h : s.writer = none) : s.abs = s.bus := by simp [IState.abs, h]

theorem abs_held {s : IState ε} {i : Nat} (h : s.writer = some i) (hg : (s.callers i).gone = none) : s.abs = s.bus := by
  simp [IState.abs, h, hg]

theorem abs_gone {s : IState ε} {i : Nat} {name : String} (h : s.writer = some i) (hg : (s.callers i).gone = some name) :
    s.abs = { s.bus with map := without s.bus.map name } := by
  simp [IState.abs, h, hg]

theorem lockable_of {s : IState ε} (o : IInv s) {i : Nat} (hw : s.writer = some i) (hd : s.callers i ≠ .dead) : lockable s.bus = true := by
  simp only [lockable, Bool.and_eq_true, Bool.not_eq_true', rlocked, List.any_eq_false]
  refine ⟨?_, ?_⟩
  · cases h : s.bus.wedged with
    | false => rfl
    | true =>
      obtain ⟨j, hj⟩ := o.wedge h
      have := (o.lock j).1 (by rw [hj]; rfl)
      rw [hw] at this
      simp at this; subst this
      exact absurd hj hd
  · intro p hp
    cases p with
    | visiting v rem =>
      obtain ⟨d, hd⟩ := List.mem_iff_getElem?.1 hp
      have := (o.rd d).2 ⟨v, rem, hd⟩
      rw [o.excl (by rw [hw]; simp)] at this
      simp at this
    | _ => simp

/-- Lock. -/
theorem inv_lock {s s' : IState ε} (o : IInv s) {i : Nat} {p : WPC} (hs : s.lock i p = some s')
    (hp : p.crit = true) (hd : p.self = (s.callers i).self) (hpast : p.past = (s.callers i).past)
    (h2 : ∀ r name q, p ≠ .c108c r name q) (h3 : ∀ name q, p ≠ .b90 name q) (h4 : ∀ b, p ≠ .unlock b)
    (h6 : p.gone = none) :
    IInv s' ∧ s'.abs = s.abs := by
  simp only [IState.lock] at hs
  split at hs <;> simp only [Option.some.injEq, reduceCtorEq] at hs
  rename_i hl
  subst hs
  refine ⟨?_, ?_⟩
  · obtain ⟨o1, o2, o3, o4, o5, o6, o7, o8, o8', o9, o10, o11⟩ := o
    constructor <;> simp only [IState.goto, upd] <;> grind [WPC.crit, WPC.gone]
  · rw [abs_free hl.1]
    exact abs_held (i := i) rfl (by simp [IState.goto, upd, h6])

/-- None or one step of Model.lean. -/
def Sim (s s' : IState ε) : Prop := IInv s' ∧ (s'.abs = s.abs ∨ ∃ a, step s.abs a = some s'.abs)

theorem mem_without {m : List (String × Nat)} {name : String} {p : String × Nat} : p ∈ without m name ↔ p ∈ m ∧ p.1 ≠ name := by
  simp [without]

theorem lookup_mem {s : State ε} (w : Wf s) {name : String} {q : Nat} (h : (name, q) ∈ s.map) : lookup s.map name = some q := by
  cases hl : lookup s.map name with
  | none => exact absurd rfl (lookup_none hl _ h)
  | some r =>
    have := w.key_unique (lookup_some hl) h rfl
    simp at this; rw [this]

set_option maxHeartbeats 1000000 in
theorem sim_caller {s s' : IState ε} (o : IInv s) (w : Wf s.abs) {i c : Nat} (h : callerStep s i c = some s') : Sim s s' := by
  have held : (s.callers i).crit = true → s.writer = some i := (o.lock i).1
  have others : ∀ j, (s.callers i).crit = true → (s.callers j).crit = true → j = i := by
    intro j hi hj
    have := (o.lock j).1 hj
    rw [held hi] at this
    simp at this; exact this.symm
  cases hp : s.callers i with
  | idle => simp [callerStep, hp] at h
  | dead => simp [callerStep, hp] at h
  | n73 name cap strat =>
    simp only [callerStep, hp] at h
    obtain ⟨h1, h2⟩ := inv_lock o h rfl (by rw [hp]; rfl) (by rw [hp]; rfl) (by simp) (by simp) (by simp) rfl
    exact ⟨h1, .inl h2⟩
  | c107 r name =>
    simp only [callerStep, hp] at h
    obtain ⟨h1, h2⟩ := inv_lock o h rfl (by rw [hp]; rfl) (by rw [hp]; rfl) (by simp) (by simp) (by simp) rfl
    exact ⟨h1, .inl h2⟩
  | b88 =>
    simp only [callerStep, hp] at h
    obtain ⟨h1, h2⟩ := inv_lock o h rfl (by rw [hp]; rfl) (by rw [hp]; rfl) (by simp) (by simp) (by simp) rfl
    exact ⟨h1, .inl h2⟩
  | b87 =>
    have hne : s.writer ≠ some i := by
      intro hw
      have := (o.lock i).2 hw
      rw [hp] at this; simp [WPC.crit] at this
    simp only [callerStep, hp] at h
    split at h <;> simp only [Option.some.injEq] at h <;> subst h
    · rename_i hcl
      refine ⟨?_, .inr ⟨.busClose1, ?_⟩⟩
      · obtain ⟨o1, o2, o3, o4, o5, o6, o7, o8, o8', o9, o10, o11⟩ := o
        constructor <;> simp only [IState.goto, upd] <;> grind [WPC.crit, WPC.self, WPC.past]
      · simp only [IState.abs, IState.goto]
        cases hw : s.writer with
        | none => simp [step, hcl]
        | some j =>
          have : j ≠ i := by rintro rfl; exact hne hw
          simp only [Option.bind_some, upd, this, if_false]
          cases (s.callers j).gone <;> simp [step, hcl]
    · rename_i hcl
      refine ⟨?_, .inr ⟨.busClose1, ?_⟩⟩
      · obtain ⟨o1, o2, o3, o4, o5, o6, o7, o8, o8', o9, o10, o11⟩ := o
        constructor <;> simp only [IState.goto, upd] <;> grind [WPC.crit, WPC.self, WPC.past]
      · simp only [IState.abs, IState.goto]
        cases hw : s.writer with
        | none => simp [step, hcl]
        | some j =>
          have : j ≠ i := by rintro rfl; exact hne hw
          simp only [Option.bind_some, upd, this, if_false]
          cases (s.callers j).gone <;> simp [step, hcl]
  | n74 name cap strat =>
    have hw := held (by rw [hp]; rfl)
    have hl := lockable_of o hw (by rw [hp]; simp)
    have oth := fun j => others j (by rw [hp]; rfl)
    rw [abs_held hw (by rw [hp]; rfl)] at w
    simp only [callerStep, hp, Option.some.injEq] at h
    subst h
    refine ⟨?_, .inr ⟨.newRecv name cap strat, ?_⟩⟩
    · obtain ⟨o1, o2, o3, o4, o5, o6, o7, o8, o8', o9, o10, o11⟩ := o
      constructor <;> simp only [IState.goto, upd] <;> grind [WPC.crit, WPC.self, WPC.past]
    · rw [abs_held hw (by rw [hp]; rfl), abs_held (i := i) (by exact hw) (by simp [IState.goto, upd, WPC.gone])]
      simp [step, hl]
  | c108 r name =>
    have hw := held (by rw [hp]; rfl)
    have hl := lockable_of o hw (by rw [hp]; simp)
    have oth := fun j => others j (by rw [hp]; rfl)
    obtain ⟨me, hme, hn⟩ := o.name i r name (by rw [hp]; rfl)
    simp only [callerStep, hp] at h
    split at h <;> simp only [Option.some.injEq] at h <;> subst h
    · rename_i hk
      refine ⟨?_, .inr ⟨.recvClose r, ?_⟩⟩
      · obtain ⟨o1, o2, o3, o4, o5, o6, o7, o8, o8', o9, o10, o11⟩ := o
        constructor <;> simp only [IState.die, IState.goto, upd] <;> grind [WPC.crit, WPC.self, WPC.past]
      · rw [abs_held hw (by rw [hp]; rfl), abs_held (i := i) (by exact hw) (by simp [IState.die, IState.goto, upd, WPC.gone])]
        simp [step, hme, hl, hn, hk, IState.die]
    · rename_i q hk
      refine ⟨?_, .inl ?_⟩
      · obtain ⟨o1, o2, o3, o4, o5, o6, o7, o8, o8', o9, o10, o11⟩ := o
        constructor <;> simp only [IState.goto, upd] <;> grind [WPC.crit, WPC.self, WPC.past]
      · rw [abs_held hw (by rw [hp]; rfl), abs_held (i := i) (by exact hw) (by simp [IState.goto, upd, WPC.gone])]
        rfl
  | c108c r name q =>
    have hw := held (by rw [hp]; rfl)
    have hl := lockable_of o hw (by rw [hp]; simp)
    have oth := fun j => others j (by rw [hp]; rfl)
    obtain ⟨me, hme, hn⟩ := o.name i r name (by rw [hp]; rfl)
    have hk := o.found i r name q hp
    simp only [callerStep, hp] at h
    (repeat' split at h) <;> simp only [Option.some.injEq, reduceCtorEq] at h <;> subst h
    · rename_i x hx hcl
      refine ⟨?_, .inr ⟨.recvClose r, ?_⟩⟩
      · obtain ⟨o1, o2, o3, o4, o5, o6, o7, o8, o8', o9, o10, o11⟩ := o
        constructor <;> simp only [IState.die, IState.goto, upd] <;> grind [WPC.crit, WPC.self, WPC.past]
      · rw [abs_held hw (by rw [hp]; rfl), abs_held (i := i) (by exact hw) (by simp [IState.die, IState.goto, upd, WPC.gone])]
        simp [step, hme, hl, hn, hk, IState.die, hx, hcl]
    · rename_i x hx hcl
      refine ⟨?_, .inr ⟨.recvClose r, ?_⟩⟩
      · have hnm := closeCh_name s.bus q x hx
        obtain ⟨o1, o2, o3, o4, o5, o6, o7, o8, o8', o9, o10, o11⟩ := o
        constructor <;> simp only [IState.goto, upd] <;> grind [WPC.crit, WPC.self, WPC.past, closeCh]
      · rw [abs_held hw (by rw [hp]; rfl), abs_gone (i := i) (name := name) (by exact hw) (by simp [IState.goto, upd, WPC.gone])]
        simp [step, hme, hl, hn, hk, hx, hcl, closeCh]
  | c109 name =>
    have hw := held (by rw [hp]; rfl)
    have oth := fun j => others j (by rw [hp]; rfl)
    simp only [callerStep, hp, Option.some.injEq] at h
    subst h
    refine ⟨?_, .inl ?_⟩
    · obtain ⟨o1, o2, o3, o4, o5, o6, o7, o8, o8', o9, o10, o11⟩ := o
      constructor <;> simp only [IState.goto, upd] <;> grind [WPC.crit, WPC.self, WPC.past]
    · rw [abs_gone hw (by rw [hp]; rfl), abs_held (i := i) (by exact hw) (by simp [IState.goto, upd, WPC.gone])]
  | b89 =>
    have hw := held (by rw [hp]; rfl)
    have oth := fun j => others j (by rw [hp]; rfl)
    simp only [callerStep, hp] at h
    (repeat' split at h) <;> simp only [Option.some.injEq, reduceCtorEq] at h <;> subst h
    · rename_i name q hm
      have hmem := List.mem_of_getElem? hm
      refine ⟨?_, .inl ?_⟩
      · obtain ⟨o1, o2, o3, o4, o5, o6, o7, o8, o8', o9, o10, o11⟩ := o
        constructor <;> simp only [IState.goto, upd] <;> grind [WPC.crit, WPC.self, WPC.past]
      · rw [abs_held hw (by rw [hp]; rfl), abs_held (i := i) (by exact hw) (by simp [IState.goto, upd, WPC.gone])]
        rfl
    · rename_i hm
      refine ⟨?_, .inl ?_⟩
      · obtain ⟨o1, o2, o3, o4, o5, o6, o7, o8, o8', o9, o10, o11⟩ := o
        constructor <;> simp only [IState.goto, upd] <;> grind [WPC.crit, WPC.self, WPC.past]
      · rw [abs_held hw (by rw [hp]; rfl), abs_held (i := i) (by exact hw) (by simp [IState.goto, upd, WPC.gone])]
        rfl
  | b90 name q =>
    have hw := held (by rw [hp]; rfl)
    have hl := lockable_of o hw (by rw [hp]; simp)
    have oth := fun j => others j (by rw [hp]; rfl)
    have hm := o.entry i name q hp
    rw [abs_held hw (by rw [hp]; rfl)] at w
    obtain ⟨x, hx, hn, hcl⟩ := w.entry _ hm
    have hk := lookup_mem w hm
    simp only at hx hn
    simp only [callerStep, hp, hx, hcl, Bool.false_eq_true, if_false, Option.some.injEq] at h
    subst h
    refine ⟨?_, .inr ⟨.recvClose q, ?_⟩⟩
    · have hnm := closeCh_name s.bus q x hx
      have hu : ∀ q', (name, q') ∈ s.bus.map → q' = q := by
        intro q' hq'
        have := w.key_unique hq' hm rfl
        simpa using this
      have hnew : (closeCh s.bus q x).rcvs[q]? = some { x with closed := true } := by
        simp [closeCh, getElem?_lt hx]
      obtain ⟨o1, o2, o3, o4, o5, o6, o7, o8, o8', o9, o10, o11⟩ := o
      constructor <;> simp only [IState.goto, upd] <;> grind [WPC.crit, WPC.self, WPC.past, closeCh]
    · rw [abs_held hw (by rw [hp]; rfl), abs_gone (i := i) (name := name) (by exact hw) (by simp [IState.goto, upd, WPC.gone])]
      simp [step, hl, hn, hk, hx, hcl, closeCh]
  | b91 name =>
    have hw := held (by rw [hp]; rfl)
    have oth := fun j => others j (by rw [hp]; rfl)
    simp only [callerStep, hp, Option.some.injEq] at h
    subst h
    refine ⟨?_, .inl ?_⟩
    · obtain ⟨o1, o2, o3, o4, o5, o6, o7, o8, o8', o9, o10, o11⟩ := o
      constructor <;> simp only [IState.goto, upd] <;> grind [WPC.crit, WPC.self, WPC.past]
    · rw [abs_gone hw (by rw [hp]; rfl), abs_held (i := i) (by exact hw) (by simp [IState.goto, upd, WPC.gone])]
  | unlock b =>
    have hw := held (by rw [hp]; rfl)
    have hl := lockable_of o hw (by rw [hp]; simp)
    have oth := fun j => others j (by rw [hp]; rfl)
    simp only [callerStep, hp, Option.some.injEq] at h
    subst h
    cases b with
    | false =>
      refine ⟨?_, .inl ?_⟩
      · obtain ⟨o1, o2, o3, o4, o5, o6, o7, o8, o8', o9, o10, o11⟩ := o
        constructor <;> simp only [IState.goto, upd] <;> grind [WPC.crit, WPC.self, WPC.past]
      · rw [abs_held hw (by rw [hp]; rfl), abs_free (s := { s.goto i .idle with writer := _, bus := _ }) rfl]
        simp
    | true =>
      have he := o.empty i hp
      have hcl := (o.past i (by rw [hp]; rfl)).1
      refine ⟨?_, .inr ⟨.busClose2, ?_⟩⟩
      · obtain ⟨o1, o2, o3, o4, o5, o6, o7, o8, o8', o9, o10, o11⟩ := o
        constructor <;> simp only [IState.goto, upd] <;> grind [WPC.crit, WPC.self, WPC.past]
      · rw [abs_held hw (by rw [hp]; rfl), abs_free (s := { s.goto i .idle with writer := _, bus := _ }) rfl]
        simp [step, hcl, hl, he, closeAll]

theorem sim_step {s s' : IState ε} (o : IInv s) (w : Wf s.abs) {a : IAct ε} (h : iStep s a = some s') : Sim s s' := by
  have free : ∀ (d : Nat) v rem, s.bus.disp[d]? = some (.visiting v rem) → s.writer = none := by
    intro d v rem hd
    cases hw : s.writer with
    | none => rfl
    | some i =>
      have := (o.rd d).2 ⟨v, rem, hd⟩
      rw [o.excl (by rw [hw]; simp)] at this
      simp at this
  cases a with
  | newRecv i name cap strat =>
    simp only [iStep] at h
    split at h <;> simp only [Option.some.injEq, reduceCtorEq] at h
    rename_i hi
    subst h
    refine ⟨?_, .inl ?_⟩
    · obtain ⟨o1, o2, o3, o4, o5, o6, o7, o8, o8', o9, o10, o11⟩ := o
      constructor <;> simp only [IState.goto, upd] <;> grind [WPC.crit, WPC.self, WPC.past]
    · simp only [IState.abs, IState.goto]
      cases hw : s.writer with
      | none => rfl
      | some j =>
        have : j ≠ i := by
          rintro rfl
          have := (o.lock j).2 hw
          rw [hi] at this; simp [WPC.crit] at this
        simp [upd, this]
  | recvClose i r =>
    simp only [iStep] at h
    (repeat' split at h) <;> simp only [Option.some.injEq, reduceCtorEq] at h
    rename_i me hme hi
    subst h
    refine ⟨?_, .inl ?_⟩
    · obtain ⟨o1, o2, o3, o4, o5, o6, o7, o8, o8', o9, o10, o11⟩ := o
      constructor <;> simp only [IState.goto, upd] <;> grind [WPC.crit, WPC.self, WPC.past]
    · simp only [IState.abs, IState.goto]
      cases hw : s.writer with
      | none => rfl
      | some j =>
        have : j ≠ i := by
          rintro rfl
          have := (o.lock j).2 hw
          rw [hi] at this; simp [WPC.crit] at this
        simp [upd, this]
  | busClose i =>
    simp only [iStep] at h
    split at h <;> simp only [Option.some.injEq, reduceCtorEq] at h
    rename_i hi
    subst h
    refine ⟨?_, .inl ?_⟩
    · obtain ⟨o1, o2, o3, o4, o5, o6, o7, o8, o8', o9, o10, o11⟩ := o
      constructor <;> simp only [IState.goto, upd] <;> grind [WPC.crit, WPC.self, WPC.past]
    · simp only [IState.abs, IState.goto]
      cases hw : s.writer with
      | none => rfl
      | some j =>
        have : j ≠ i := by
          rintro rfl
          have := (o.lock j).2 hw
          rw [hi] at this; simp [WPC.crit] at this
        simp [upd, this]
  | caller i c => exact sim_caller o w h
  | rlock d =>
    simp only [iStep] at h
    (repeat' split at h) <;> simp only [Option.some.injEq, reduceCtorEq] at h
    rename_i v hd hw
    have hwed : s.bus.wedged = false := by
      cases hx : s.bus.wedged with
      | false => rfl
      | true =>
        obtain ⟨j, hj⟩ := o.wedge hx
        have := (o.lock j).1 (by rw [hj]; rfl)
        rw [hw] at this; simp at this
    subst h
    refine ⟨inv_same o ⟨rfl, rfl, rfl, rfl, fun r c hc => ⟨c, hc, rfl, rfl⟩⟩ rfl rfl (by simp [hw]) ?_ ?_, .inr ⟨.rlock d, ?_⟩⟩
    · intro d'
      simp only [List.mem_cons, o.rd d']
      by_cases e : d = d'
      · subst e; simp [getElem?_lt hd]
      · simp [List.getElem?_set_ne e, Ne.symm e]
    · intro d' r hr
      obtain ⟨v', rem, h1, h2⟩ := o.pick d' r hr
      have : d ≠ d' := by rintro rfl; rw [hd] at h1; simp at h1
      exact ⟨v', rem, by simp [List.getElem?_set_ne this, h1], h2⟩
    · refine (congrArg (fun t => step t (.rlock d)) (abs_free hw)).trans ?_
      refine Eq.trans ?_ (congrArg some (abs_free (by exact hw))).symm
      simp only [step, hd, hwed]
      rfl
  | pick d r =>
    simp only [iStep] at h
    (repeat' split at h) <;> simp only [Option.some.injEq, reduceCtorEq] at h
    rename_i v rem hd hc
    subst h
    refine ⟨inv_same o ⟨rfl, rfl, rfl, rfl, fun r c hc => ⟨c, hc, rfl, rfl⟩⟩ rfl rfl o.excl o.rd ?_, .inl rfl⟩
    intro d' r' hr
    simp only [upd] at hr
    split at hr
    · rename_i e; subst e
      simp at hr; subst hr
      exact ⟨v, rem, hd, hc.2.1⟩
    · exact o.pick d' r' hr
  | visit d k =>
    simp only [iStep] at h
    split at h
    · rename_i r hr
      cases hs : step s.bus (.visit d r k) with
      | none => simp [hs] at h
      | some b =>
        simp only [hs, Option.map_some, Option.some.injEq] at h
        subst h
        obtain ⟨v, rem, hd, hm⟩ := o.pick d r hr
        have hw := free d v rem hd
        rw [abs_free hw] at w
        obtain ⟨x, hx, hxo, -⟩ := w.mem_open ((w.rem d v rem hd).2 r hm)
        obtain ⟨hsame, v', rem', hd', he⟩ := visit_same (fun c hc => by rw [hx] at hc; simp at hc; subst hc; exact hxo) hs
        refine ⟨inv_same o hsame rfl rfl (by simp [hw]) ?_ ?_, .inr ⟨.visit d r k, ?_⟩⟩
        · intro d'
          rw [o.rd d', he]
          by_cases e : d = d'
          · subst e; exact ⟨fun _ => ⟨_, _, by rw [List.getElem?_set, if_pos rfl, if_pos (getElem?_lt hd)]⟩, fun _ => ⟨_, _, hd⟩⟩
          · simp [List.getElem?_set_ne e]
        · intro d' r' hr'
          simp only [upd] at hr'
          split at hr'
          · simp at hr'
          · rename_i e
            obtain ⟨v1, rem1, h1, h2⟩ := o.pick d' r' hr'
            exact ⟨v1, rem1, by rw [he, List.getElem?_set_ne (Ne.symm e)]; exact h1, h2⟩
        · rw [abs_free hw, hs, abs_free (s := { s with bus := b, at' := _ }) hw]
    · simp at h
  | recvFrom k d =>
    simp only [iStep] at h
    split at h
    · rename_i rd hrd
      split at h
      · rename_i hat
        cases hs : step s.bus (.recvFrom k d) with
        | none => simp [hs] at h
        | some b =>
          simp only [hs, Option.map_some, Option.some.injEq] at h
          subst h
          obtain ⟨hsame, v, rem, hd, r0, he⟩ := from_same hs
          have hw := free d v rem hd
          refine ⟨inv_same o hsame rfl rfl (by simp [hw]) ?_ ?_, .inr ⟨.recvFrom k d, ?_⟩⟩
          · intro d'
            rw [o.rd d', he]
            by_cases e : d = d'
            · subst e; exact ⟨fun _ => ⟨_, _, by rw [List.getElem?_set, if_pos rfl, if_pos (getElem?_lt hd)]⟩, fun _ => ⟨_, _, hd⟩⟩
            · simp [List.getElem?_set_ne e]
          · intro d' r' hr'
            simp only [upd] at hr'
            split at hr'
            · simp at hr'
            · rename_i e
              obtain ⟨v1, rem1, h1, h2⟩ := o.pick d' r' hr'
              exact ⟨v1, rem1, by rw [he, List.getElem?_set_ne (Ne.symm e)]; exact h1, h2⟩
          · rw [abs_free hw, hs, abs_free (s := { s with bus := b, at' := _ }) hw]
      · simp at h
    · simp at h
  | runlock d =>
    simp only [iStep] at h
    (repeat' split at h) <;> simp only [Option.some.injEq, reduceCtorEq] at h
    rename_i v rem hd hc
    subst h
    have hw := free d v rem hd
    rw [abs_free hw] at w
    have hrem : rem = [] := by
      cases rem with
      | nil => rfl
      | cons r rem => exact absurd ((w.rem d v _ hd).2 r (by simp)) (hc.2 r (by simp))
    refine ⟨inv_same o ⟨rfl, rfl, rfl, rfl, fun r c hc => ⟨c, hc, rfl, rfl⟩⟩ rfl rfl (by simp [hw]) ?_ ?_, .inr ⟨.runlock d, ?_⟩⟩
    · intro d'
      simp only [List.mem_filter, o.rd d', decide_eq_true_eq]
      by_cases e : d = d'
      · subst e; simp [getElem?_lt hd]
      · simp [List.getElem?_set_ne e, Ne.symm e]
    · intro d' r' hr'
      obtain ⟨v1, rem1, h1, h2⟩ := o.pick d' r' hr'
      have : d ≠ d' := by rintro rfl; rw [hc.1] at hr'; simp at hr'
      exact ⟨v1, rem1, by simp [List.getElem?_set_ne this, h1], h2⟩
    · refine (congrArg (fun t => step t (.runlock d)) (abs_free hw)).trans ?_
      refine Eq.trans ?_ (congrArg some (abs_free (by exact hw))).symm
      subst hrem
      simp only [step, hd]
  | plain a =>
    simp only [iStep] at h
    split at h
    · rename_i ha
      cases hs : step s.bus a with
      | none => simp [hs] at h
      | some b =>
        simp only [hs, Option.map_some, Option.some.injEq] at h
        subst h
        have hv := plain_visiting ha hs
        refine ⟨inv_same o (same_plain ha hs) rfl rfl o.excl ?_ ?_, .inr ⟨a, ?_⟩⟩
        · intro d; simp only [hv]; exact o.rd d
        · intro d r hr; simp only [hv]; exact o.pick d r hr
        · simp only [IState.abs]
          split
          · rename_i name hg
            rw [step_map ha, hs, (same_plain ha hs).map]
            rfl
          · exact hs
    · simp at h

theorem ireach_inv {n : Nat} {s : IState ε} (h : IReach n s) : IInv s ∧ Reach n s.abs := by
  refine Reachable.inv (I := fun s => IInv s ∧ Reach n s.abs) h ⟨inv_new n, ?_⟩ ?_
  · exact Reachable.refl _
  · rintro s a s' ⟨o, hr⟩ hs
    obtain ⟨o', he | ⟨b, hb⟩⟩ := sim_step o (reach_wf hr) hs
    · exact ⟨o', by rw [he]; exact hr⟩
    · exact ⟨o', hr.trans (Reachable.step b hb)⟩

/-! ### The theorems -/

/-- **C142.**  No data race on `recvMap`. -/
theorem C142_race_free (n : Nat) (s : IState ε) (h : IReach n s) : ¬ Race s := by
  obtain ⟨o, -⟩ := ireach_inv h
  have C : ∀ i w, s.access (.caller i) = some w → s.writer = some i := by
    intro i w hi
    refine (o.lock i).1 ?_
    simp only [IState.access] at hi
    cases hp : s.callers i <;> simp_all [WPC.access, WPC.crit]
  have D : ∀ d w, s.access (.disp d) = some w → w = false ∧ s.writer = none := by
    intro d w hd
    simp only [IState.access] at hd
    (repeat' split at hd) <;> simp only [Option.some.injEq, reduceCtorEq] at hd
    rename_i v rem hv _
    refine ⟨hd.symm, ?_⟩
    cases hw : s.writer with
    | none => rfl
    | some i =>
      have := (o.rd d).2 ⟨v, rem, hv⟩
      rw [o.excl (by rw [hw]; simp)] at this
      simp at this
  rintro ⟨a, b, w, w', hne, ha, hb, hw⟩
  cases a with
  | caller i =>
    have h1 := C _ _ ha
    cases b with
    | caller j =>
      have h2 := C _ _ hb
      rw [h1] at h2
      simp at h2
      exact hne (by rw [h2])
    | disp d => rw [(D _ _ hb).2] at h1; simp at h1
  | disp d =>
    obtain ⟨rfl, h1⟩ := D _ _ ha
    cases b with
    | caller j => have h2 := C _ _ hb; rw [h1] at h2; simp at h2
    | disp d' =>
      obtain ⟨rfl, -⟩ := D _ _ hb
      simp at hw

/-- **C142.**  What happens with single instructions happens in Model.lean: it reaches a state with the same channels, readers,
dispatchers and log; the map is the same when no caller has the lock. -/
theorem C142_refines (n : Nat) (s : IState ε) (h : IReach n s) :
    ∃ t, Reach n t ∧ t.ch = s.bus.ch ∧ t.chClosed = s.bus.chClosed ∧ t.rcvs = s.bus.rcvs ∧ t.disp = s.bus.disp ∧ t.rds = s.bus.rds ∧
      t.log = s.bus.log ∧ (s.writer = none → t = s.bus) := by
  refine ⟨s.abs, (ireach_inv h).2, ?_, ?_, ?_, ?_, ?_, ?_, abs_free⟩ <;> (simp only [IState.abs]; split <;> rfl)

/-- **C142.**  Dispatchers do not panic, and neither does the loop of FanOutBus.Close. -/
theorem C142_panics (n : Nat) (s : IState ε) (h : IReach n s) :
    (∀ d, Ev.dispPanic d ∉ s.bus.log) ∧
    ∀ i name q, s.callers i = .b90 name q → ∀ c, ∃ s', iStep s (.caller i c) = some s' ∧ s'.callers i = .b91 name := by
  obtain ⟨o, hr⟩ := ireach_inv h
  refine ⟨?_, ?_⟩
  · obtain ⟨t, ht, -, -, -, -, -, hlog, -⟩ := C142_refines n s h
    rw [← hlog]
    exact fun d => C35_no_send_on_closed ht d
  · intro i name q hp c
    have hw := (o.lock i).1 (by rw [hp]; rfl)
    have w := reach_wf hr
    rw [abs_held hw (by rw [hp]; rfl)] at w
    obtain ⟨x, hx, -, hcl⟩ := w.entry _ (o.entry i name q hp)
    simp only at hx
    exact ⟨_, by simp only [iStep, callerStep, hp, hx, hcl]; rfl, by simp [IState.goto, upd]⟩

/-- How many instructions a caller still has to make until it has unlocked. -/
def WPC.left (m : Nat) : WPC → Nat
  | .n74 _ _ _ => 2
  | .c108 _ _ => 4
  | .c108c _ _ _ => 3
  | .c109 _ => 2
  | .b89 => 3 * m + 2
  | .b90 _ _ => 3 * m + 1
  | .b91 _ => 3 * m
  | .unlock _ => 1
  | _ => 0

/-- **C142.**  A caller with the lock is not held up: unless it panicked, it can make its next instruction, and each takes it nearer to
its Unlock. -/
theorem C142_holder (n : Nat) (s : IState ε) (h : IReach n s) (i : Nat) (hw : s.writer = some i) :
    s.callers i = .dead ∨ (∃ s', iStep s (.caller i 0) = some s') ∧
      ∀ c s', iStep s (.caller i c) = some s' → (s'.callers i).left s'.bus.map.length < (s.callers i).left s.bus.map.length := by
  obtain ⟨o, hr⟩ := ireach_inv h
  have w := reach_wf hr
  have hcr := (o.lock i).2 hw
  cases hp : s.callers i with
  | dead => exact .inl rfl
  | c108 r name =>
    right
    refine ⟨?_, ?_⟩
    · simp only [iStep, callerStep, hp]
      split <;> exact ⟨_, rfl⟩
    · intro c s' hs
      simp only [iStep, callerStep, hp] at hs
      split at hs <;> simp only [Option.some.injEq] at hs <;> subst hs <;> simp [IState.die, IState.goto, upd, WPC.left]
  | c108c r name q =>
    right
    have hm := lookup_some (o.found i r name q hp)
    rw [abs_held hw (by rw [hp]; rfl)] at w
    obtain ⟨x, hx, -, hcl⟩ := w.entry _ hm
    simp only at hx
    refine ⟨⟨_, by simp only [iStep, callerStep, hp, hx, hcl]; rfl⟩, ?_⟩
    intro c s' hs
    simp only [iStep, callerStep, hp, hx, hcl, Bool.false_eq_true, if_false, Option.some.injEq] at hs
    subst hs
    simp [IState.goto, upd, WPC.left]
  | b89 =>
    right
    refine ⟨?_, ?_⟩
    · simp only [iStep, callerStep, hp]
      cases hm : s.bus.map with
      | nil => exact ⟨_, rfl⟩
      | cons p m => exact ⟨_, rfl⟩
    · intro c s' hs
      simp only [iStep, callerStep, hp] at hs
      (repeat' split at hs) <;> simp only [Option.some.injEq, reduceCtorEq] at hs <;> subst hs <;> simp [IState.goto, upd, WPC.left]
  | b90 name q =>
    right
    rw [abs_held hw (by rw [hp]; rfl)] at w
    obtain ⟨x, hx, -, hcl⟩ := w.entry _ (o.entry i name q hp)
    simp only at hx
    refine ⟨⟨_, by simp only [iStep, callerStep, hp, hx, hcl]; rfl⟩, ?_⟩
    intro c s' hs
    simp only [iStep, callerStep, hp, hx, hcl, Bool.false_eq_true, if_false, Option.some.injEq] at hs
    subst hs
    simp [IState.goto, upd, WPC.left, closeCh]
  | b91 name =>
    right
    obtain ⟨⟨q, hq⟩, -⟩ := o.del i name hp
    have hlt : (without s.bus.map name).length < s.bus.map.length := by
      refine List.length_filter_lt_length_iff_exists.2 ⟨_, hq, by simp⟩
    refine ⟨⟨_, by simp only [iStep, callerStep, hp]; rfl⟩, ?_⟩
    intro c s' hs
    simp only [iStep, callerStep, hp, Option.some.injEq] at hs
    subst hs
    simp only [IState.goto, upd, if_true, WPC.left]
    omega
  | _ =>
    first
    | (rw [hp] at hcr; simp [WPC.crit] at hcr; done)
    | (right
       refine ⟨⟨_, by simp only [iStep, callerStep, hp]; rfl⟩, ?_⟩
       intro c s' hs
       simp only [iStep, callerStep, hp, Option.some.injEq] at hs
       subst hs
       simp [IState.goto, upd, WPC.left])

/-- In the loop of FanOutBus.Close. -/
def WPC.loops : WPC → Bool
  | .b89 | .b90 _ _ | .b91 _ => true
  | _ => false

theorem closed_mono {s s' : IState ε} (o : IInv s) (w : Wf s.abs) {a : IAct ε} (h : iStep s a = some s') {r : Nat} {c : Rcv ε}
    (hc : s.bus.rcvs[r]? = some c) (hcl : c.closed = true) : ∃ c', s'.bus.rcvs[r]? = some c' ∧ c'.closed = true := by
  have hset : ∀ q x, s.bus.rcvs[q]? = some x → ∃ c', (closeCh s.bus q x).rcvs[r]? = some c' ∧ c'.closed = true := by
    intro q x hx
    simp only [closeCh, List.getElem?_set]
    split
    · rename_i e; subst e
      simp [getElem?_lt hx]
    · exact ⟨c, hc, hcl⟩
  cases a with
  | caller i j =>
    simp only [iStep, callerStep, IState.lock] at h
    (repeat' split at h) <;> simp only [Option.some.injEq, reduceCtorEq] at h <;> subst h <;>
      first
      | exact ⟨c, hc, hcl⟩
      | exact hset _ _ (by assumption)
      | exact ⟨c, by simp only; rw [List.getElem?_append_left (getElem?_lt hc)]; exact hc, hcl⟩
  | visit d k =>
    simp only [iStep] at h
    split at h
    · rename_i r' hr'
      cases hs : step s.bus (.visit d r' k) with
      | none => simp [hs] at h
      | some b =>
        simp only [hs, Option.map_some, Option.some.injEq] at h
        subst h
        obtain ⟨v, rem, hd, hm⟩ := o.pick d r' hr'
        have hw : s.writer = none := by
          cases hw : s.writer with
          | none => rfl
          | some i =>
            have := (o.rd d).2 ⟨v, rem, hd⟩
            rw [o.excl (by rw [hw]; simp)] at this
            simp at this
        rw [abs_free hw] at w
        obtain ⟨x, hx, hxo, -⟩ := w.mem_open ((w.rem d v rem hd).2 r' hm)
        obtain ⟨hsame, -⟩ := visit_same (fun c hc => by rw [hx] at hc; simp at hc; subst hc; exact hxo) hs
        obtain ⟨c', h1, -, h2⟩ := hsame.rcvs r c hc
        exact ⟨c', h1, h2.trans hcl⟩
    · simp at h
  | recvFrom k d =>
    simp only [iStep] at h
    (repeat' split at h) <;> try (simp only [reduceCtorEq] at h)
    cases hs : step s.bus (.recvFrom k d) with
    | none => simp [hs] at h
    | some b =>
      simp only [hs, Option.map_some, Option.some.injEq] at h
      subst h
      obtain ⟨c', h1, -, h2⟩ := (from_same hs).1.rcvs r c hc
      exact ⟨c', h1, h2.trans hcl⟩
  | plain a =>
    simp only [iStep] at h
    split at h
    · rename_i ha
      cases hs : step s.bus a with
      | none => simp [hs] at h
      | some b =>
        simp only [hs, Option.map_some, Option.some.injEq] at h
        subst h
        obtain ⟨c', h1, -, h2⟩ := (same_plain ha hs).rcvs r c hc
        exact ⟨c', h1, h2.trans hcl⟩
    · simp at h
  | _ =>
    simp only [iStep] at h
    (repeat' split at h) <;> simp only [Option.some.injEq, reduceCtorEq] at h <;> subst h <;> exact ⟨c, hc, hcl⟩

/-- While caller `i` is in the loop of FanOutBus.Close, nobody else changes the map. -/
theorem loop_frame {s s' : IState ε} (o : IInv s) {a : IAct ε} (h : iStep s a = some s') {i : Nat}
    (hl : (s.callers i).loops = true) (ha : ∀ c, a ≠ .caller i c) : s'.callers i = s.callers i ∧ s'.bus.map = s.bus.map := by
  have hcr : (s.callers i).crit = true := by cases hp : s.callers i <;> simp_all [WPC.loops, WPC.crit]
  have hw := (o.lock i).1 hcr
  have hidle : s.callers i ≠ .idle := by intro e; rw [e] at hcr; simp [WPC.crit] at hcr
  have hget : ∀ (j : Nat) (p : WPC), j ≠ i → upd s.callers j p i = s.callers i := by intro j p hj; simp [upd, Ne.symm hj]
  have nov : ∀ (d : Nat) v rem, s.bus.disp[d]? ≠ some (.visiting v rem) := by
    intro d v rem hd
    have := (o.rd d).2 ⟨v, rem, hd⟩
    rw [o.excl (by rw [hw]; simp)] at this
    simp at this
  cases a with
  | caller j c =>
    have hj : j ≠ i := by rintro rfl; exact ha c rfl
    have hnc : (s.callers j).crit = false := by
      cases hx : (s.callers j).crit with
      | false => rfl
      | true =>
        have := (o.lock j).1 hx
        rw [hw] at this; simp at this; exact absurd this.symm hj
    cases hp : s.callers j <;> rw [hp] at hnc <;> simp only [WPC.crit, Bool.true_eq_false] at hnc <;>
      simp only [iStep, callerStep, hp, IState.lock, hw] at h <;> (repeat' split at h) <;>
      simp only [Option.some.injEq, reduceCtorEq] at h <;> (subst h; exact ⟨hget j _ hj, rfl⟩)
  | newRecv j name cap strat =>
    simp only [iStep] at h
    split at h <;> simp only [Option.some.injEq, reduceCtorEq] at h
    subst h
    exact ⟨hget j _ (by rintro rfl; exact hidle (by assumption)), rfl⟩
  | busClose j =>
    simp only [iStep] at h
    split at h <;> simp only [Option.some.injEq, reduceCtorEq] at h
    subst h
    exact ⟨hget j _ (by rintro rfl; exact hidle (by assumption)), rfl⟩
  | recvClose j r =>
    simp only [iStep] at h
    (repeat' split at h) <;> simp only [Option.some.injEq, reduceCtorEq] at h
    subst h
    exact ⟨hget j _ (by rintro rfl; exact hidle (by assumption)), rfl⟩
  | rlock d =>
    simp only [iStep] at h
    (repeat' split at h) <;> simp only [Option.some.injEq, reduceCtorEq] at h
    subst h; exact ⟨rfl, rfl⟩
  | pick d r =>
    simp only [iStep] at h
    (repeat' split at h) <;> simp only [Option.some.injEq, reduceCtorEq] at h
    subst h; exact ⟨rfl, rfl⟩
  | runlock d =>
    simp only [iStep] at h
    (repeat' split at h) <;> simp only [Option.some.injEq, reduceCtorEq] at h
    subst h; exact ⟨rfl, rfl⟩
  | visit d k =>
    simp only [iStep] at h
    split at h
    · rename_i r hr
      obtain ⟨v, rem, hd, -⟩ := o.pick d r hr
      exact absurd hd (nov d v rem)
    · simp at h
  | recvFrom k d =>
    simp only [iStep] at h
    (repeat' split at h) <;> try (simp only [reduceCtorEq] at h)
    rename_i rd _ hat
    obtain ⟨v, rem, hd, -⟩ := o.pick d _ hat
    exact absurd hd (nov d v rem)
  | plain a =>
    simp only [iStep] at h
    split at h
    · rename_i ha
      cases hs : step s.bus a with
      | none => simp [hs] at h
      | some b =>
        simp only [hs, Option.map_some, Option.some.injEq] at h
        subst h
        exact ⟨rfl, (same_plain ha hs).map⟩
    · simp at h

/-- **C142.**  FanOutBus.Close, once it has the lock and the loop is through, has closed the channels of all receivers that were in the map. -/
theorem C142_closes (n : Nat) (s s' : IState ε) (h : IReach n s) (i : Nat) (hp : s.callers i = .b89) (hr : Reachable iStep s s')
    (hp' : (s'.callers i).loops = false) (r : Nat) (hm : r ∈ ids s.bus.map) : ∃ c, s'.bus.rcvs[r]? = some c ∧ c.closed = true := by
  have key : IReach n s' ∧ ((∃ c, s'.bus.rcvs[r]? = some c ∧ c.closed = true) ∨ (s'.callers i).loops = true ∧ r ∈ ids s'.bus.map) := by
    refine hr.inv (I := fun s' => IReach n s' ∧ ((∃ c, s'.bus.rcvs[r]? = some c ∧ c.closed = true) ∨ (s'.callers i).loops = true ∧ r ∈ ids s'.bus.map))
      ⟨h, .inr ⟨by rw [hp]; rfl, hm⟩⟩ ?_
    rintro t a t' ⟨ht, hI⟩ hs
    obtain ⟨o, hre⟩ := ireach_inv ht
    refine ⟨ht.trans (Reachable.step a hs), ?_⟩
    rcases hI with ⟨c, hc, hcl⟩ | ⟨hl, hmem⟩
    · exact .inl (closed_mono o (reach_wf hre) hs hc hcl)
    · by_cases ha : ∃ c, a = .caller i c
      · obtain ⟨c, rfl⟩ := ha
        simp only [iStep] at hs
        cases hq : t.callers i with
        | b89 =>
          simp only [callerStep, hq] at hs
          (repeat' split at hs) <;> simp only [Option.some.injEq, reduceCtorEq] at hs <;> subst hs
          · exact .inr ⟨by simp [IState.goto, upd, WPC.loops], hmem⟩
          · rename_i he
            rw [he] at hmem
            simp [ids] at hmem
        | b90 name q =>
          simp only [callerStep, hq] at hs
          have w := reach_wf hre
          have hw := (o.lock i).1 (by rw [hq]; rfl)
          rw [abs_held hw (by rw [hq]; rfl)] at w
          obtain ⟨x, hx, -, hcl⟩ := w.entry _ (o.entry i name q hq)
          simp only at hx
          simp only [hx, hcl, Bool.false_eq_true, if_false, Option.some.injEq] at hs
          subst hs
          exact .inr ⟨by simp [IState.goto, upd, WPC.loops], hmem⟩
        | b91 name =>
          simp only [callerStep, hq, Option.some.injEq] at hs
          subst hs
          obtain ⟨⟨m, q⟩, hpm, rfl⟩ := mem_ids.1 hmem
          by_cases e : m = name
          · subst e
            exact .inl ((o.del i m hq).2 q hpm)
          · exact .inr ⟨by simp [IState.goto, upd, WPC.loops], mem_ids.2 ⟨_, mem_without.2 ⟨hpm, e⟩, rfl⟩⟩
        | _ => rw [hq] at hl; simp [WPC.loops] at hl
      · obtain ⟨h1, h2⟩ := loop_frame o hs hl (fun c hc => ha ⟨c, hc⟩)
        exact .inr ⟨by rw [h1]; exact hl, by rw [h2]; exact hmem⟩
  rcases key.2 with hk | ⟨hk, -⟩
  · exact hk
  · rw [hp'] at hk; simp at hk

/-! ### Executions -/

/-- Non-vacuity: two receivers; FanOutBus.Close has closed the channel of the first, a reader of it has seen that, the reader of the
second waits still. -/
example : ∃ s : IState Nat, IReach 0 s ∧ s.callers 0 = .b91 "a" ∧ s.bus.map = [("a", 0), ("b", 1)] ∧
    s.bus.rcvs.map (·.closed) = [true, false] ∧ s.bus.rds.map (·.data) = [[none], []] ∧ s.bus.rds.map (·.st) = [.run, .parked] :=
  ⟨_, ⟨[.newRecv 0 "a" 1 .drop, .caller 0 0, .caller 0 0, .caller 0 0, .newRecv 0 "b" 1 .drop, .caller 0 0, .caller 0 0, .caller 0 0,
    .plain (.startRead 0 false), .plain (.startRead 1 false), .plain (.recv 0), .plain (.recv 1), .busClose 0, .caller 0 0, .caller 0 0,
    .caller 0 0, .caller 0 0], rfl⟩, by decide, by decide, by decide, by decide, by decide⟩

/-- Non-vacuity: a dispatcher is in the loop, and a caller of NewRecv waits; the dispatcher goes on, the caller cannot. -/
example : ∃ s : IState Nat, IReach 0 s ∧ s.access (.disp 0) = some false ∧ s.callers 1 = .n73 "b" 1 .drop ∧
    (iStep s (.caller 1 0)).isNone ∧ (iStep s (.pick 0 0)).isSome :=
  ⟨_, ⟨[.newRecv 0 "a" 1 .drop, .caller 0 0, .caller 0 0, .caller 0 0, .plain .goDispatch, .plain (.sendTo 0 7), .rlock 0,
    .newRecv 1 "b" 1 .drop], rfl⟩, by decide, by decide, by decide, by decide⟩

end Gears.Bus.Instr
