import Verif.Bus.Inv
import Mathlib.Data.List.Induction

/-
What the log says (used in the statements of C33-C40) and invariants that relate it to the state.
-/

namespace Gears.Bus

variable {ε : Type}

/-! ### What the log says -/

/-- Events sent to the bus, in the order in which the sends completed. -/
def sentOf (l : List (Ev ε)) : List ε := l.filterMap (fun e => match e with | .sent v => some v | _ => none)

/-- Events whose dispatch started, in order. -/
def startsOf (l : List (Ev ε)) : List ε := l.filterMap (fun e => match e with | .start _ v => some v | _ => none)

/-- What was read from the channel of receiver `r`, in order. -/
def readOf (r : Nat) (l : List (Ev ε)) : List ε :=
  l.filterMap (fun e => match e with | .read q _ v => if q = r then some v else none | _ => none)

/-- What reading goroutine `k` read from the channel of receiver `r`, in order. -/
def readBy (k r : Nat) (l : List (Ev ε)) : List ε :=
  l.filterMap (fun e => match e with | .read q j v => if q = r ∧ j = k then some v else none | _ => none)

/-- What was put into the channel of receiver `r`, in order. -/
def deliverOf (r : Nat) (l : List (Ev ε)) : List ε :=
  l.filterMap (fun e => match e with | .deliver _ q v => if q = r then some v else none | _ => none)

/-- What dispatcher `d` put into the channel of receiver `r`, in order. -/
def deliverBy (d r : Nat) (l : List (Ev ε)) : List ε :=
  l.filterMap (fun e => match e with | .deliver d' q v => if d' = d ∧ q = r then some v else none | _ => none)

/-- Scan for `expected`. -/
structure Scan (ε : Type) where
  reg  : Bool
  pend : Option ε
  out  : List ε

def Scan.next (d r : Nat) (x : Scan ε) : Ev ε → Scan ε
  | .reg q => if q = r then { x with reg := true } else x
  | .unreg q => if q = r then { x with reg := false } else x
  | .start d' v => if d' = d then { x with pend := if x.reg then some v else none } else x
  | .fin d' => if d' = d then { x with pend := none, out := x.out ++ x.pend.toList } else x
  | _ => x

def scan (d r : Nat) (l : List (Ev ε)) : Scan ε := l.foldl (Scan.next d r) ⟨false, none, []⟩

/-- Is receiver `r` registered after this log? -/
def registered (r : Nat) (l : List (Ev ε)) : Bool :=
  l.foldl (fun b e => match e with
    | .reg q => if q = r then true else b
    | .unreg q => if q = r then false else b
    | _ => b) false

/-- Events whose dispatch by `d` started while receiver `r` was registered, and has ended. -/
def expected (d r : Nat) (l : List (Ev ε)) : List ε := (scan d r l).out

theorem filterMap_closing {α : Type} {f : Ev ε → Option α} (hf : ∀ e : Ev ε, e.isClosing → f e = none)
    {suf : List (Ev ε)} (h : ∀ e ∈ suf, e.isClosing) : suf.filterMap f = [] := by
  rw [List.filterMap_eq_nil_iff]
  exact fun e he => hf e (h e he)

theorem filterMap_unreg {α : Type} {f : Ev ε → Option α} (hf : ∀ r, f (.unreg r) = none) (o : Option Nat) :
    (o.toList.map Ev.unreg).filterMap f = [] := by
  cases o <;> simp [hf]

/-! ### Channel contents -/

/-- What was delivered has been read or is in the buffer. -/
def Buf (s : State ε) : Prop :=
  (∀ (r : Nat) c, s.rcvs[r]? = some c → deliverOf r s.log = readOf r s.log ++ c.buf) ∧
  (∀ r : Nat, s.rcvs.length ≤ r → deliverOf r s.log = [] ∧ readOf r s.log = [])

theorem buf_of_log {s s' : State ε} (h : Buf s) (hr : s'.rcvs = s.rcvs) (hl : ∃ suf, s'.log = s.log ++ suf ∧
    ∀ r, deliverOf r suf = [] ∧ readOf r suf = []) : Buf s' := by
  obtain ⟨suf, he, hn⟩ := hl
  constructor
  · intro r c hc
    rw [hr] at hc
    have := h.1 r c hc
    rw [he]
    have h1 := (hn r).1
    have h2 := (hn r).2
    unfold deliverOf at *
    unfold readOf at *
    rw [List.filterMap_append, List.filterMap_append, h1, h2, this]
    simp
  · intro r hrr
    rw [hr] at hrr
    have := h.2 r hrr
    rw [he]
    have h1 := (hn r).1
    have h2 := (hn r).2
    unfold deliverOf at *
    unfold readOf at *
    rw [List.filterMap_append, List.filterMap_append, h1, h2, this.1, this.2]
    simp

theorem buf_tr {s s' : State ε} (w : Wf s) (h : Buf s) (t : Tr s s') : Buf s' := by
  cases t with
  | sendPanic _ => exact buf_of_log h rfl ⟨_, rfl, by simp [deliverOf, readOf]⟩
  | send v _ _ => exact buf_of_log h rfl ⟨_, rfl, by simp [deliverOf, readOf]⟩
  | sendTo d v _ _ _ => exact buf_of_log h rfl ⟨_, rfl, by simp [deliverOf, readOf]⟩
  | goDispatch => exact buf_of_log h rfl ⟨[], by simp, by simp [deliverOf, readOf]⟩
  | take d v ch _ _ => exact buf_of_log h rfl ⟨[], by simp, by simp [deliverOf, readOf]⟩
  | gone d _ _ _ => exact buf_of_log h rfl ⟨[], by simp, by simp [deliverOf, readOf]⟩
  | rlock d v _ _ => exact buf_of_log h rfl ⟨_, rfl, by simp [deliverOf, readOf]⟩
  | skip d r v rem c _ _ _ _ => exact buf_of_log h rfl ⟨[], by simp, by simp [deliverOf, readOf]⟩
  | hand d r k v rem c rd hd hr hc hop hs hk hp hrr =>
    have hb : c.buf = [] := by
      obtain ⟨c', hc', hh⟩ := w.rdr k rd hk
      rw [hrr, hc] at hc'
      simp at hc'; subst hc'
      rcases hp with hp | hp
      · exact (hh hp).1
      · exact hp.2
    constructor
    · intro q x hx
      have := h.1 q x hx
      by_cases hq : r = q
      · subst hq
        simp only at hx
        rw [hc] at hx; simp at hx; subst hx
        simp [deliverOf, readOf, hb] at this ⊢
        exact this
      · simp [deliverOf, readOf, hq] at this ⊢
        exact this
    · intro q hq
      have hq' : s.rcvs.length ≤ q := hq
      have := h.2 q hq
      have hlt := getElem?_lt hc
      have hne : r ≠ q := by omega
      simp [deliverOf, readOf, hne] at this ⊢
      exact this
  | buffer d r v rem c hd hr hc hop hs hw hl =>
    constructor
    · intro q x hx
      rcases set_some hx with ⟨hq, he⟩ | ⟨hq, he⟩
      · subst hq; subst he
        have := h.1 r c hc
        simp [deliverOf, readOf] at this ⊢
        rw [this]; simp
      · have := h.1 q x he
        simp [deliverOf, readOf, hq] at this ⊢
        exact this
    · intro q hq
      simp only [List.length_set] at hq
      have := h.2 q hq
      have hlt := getElem?_lt hc
      have hne : r ≠ q := by omega
      simp [deliverOf, readOf, hne] at this ⊢
      exact this
  | dropped d r v rem c _ _ _ _ _ _ _ => exact buf_of_log h rfl ⟨_, rfl, by simp [deliverOf, readOf]⟩
  | runlock d v _ => exact buf_of_log h rfl ⟨_, rfl, by simp [deliverOf, readOf]⟩
  | newRecv name cap strat hl =>
    have hd : ∀ r, deliverOf r (((lookup s.map name).toList.map Ev.unreg ++ [.reg s.rcvs.length] : List (Ev ε))) = [] := by
      intro r
      unfold deliverOf
      rw [List.filterMap_append, filterMap_unreg (by simp)]
      simp
    have hrd : ∀ r, readOf r (((lookup s.map name).toList.map Ev.unreg ++ [.reg s.rcvs.length] : List (Ev ε))) = [] := by
      intro r
      unfold readOf
      rw [List.filterMap_append, filterMap_unreg (by simp)]
      simp
    have e1 : ∀ r, deliverOf r (s.log ++ ((lookup s.map name).toList.map Ev.unreg ++ [.reg s.rcvs.length])) = deliverOf r s.log := by
      intro r
      have := hd r
      unfold deliverOf at *
      rw [List.filterMap_append, this, List.append_nil]
    have e2 : ∀ r, readOf r (s.log ++ ((lookup s.map name).toList.map Ev.unreg ++ [.reg s.rcvs.length])) = readOf r s.log := by
      intro r
      have := hrd r
      unfold readOf at *
      rw [List.filterMap_append, this, List.append_nil]
    constructor
    · intro r c hc
      simp only [e1, e2]
      rcases snoc_some hc with ⟨hq, he⟩ | ⟨hq, he⟩
      · subst hq; subst he
        have := h.2 s.rcvs.length (Nat.le_refl _)
        rw [this.1, this.2]; simp
      · exact h.1 r c he
    · intro r hr
      simp only [e1, e2]
      simp only [List.length_append, List.length_singleton] at hr
      exact h.2 r (by omega)
  | wedge r me _ _ _ => exact buf_of_log h rfl ⟨_, rfl, by simp [deliverOf, readOf]⟩
  | close s' rs hl hcl hm hrs =>
    obtain ⟨suf, he, hcs, _⟩ := hcl.log
    have e1 : ∀ r, deliverOf r s'.log = deliverOf r s.log := by
      intro r
      unfold deliverOf
      rw [he, List.filterMap_append, filterMap_closing (suf := suf) (by intro e; cases e <;> simp [Ev.isClosing]) hcs]
      simp
    have e2 : ∀ r, readOf r s'.log = readOf r s.log := by
      intro r
      unfold readOf
      rw [he, List.filterMap_append, filterMap_closing (suf := suf) (by intro e; cases e <;> simp [Ev.isClosing]) hcs]
      simp
    constructor
    · intro r c hc
      rw [hcl.rcvs, Option.map_eq_some_iff] at hc
      obtain ⟨c0, hc0, rfl⟩ := hc
      rw [e1, e2, h.1 r c0 hc0]
      by_cases hr : r ∈ rs <;> simp [hr]
    · intro r hr
      rw [e1, e2]
      apply h.2 r
      rw [← List.getElem?_eq_none_iff] at hr ⊢
      rw [hcl.rcvs] at hr
      simpa using hr
  | busPanic _ => exact buf_of_log h rfl ⟨_, rfl, by simp [deliverOf, readOf]⟩
  | busClose1 _ => exact buf_of_log h rfl ⟨[], by simp, by simp [deliverOf, readOf]⟩
  | startRead r drain hl => exact buf_of_log h rfl ⟨[], by simp, by simp [deliverOf, readOf]⟩
  | readBuf k rd c v buf hk hst hc hb =>
    constructor
    · intro q x hx
      rcases set_some hx with ⟨hq, he⟩ | ⟨hq, he⟩
      · subst he
        have := h.1 rd.r c hc
        rw [hb] at this
        rw [← hq]
        simp [deliverOf, readOf] at this ⊢
        exact this
      · have := h.1 q x he
        simp [deliverOf, readOf, hq] at this ⊢
        exact this
    · intro q hq
      simp only [List.length_set] at hq
      have := h.2 q hq
      have hlt := getElem?_lt hc
      have hne : rd.r ≠ q := by omega
      simp [deliverOf, readOf, hne] at this ⊢
      exact this
  | readClosed k rd c _ _ _ _ _ => exact buf_of_log h rfl ⟨_, rfl, by simp [deliverOf, readOf]⟩
  | drained k rd c _ _ _ _ _ _ => exact buf_of_log h rfl ⟨[], by simp, by simp [deliverOf, readOf]⟩
  | park k rd c _ _ _ _ _ _ => exact buf_of_log h rfl ⟨[], by simp, by simp [deliverOf, readOf]⟩
  | timeout k rd _ _ => exact buf_of_log h rfl ⟨[], by simp, by simp [deliverOf, readOf]⟩

theorem reach_buf {n : Nat} {s : State ε} (h : Reach n s) : Buf s :=
  (reach_inv h (by constructor <;> simp [new, deliverOf, readOf]) (fun _ _ => buf_tr)).2

/-! ### Order -/

/-- The event a dispatcher has taken from the bus channel but not started to dispatch. -/
def pendOf : Option (DPC ε) → List ε
  | some (.got v) => [v]
  | _ => []

/-- With one dispatcher: events are dispatched in the order in which they were sent, and a receiver has got a
subsequence of the dispatched ones, without the current one if it has not been visited yet. -/
def Ord (s : State ε) : Prop :=
  s.disp.length ≤ 1 →
    sentOf s.log = startsOf s.log ++ pendOf s.disp[0]? ++ s.ch ∧
    (∀ r, (deliverOf r s.log).Sublist (startsOf s.log)) ∧
    (∀ v rem, s.disp[0]? = some (.visiting v rem) →
      ∃ l, startsOf s.log = l ++ [v] ∧ ∀ r ∈ rem, (deliverOf r s.log).Sublist l)

/-- Steps that touch neither the dispatcher nor the relevant part of the log. -/
theorem ord_frame {s s' : State ε} (h : Ord s) (hd : s'.disp = s.disp) (hch : s'.ch = s.ch)
    (hl : ∃ suf, s'.log = s.log ++ suf ∧ sentOf suf = [] ∧ startsOf suf = [] ∧ ∀ r, deliverOf r suf = []) : Ord s' := by
  obtain ⟨suf, he, h1, h2, h3⟩ := hl
  have e1 : sentOf s'.log = sentOf s.log := by
    unfold sentOf at *; rw [he, List.filterMap_append, h1, List.append_nil]
  have e2 : startsOf s'.log = startsOf s.log := by
    unfold startsOf at *; rw [he, List.filterMap_append, h2, List.append_nil]
  have e3 : ∀ r, deliverOf r s'.log = deliverOf r s.log := by
    intro r
    have := h3 r
    unfold deliverOf at *; rw [he, List.filterMap_append, this, List.append_nil]
  unfold Ord at *
  simp only [hd, hch, e1, e2, e3]
  exact h

theorem disp_zero {s : State ε} {d : Nat} {p : DPC ε} (h1 : s.disp.length ≤ 1) (h : s.disp[d]? = some p) :
    d = 0 ∧ s.disp = [p] := by
  have := getElem?_lt h
  have hd : d = 0 := by omega
  subst hd
  refine ⟨rfl, ?_⟩
  match hh : s.disp, h1 with
  | [], _ => simp [hh] at this
  | [x], _ => simp [hh] at h; simp [h]

theorem ord_tr {s s' : State ε} (w : Wf s) (h : Ord s) (t : Tr s s') : Ord s' := by
  cases t with
  | sendPanic _ => exact ord_frame h rfl rfl ⟨_, rfl, by simp [sentOf], by simp [startsOf], by simp [deliverOf]⟩
  | send v _ _ =>
    intro hl
    obtain ⟨a1, a2, a3⟩ := h hl
    simp only [sentOf, startsOf, deliverOf] at a1 a2 a3 ⊢
    simp
    refine ⟨by simp [a1], a2, a3⟩
  | sendTo d v hd hch _ =>
    intro hl
    simp only [List.length_set] at hl
    obtain ⟨hd0, hdd⟩ := disp_zero hl hd
    subst hd0
    obtain ⟨a1, a2, a3⟩ := h hl
    simp only [sentOf, startsOf, deliverOf, hd, hdd, hch, pendOf] at a1 a2 a3 ⊢
    simp [pendOf] at a1 ⊢
    exact ⟨a1, a2⟩
  | goDispatch =>
    intro hl
    simp at hl
    obtain ⟨a1, a2, a3⟩ := h (by simp [hl])
    simp [hl, pendOf] at a1 ⊢
    exact ⟨a1, a2⟩
  | take d v ch hd hch =>
    intro hl
    simp only [List.length_set] at hl
    obtain ⟨hd0, hdd⟩ := disp_zero hl hd
    subst hd0
    obtain ⟨a1, a2, a3⟩ := h hl
    simp [hdd, hch, pendOf] at a1 ⊢
    exact ⟨a1, a2⟩
  | gone d hd hch _ =>
    intro hl
    simp only [List.length_set] at hl
    obtain ⟨hd0, hdd⟩ := disp_zero hl hd
    subst hd0
    obtain ⟨a1, a2, a3⟩ := h hl
    simp [hdd, hch, pendOf] at a1 ⊢
    exact ⟨a1, a2⟩
  | rlock d v hd _ =>
    intro hl
    simp only [List.length_set] at hl
    obtain ⟨hd0, hdd⟩ := disp_zero hl hd
    subst hd0
    obtain ⟨a1, a2, a3⟩ := h hl
    simp only [sentOf, startsOf, deliverOf] at a1 a2 a3 ⊢
    simp [hdd, pendOf] at a1 ⊢
    refine ⟨a1, fun r => (a2 r).trans (List.sublist_append_left _ _), ?_⟩
    exact fun r _ => a2 r
  | skip d r v rem c hd hr hc _ =>
    intro hl
    simp only [List.length_set] at hl
    obtain ⟨hd0, hdd⟩ := disp_zero hl hd
    subst hd0
    obtain ⟨a1, a2, a3⟩ := h hl
    obtain ⟨l, b1, b2⟩ := a3 v rem hd
    simp [hdd, pendOf] at a1 ⊢
    refine ⟨a1, a2, ?_⟩
    exact ⟨l, b1, fun q hq => b2 q (List.mem_of_mem_erase hq)⟩
  | hand d r k v rem c rd hd hr hc hop hs hk hp hrr =>
    intro hl
    simp only [List.length_set] at hl
    obtain ⟨hd0, hdd⟩ := disp_zero hl hd
    subst hd0
    obtain ⟨a1, a2, a3⟩ := h hl
    obtain ⟨l, b1, b2⟩ := a3 v rem hd
    have hnd := (w.rem 0 v rem hd).1
    simp only [sentOf, startsOf, deliverOf] at a1 a2 a3 b1 b2 ⊢
    simp [hdd, pendOf] at a1 ⊢
    refine ⟨a1, ?_, ?_⟩
    · intro q
      by_cases hq : r = q
      · subst hq
        rw [b1]
        exact (b2 r hr).append (by simp)
      · simp [hq]; exact a2 q
    · refine ⟨l, b1, ?_⟩
      intro q hq
      have hne : r ≠ q := by
        rintro rfl
        exact (List.Nodup.not_mem_erase hnd) hq
      simp [hne]
      exact b2 q (List.mem_of_mem_erase hq)
  | buffer d r v rem c hd hr hc hop hs hw hl' =>
    intro hl
    simp only [List.length_set] at hl
    obtain ⟨hd0, hdd⟩ := disp_zero hl hd
    subst hd0
    obtain ⟨a1, a2, a3⟩ := h hl
    obtain ⟨l, b1, b2⟩ := a3 v rem hd
    have hnd := (w.rem 0 v rem hd).1
    simp only [sentOf, startsOf, deliverOf] at a1 a2 a3 b1 b2 ⊢
    simp [hdd, pendOf] at a1 ⊢
    refine ⟨a1, ?_, ?_⟩
    · intro q
      by_cases hq : r = q
      · subst hq
        rw [b1]
        exact (b2 r hr).append (by simp)
      · simp [hq]; exact a2 q
    · refine ⟨l, b1, ?_⟩
      intro q hq
      have hne : r ≠ q := by
        rintro rfl
        exact (List.Nodup.not_mem_erase hnd) hq
      simp [hne]
      exact b2 q (List.mem_of_mem_erase hq)
  | dropped d r v rem c hd hr hc hop hs hw hl' =>
    intro hl
    simp only [List.length_set] at hl
    obtain ⟨hd0, hdd⟩ := disp_zero hl hd
    subst hd0
    obtain ⟨a1, a2, a3⟩ := h hl
    obtain ⟨l, b1, b2⟩ := a3 v rem hd
    simp only [sentOf, startsOf, deliverOf] at a1 a2 a3 b1 b2 ⊢
    simp [hdd, pendOf] at a1 ⊢
    refine ⟨a1, a2, ?_⟩
    exact ⟨l, b1, fun q hq => b2 q (List.mem_of_mem_erase hq)⟩
  | runlock d v hd =>
    intro hl
    simp only [List.length_set] at hl
    obtain ⟨hd0, hdd⟩ := disp_zero hl hd
    subst hd0
    obtain ⟨a1, a2, a3⟩ := h hl
    simp only [sentOf, startsOf, deliverOf] at a1 a2 a3 ⊢
    simp [hdd, pendOf] at a1 ⊢
    exact ⟨a1, a2⟩
  | newRecv name cap strat hl =>
    refine ord_frame h rfl rfl ⟨_, rfl, ?_, ?_, ?_⟩
    · unfold sentOf; rw [List.filterMap_append, filterMap_unreg (by simp)]; simp
    · unfold startsOf; rw [List.filterMap_append, filterMap_unreg (by simp)]; simp
    · intro r; unfold deliverOf; rw [List.filterMap_append, filterMap_unreg (by simp)]; simp
  | wedge r me _ _ _ => exact ord_frame h rfl rfl ⟨_, rfl, by simp [sentOf], by simp [startsOf], by simp [deliverOf]⟩
  | close s' rs hl hcl hm hrs =>
    obtain ⟨suf, he, hcs, _⟩ := hcl.log
    refine ord_frame h hcl.disp hcl.ch ⟨suf, he, ?_, ?_, ?_⟩
    · exact filterMap_closing (by intro e; cases e <;> simp [Ev.isClosing]) hcs
    · exact filterMap_closing (by intro e; cases e <;> simp [Ev.isClosing]) hcs
    · intro r; exact filterMap_closing (by intro e; cases e <;> simp [Ev.isClosing]) hcs
  | busPanic _ => exact ord_frame h rfl rfl ⟨_, rfl, by simp [sentOf], by simp [startsOf], by simp [deliverOf]⟩
  | busClose1 _ => exact ord_frame h rfl rfl ⟨[], by simp, by simp [sentOf], by simp [startsOf], by simp [deliverOf]⟩
  | startRead r drain _ =>
    exact ord_frame h rfl rfl ⟨[], by simp, by simp [sentOf], by simp [startsOf], by simp [deliverOf]⟩
  | readBuf k rd c v buf _ _ _ _ =>
    exact ord_frame h rfl rfl ⟨_, rfl, by simp [sentOf], by simp [startsOf], by simp [deliverOf]⟩
  | readClosed k rd c _ _ _ _ _ =>
    exact ord_frame h rfl rfl ⟨_, rfl, by simp [sentOf], by simp [startsOf], by simp [deliverOf]⟩
  | drained k rd c _ _ _ _ _ _ =>
    exact ord_frame h rfl rfl ⟨[], by simp, by simp [sentOf], by simp [startsOf], by simp [deliverOf]⟩
  | park k rd c _ _ _ _ _ _ =>
    exact ord_frame h rfl rfl ⟨[], by simp, by simp [sentOf], by simp [startsOf], by simp [deliverOf]⟩
  | timeout k rd _ _ =>
    exact ord_frame h rfl rfl ⟨[], by simp, by simp [sentOf], by simp [startsOf], by simp [deliverOf]⟩

theorem reach_ord {n : Nat} {s : State ε} (h : Reach n s) : Ord s :=
  (reach_inv h (by intro _; simp [new, sentOf, startsOf, deliverOf, pendOf]) (fun _ _ => ord_tr)).2

/-! ### What readers collected -/

/-- The data of a reading goroutine: the events it read, followed by zero values if the channel is closed and empty. -/
def Rd (s : State ε) : Prop :=
  (∀ (k : Nat) rd, s.rds[k]? = some rd →
    ∃ n, rd.data = (readBy k rd.r s.log).map some ++ List.replicate n none ∧
      (0 < n → rd.drain = false ∧ ∃ c, s.rcvs[rd.r]? = some c ∧ c.closed = true ∧ c.buf = [])) ∧
  (∀ (k r : Nat), s.rds.length ≤ k → readBy k r s.log = [])

/-- Steps that touch neither readers nor receivers nor the relevant part of the log. -/
theorem rd_frame {s s' : State ε} (h : Rd s) (hrd : s'.rds = s.rds)
    (hrc : ∀ (r : Nat) c, s.rcvs[r]? = some c → c.closed = true → c.buf = [] →
      ∃ c, s'.rcvs[r]? = some c ∧ c.closed = true ∧ c.buf = [])
    (hl : ∃ suf, s'.log = s.log ++ suf ∧ ∀ k r, readBy k r suf = []) : Rd s' := by
  obtain ⟨suf, he, h3⟩ := hl
  have e3 : ∀ k r, readBy k r s'.log = readBy k r s.log := by
    intro k r
    have := h3 k r
    unfold readBy at *; rw [he, List.filterMap_append, this, List.append_nil]
  constructor
  · intro k rd hk
    rw [hrd] at hk
    obtain ⟨n, h1, h2⟩ := h.1 k rd hk
    refine ⟨n, by rw [e3]; exact h1, ?_⟩
    intro hn
    obtain ⟨h2, c, hc, hcl, hb⟩ := h2 hn
    exact ⟨h2, hrc _ c hc hcl hb⟩
  · intro k r hk
    rw [hrd] at hk
    rw [e3]
    exact h.2 k r hk

theorem snoc_none {α : Type} (l : List (Option α)) (n : Nat) :
    l ++ List.replicate n none ++ [none] = l ++ List.replicate (n + 1) none := by
  rw [List.replicate_succ', List.append_assoc]

/-- Steps that change reader `k` without reading. -/
theorem rd_set {s : State ε} (h : Rd s) {k : Nat} {rd rd' : Reader ε} (hk : s.rds[k]? = some rd) (hr : rd'.r = rd.r)
    (hd : rd'.drain = rd.drain)
    (hdata : rd'.data = rd.data ∨ (rd.drain = false ∧ rd'.data = rd.data ++ [none] ∧
        ∃ c, s.rcvs[rd.r]? = some c ∧ c.closed = true ∧ c.buf = [])) (suf : List (Ev ε))
    (hsuf : ∀ k r, readBy k r suf = []) : Rd { s with rds := s.rds.set k rd', log := s.log ++ suf } := by
  have e3 : ∀ k r, readBy k r (s.log ++ suf) = readBy k r s.log := by
    intro k r
    have := hsuf k r
    unfold readBy at *; rw [List.filterMap_append, this, List.append_nil]
  constructor
  · intro j x hj
    rcases set_some hj with ⟨hjk, he⟩ | ⟨hjk, he⟩
    · subst hjk; subst he
      obtain ⟨n, h1, h2⟩ := h.1 k rd hk
      simp only [e3, hr, hd]
      rcases hdata with hdata | ⟨hdr, hdata, hc⟩
      · exact ⟨n, by rw [hdata]; exact h1, h2⟩
      · exact ⟨n + 1, by rw [hdata, h1, snoc_none], fun _ => ⟨hdr, hc⟩⟩
    · simp only [e3]
      exact h.1 j x he
  · intro j r hj
    simp only [List.length_set] at hj
    simp only [e3]
    exact h.2 j r hj

theorem rd_tr {s s' : State ε} (w : Wf s) (h : Rd s) (t : Tr s s') : Rd s' := by
  cases t with
  | sendPanic _ => exact rd_frame h rfl (fun r c h1 h2 h3 => ⟨c, h1, h2, h3⟩) ⟨_, rfl, by simp [readBy]⟩
  | send v _ _ => exact rd_frame h rfl (fun r c h1 h2 h3 => ⟨c, h1, h2, h3⟩) ⟨_, rfl, by simp [readBy]⟩
  | sendTo d v _ _ _ => exact rd_frame h rfl (fun r c h1 h2 h3 => ⟨c, h1, h2, h3⟩) ⟨_, rfl, by simp [readBy]⟩
  | goDispatch => exact rd_frame h rfl (fun r c h1 h2 h3 => ⟨c, h1, h2, h3⟩) ⟨[], by simp, by simp [readBy]⟩
  | take d v ch _ _ => exact rd_frame h rfl (fun r c h1 h2 h3 => ⟨c, h1, h2, h3⟩) ⟨[], by simp, by simp [readBy]⟩
  | gone d _ _ _ => exact rd_frame h rfl (fun r c h1 h2 h3 => ⟨c, h1, h2, h3⟩) ⟨[], by simp, by simp [readBy]⟩
  | rlock d v _ _ => exact rd_frame h rfl (fun r c h1 h2 h3 => ⟨c, h1, h2, h3⟩) ⟨_, rfl, by simp [readBy]⟩
  | skip d r v rem c _ _ _ _ =>
    exact rd_frame h rfl (fun r c h1 h2 h3 => ⟨c, h1, h2, h3⟩) ⟨[], by simp, by simp [readBy]⟩
  | hand d r k v rem c rd hd hr hc hop hs hk hp hrr =>
    subst hrr
    constructor
    · intro j x hj
      rcases set_some hj with ⟨hjk, he⟩ | ⟨hjk, he⟩
      · subst hjk; subst he
        obtain ⟨n, h1, h2⟩ := h.1 k rd hk
        have hn : n = 0 := by
          rcases Nat.eq_zero_or_pos n with h0 | h0
          · exact h0
          · obtain ⟨_, c', hc', hcl, _⟩ := h2 h0
            rw [hc] at hc'; simp at hc'; subst hc'
            simp [hop] at hcl
        subst hn
        refine ⟨0, ?_, by simp⟩
        simp only [readBy] at h1 ⊢
        simp [h1]
      · have := h.1 j x he
        simp [readBy, hjk] at this ⊢
        exact this
    · intro j r hj
      simp only [List.length_set] at hj
      have hlt := getElem?_lt hk
      have hne : k ≠ j := by omega
      have := h.2 j r hj
      simp only [readBy] at this ⊢
      simp [hne]
      simpa using this
  | buffer d r v rem c hd hr hc hop hs hw hl =>
    refine rd_frame h rfl ?_ ⟨_, rfl, by simp [readBy]⟩
    intro q x hx hcl hb
    have hne : r ≠ q := by
      rintro rfl
      rw [hc] at hx; simp at hx; subst hx
      simp [hop] at hcl
    exact ⟨x, by simp only; rw [List.getElem?_set]; simp [hne, hx], hcl, hb⟩
  | dropped d r v rem c _ _ _ _ _ _ _ =>
    exact rd_frame h rfl (fun r c h1 h2 h3 => ⟨c, h1, h2, h3⟩) ⟨_, rfl, by simp [readBy]⟩
  | runlock d v _ => exact rd_frame h rfl (fun r c h1 h2 h3 => ⟨c, h1, h2, h3⟩) ⟨_, rfl, by simp [readBy]⟩
  | newRecv name cap strat hl =>
    refine rd_frame h rfl ?_ ⟨_, rfl, ?_⟩
    · intro q x hx hcl hb
      exact ⟨x, by simp only; rw [List.getElem?_append_left (getElem?_lt hx)]; exact hx, hcl, hb⟩
    · intro k r; unfold readBy; rw [List.filterMap_append, filterMap_unreg (by simp)]; simp
  | wedge r me _ _ _ => exact rd_frame h rfl (fun r c h1 h2 h3 => ⟨c, h1, h2, h3⟩) ⟨_, rfl, by simp [readBy]⟩
  | close s' rs hl hcl hm hrs =>
    obtain ⟨suf, he, hcs, _⟩ := hcl.log
    have e3 : ∀ k r, readBy k r s'.log = readBy k r s.log := by
      intro k r
      unfold readBy
      rw [he, List.filterMap_append, filterMap_closing (suf := suf) (by intro e; cases e <;> simp [Ev.isClosing]) hcs]
      simp
    have hrc : ∀ (r : Nat) c, s.rcvs[r]? = some c → c.closed = true → c.buf = [] →
        ∃ c, s'.rcvs[r]? = some c ∧ c.closed = true ∧ c.buf = [] := by
      intro r c hc h1 h2
      refine ⟨_, by rw [hcl.rcvs, hc]; rfl, ?_⟩
      by_cases hr : r ∈ rs <;> simp [hr, h1, h2]
    constructor
    · intro k x hk
      rw [hcl.rds, Option.map_eq_some_iff] at hk
      obtain ⟨rd, hk, rfl⟩ := hk
      obtain ⟨n, h1, h2⟩ := h.1 k rd hk
      by_cases hp : rd.st = .parked ∧ rd.r ∈ rs
      · obtain ⟨c, hc, hh⟩ := w.rdr k rd hk
        obtain ⟨hb, _, hdr⟩ := hh hp.1
        simp only [hp, and_self, if_true, Reader.onClosed_r, e3]
        refine ⟨n + 1, ?_, ?_⟩
        · simp only [Reader.onClosed, hdr]
          simp [h1, List.replicate_succ']
        · intro _
          refine ⟨by simp [Reader.onClosed, hdr], _, by rw [hcl.rcvs, hc]; rfl, by simp [hp.2], by simp [hp.2, hb]⟩
      · simp only [hp, if_false, e3]
        refine ⟨n, h1, ?_⟩
        intro hn
        obtain ⟨h2, c, hc, hcl', hb⟩ := h2 hn
        exact ⟨h2, hrc _ c hc hcl' hb⟩
    · intro k r hk
      rw [e3]
      apply h.2 k r
      rw [← List.getElem?_eq_none_iff] at hk ⊢
      rw [hcl.rds] at hk
      simpa using hk
  | busPanic _ => exact rd_frame h rfl (fun r c h1 h2 h3 => ⟨c, h1, h2, h3⟩) ⟨_, rfl, by simp [readBy]⟩
  | busClose1 _ => exact rd_frame h rfl (fun r c h1 h2 h3 => ⟨c, h1, h2, h3⟩) ⟨[], by simp, by simp [readBy]⟩
  | startRead r drain hl =>
    constructor
    · intro k rd hk
      rcases snoc_some hk with ⟨hk, he⟩ | ⟨_, he⟩
      · subst hk; subst he
        refine ⟨0, ?_, by simp⟩
        simp [h.2 s.rds.length r (Nat.le_refl _)]
      · exact h.1 k rd he
    · intro k q hk
      simp only [List.length_append, List.length_singleton] at hk
      exact h.2 k q (by omega)
  | readBuf k rd c v buf hk hst hc hb =>
    constructor
    · intro j x hj
      rcases set_some hj with ⟨hjk, he⟩ | ⟨hjk, he⟩
      · subst hjk; subst he
        obtain ⟨n, h1, h2⟩ := h.1 k rd hk
        have hn : n = 0 := by
          rcases Nat.eq_zero_or_pos n with h0 | h0
          · exact h0
          · obtain ⟨_, c', hc', _, hb'⟩ := h2 h0
            rw [hc] at hc'; simp at hc'; subst hc'
            simp [hb] at hb'
        subst hn
        refine ⟨0, ?_, by simp⟩
        simp only [readBy] at h1 ⊢
        simp [h1]
      · obtain ⟨n, h1, h2⟩ := h.1 j x he
        refine ⟨n, ?_, ?_⟩
        · simp only [readBy] at h1 ⊢
          simp [hjk]
          exact h1
        · intro hn
          obtain ⟨h2, c', hc', hcl, hb'⟩ := h2 hn
          refine ⟨h2, c', ?_, hcl, hb'⟩
          have hne : rd.r ≠ x.r := by
            intro he
            rw [← he, hc] at hc'; simp at hc'; subst hc'
            simp [hb] at hb'
          simp only
          rw [List.getElem?_set]; simp [hne, hc']
    · intro j r hj
      simp only [List.length_set] at hj
      have hlt := getElem?_lt hk
      have hne : k ≠ j := by omega
      have := h.2 j r hj
      simp only [readBy] at this ⊢
      simp [hne]
      simpa using this
  | readClosed k rd c hk hst hc hb hcl =>
    refine rd_set h hk rd.onClosed_r ?_ ?_ _ (by simp [readBy])
    · unfold Reader.onClosed; split <;> rfl
    · unfold Reader.onClosed
      split
      · exact Or.inl rfl
      · rename_i hd
        exact Or.inr ⟨by simpa using hd, rfl, c, hc, hcl, hb⟩
  | drained k rd c hk _ _ _ _ _ =>
    have := rd_set h hk (rd' := { rd with st := .ret }) rfl rfl (Or.inl rfl) [] (by simp [readBy])
    simpa using this
  | park k rd c hk _ _ _ _ _ =>
    have := rd_set h hk (rd' := { rd with st := .parked }) rfl rfl (Or.inl rfl) [] (by simp [readBy])
    simpa using this
  | timeout k rd hk _ =>
    have := rd_set h hk (rd' := { rd with st := .ret }) rfl rfl (Or.inl rfl) [] (by simp [readBy])
    simpa using this

theorem reach_rd {n : Nat} {s : State ε} (h : Reach n s) : Rd s :=
  (reach_inv h (by constructor <;> simp [new, readBy]) (fun _ _ => rd_tr)).2

/-! ### Registration -/

theorem registered_append (r : Nat) (l : List (Ev ε)) (e : Ev ε) :
    registered r (l ++ [e]) = match e with
      | .reg q => if q = r then true else registered r l
      | .unreg q => if q = r then false else registered r l
      | _ => registered r l := by
  unfold registered
  rw [List.foldl_append]
  rfl

/-- Appending entries of closing channels. -/
theorem registered_closing (r : Nat) : ∀ (suf l : List (Ev ε)), (∀ e ∈ suf, e.isClosing) →
    (registered r (l ++ suf) = true ↔ (registered r l = true ∧ Ev.unreg r ∉ suf))
  | [], l, _ => by simp
  | e :: suf, l, h => by
    have := registered_closing r suf (l ++ [e]) (fun x hx => h x (by simp [hx]))
    rw [List.append_assoc] at this
    rw [List.singleton_append] at this
    rw [this, registered_append]
    have he := h e (by simp)
    cases e <;> simp [Ev.isClosing] at he <;> try simp
    rename_i q
    by_cases hq : q = r
    · simp [hq]
    · have : r ≠ q := fun h => hq h.symm
      simp [hq, this]

/-- The map holds exactly the receivers that the log says are registered. -/
def Reg (s : State ε) : Prop := ∀ r, registered r s.log = true ↔ r ∈ ids s.map

theorem reg_frame {s s' : State ε} (h : Reg s) (hm : s'.map = s.map)
    (hl : ∃ suf, s'.log = s.log ++ suf ∧ ∀ e ∈ suf, ∀ q, e ≠ .reg q ∧ e ≠ .unreg q) : Reg s' := by
  obtain ⟨suf, he, hn⟩ := hl
  have : ∀ (suf : List (Ev ε)) (l : List (Ev ε)) (r : Nat), (∀ e ∈ suf, ∀ q, e ≠ .reg q ∧ e ≠ .unreg q) →
      registered r (l ++ suf) = registered r l := by
    intro suf
    induction suf with
    | nil => simp
    | cons e suf ih =>
      intro l r hh
      have h1 := ih (l ++ [e]) r (fun x hx => hh x (by simp [hx]))
      rw [List.append_assoc, List.singleton_append] at h1
      rw [h1, registered_append]
      have he := hh e (by simp)
      cases e with
      | reg q => exact absurd rfl (he q).1
      | unreg q => exact absurd rfl (he q).2
      | _ => rfl
  intro r
  rw [he, this suf _ _ hn, hm]
  exact h r

theorem reg_tr {s s' : State ε} (w : Wf s) (h : Reg s) (t : Tr s s') : Reg s' := by
  cases t with
  | newRecv name cap strat hl =>
    intro r
    simp only
    rw [← List.append_assoc, registered_append]
    have hcl := registered_closing r ((lookup s.map name).toList.map Ev.unreg) s.log (by
      intro e he
      simp at he
      obtain ⟨q, _, rfl⟩ := he
      simp [Ev.isClosing])
    have hm : ∀ q, lookup s.map name = some q ↔ (name, q) ∈ s.map := by
      intro q
      constructor
      · exact lookup_some
      · intro hq
        cases hlk : lookup s.map name with
        | none => exact absurd rfl (lookup_none hlk _ hq)
        | some q' =>
          have := w.key_unique hq (lookup_some hlk) rfl
          simp at this; rw [this]
    by_cases hr : s.rcvs.length = r
    · simp [hr, mem_ids]
    · simp only [hr, if_false]
      rw [hcl]
      have : (Ev.unreg r ∈ ((lookup s.map name).toList.map Ev.unreg : List (Ev ε))) ↔ (name, r) ∈ s.map := by
        simp [← hm r]
      simp only [this, h r]
      simp only [mem_ids, List.mem_append, List.mem_singleton, without, List.mem_filter]
      constructor
      · rintro ⟨⟨p, hp, hp2⟩, hn⟩
        refine ⟨p, Or.inl ⟨hp, ?_⟩, hp2⟩
        simp
        intro hpn
        apply hn
        rw [← hpn, ← hp2]; exact hp
      · rintro ⟨p, hp | hp, hp2⟩
        · refine ⟨⟨p, hp.1, hp2⟩, ?_⟩
          intro hn
          obtain ⟨c, hc, hcn, _⟩ := w.entry p hp.1
          obtain ⟨c', hc', hcn', _⟩ := w.entry _ hn
          rw [hp2] at hc
          simp only at hc' hcn'
          rw [hc] at hc'; simp at hc'; subst hc'
          have := hp.2
          simp at this
          exact this (hcn.symm.trans hcn')
        · subst hp; exact absurd hp2 hr
  | close s' rs hl hcl hm hrs =>
    obtain ⟨suf, he, hcs, hu⟩ := hcl.log
    intro r
    rw [he, registered_closing _ _ _ hcs, hm]
    simp only [h r, hu]
    simp only [mem_ids, List.mem_filter, decide_eq_true_eq]
    constructor
    · rintro ⟨⟨p, hp, rfl⟩, hn⟩
      exact ⟨p, ⟨hp, hn⟩, rfl⟩
    · rintro ⟨p, ⟨hp, hn⟩, rfl⟩
      exact ⟨⟨p, hp, rfl⟩, hn⟩
  | sendPanic _ => exact reg_frame h rfl ⟨_, rfl, by simp⟩
  | send v _ _ => exact reg_frame h rfl ⟨_, rfl, by simp⟩
  | sendTo d v _ _ _ => exact reg_frame h rfl ⟨_, rfl, by simp⟩
  | goDispatch => exact reg_frame h rfl ⟨[], by simp, by simp⟩
  | take d v ch _ _ => exact reg_frame h rfl ⟨[], by simp, by simp⟩
  | gone d _ _ _ => exact reg_frame h rfl ⟨[], by simp, by simp⟩
  | rlock d v _ _ => exact reg_frame h rfl ⟨_, rfl, by simp⟩
  | skip d r v rem c _ _ _ _ => exact reg_frame h rfl ⟨[], by simp, by simp⟩
  | hand d r k v rem c rd hd hr hc hop hs hk hp hrr => exact reg_frame h rfl ⟨_, rfl, by simp⟩
  | buffer d r v rem c hd hr hc hop hs hw hl => exact reg_frame h rfl ⟨_, rfl, by simp⟩
  | dropped d r v rem c _ _ _ _ _ _ _ => exact reg_frame h rfl ⟨_, rfl, by simp⟩
  | runlock d v _ => exact reg_frame h rfl ⟨_, rfl, by simp⟩
  | wedge r me _ _ _ => exact reg_frame h rfl ⟨_, rfl, by simp⟩
  | busPanic _ => exact reg_frame h rfl ⟨_, rfl, by simp⟩
  | busClose1 _ => exact reg_frame h rfl ⟨[], by simp, by simp⟩
  | startRead r drain hl => exact reg_frame h rfl ⟨[], by simp, by simp⟩
  | readBuf k rd c v buf _ _ _ _ => exact reg_frame h rfl ⟨_, rfl, by simp⟩
  | readClosed k rd c _ _ _ _ _ => exact reg_frame h rfl ⟨_, rfl, by simp⟩
  | drained k rd c _ _ _ _ _ _ => exact reg_frame h rfl ⟨[], by simp, by simp⟩
  | park k rd c _ _ _ _ _ _ => exact reg_frame h rfl ⟨[], by simp, by simp⟩
  | timeout k rd _ _ => exact reg_frame h rfl ⟨[], by simp, by simp⟩

theorem reach_reg {n : Nat} {s : State ε} (h : Reach n s) : Reg s :=
  (reach_inv h (by intro r; simp [new, registered, ids]) (fun _ _ => reg_tr)).2

/-! ### Block receivers -/

theorem scan_append (d r : Nat) (l : List (Ev ε)) (e : Ev ε) : scan d r (l ++ [e]) = (scan d r l).next d r e := by
  unfold scan
  rw [List.foldl_append]
  rfl

/-- The scan's idea of registration is `registered`. -/
theorem scan_reg (d r : Nat) (l : List (Ev ε)) : (scan d r l).reg = registered r l := by
  induction l using List.reverseRecOn with
  | nil => rfl
  | append_singleton l e ih =>
    rw [scan_append, registered_append]
    unfold Scan.next
    cases e <;> simp only <;> (try split) <;> simp [ih]

/-- Log entries that the scan for the deliveries of `d` to `r` does not look at, registration aside. -/
def Ev.quiet (d r : Nat) : Ev ε → Prop
  | .start d' _ => d' ≠ d
  | .fin d' => d' ≠ d
  | .deliver d' q _ => ¬ (d' = d ∧ q = r)
  | _ => True

theorem scan_quiet (d r : Nat) : ∀ (suf l : List (Ev ε)), (∀ e ∈ suf, e.quiet d r) →
    (scan d r (l ++ suf)).pend = (scan d r l).pend ∧ (scan d r (l ++ suf)).out = (scan d r l).out ∧
    deliverBy d r (l ++ suf) = deliverBy d r l
  | [], l, _ => by simp
  | e :: suf, l, h => by
    have ih := scan_quiet d r suf (l ++ [e]) (fun x hx => h x (by simp [hx]))
    rw [List.append_assoc, List.singleton_append] at ih
    have he := h e (by simp)
    rw [ih.1, ih.2.1, ih.2.2, scan_append]
    have h3 : deliverBy d r (l ++ [e]) = deliverBy d r l := by
      cases e <;> simp [Ev.quiet] at he <;> simp [deliverBy]
      exact he
    rw [h3]
    unfold Scan.next
    cases e <;> simp [Ev.quiet] at he <;> simp only <;> (try split) <;> simp_all

/-- The event dispatcher state `p` has yet to complete for a receiver `r` that is registered. -/
def curOf (reg : Bool) : Option (DPC ε) → Option ε
  | some (.visiting v _) => if reg then some v else none
  | _ => none

/-- The event dispatcher state `p` has delivered to receiver `r` but not completed. -/
def gotOf (reg : Bool) (r : Nat) : Option (DPC ε) → List ε
  | some (.visiting v rem) => if reg && !(rem.contains r) then [v] else []
  | _ => []

/-- Deliveries of `d` to the Block receiver `r`. -/
def Blk (d r : Nat) (s : State ε) : Prop :=
  (∀ c, s.rcvs[r]? = some c → c.strat = .block) →
    (scan d r s.log).pend = curOf (decide (r ∈ ids s.map)) s.disp[d]? ∧
    deliverBy d r s.log = (scan d r s.log).out ++ gotOf (decide (r ∈ ids s.map)) r s.disp[d]?

theorem blk_frame {d r : Nat} {s s' : State ε} (h : Blk d r s)
    (hrc : (∀ c, s'.rcvs[r]? = some c → c.strat = .block) → ∀ c, s.rcvs[r]? = some c → c.strat = .block)
    (hd : curOf (decide (r ∈ ids s'.map)) s'.disp[d]? = curOf (decide (r ∈ ids s.map)) s.disp[d]? ∧
      gotOf (decide (r ∈ ids s'.map)) r s'.disp[d]? = gotOf (decide (r ∈ ids s.map)) r s.disp[d]?)
    (hl : ∃ suf, s'.log = s.log ++ suf ∧ ∀ e ∈ suf, e.quiet d r) : Blk d r s' := by
  obtain ⟨suf, he, hq⟩ := hl
  intro hb
  obtain ⟨h1, h2⟩ := h (hrc hb)
  obtain ⟨q1, q2, q3⟩ := scan_quiet d r suf s.log hq
  rw [he, q1, q2, q3, hd.1, hd.2]
  exact ⟨h1, h2⟩

/-- Changing the state of dispatcher `d0` outside of the loop. -/
theorem cur_set {s : State ε} {d d0 r : Nat} {reg : Bool} {p : DPC ε} {p0 : DPC ε} (h0 : s.disp[d0]? = some p0)
    (hp0 : ∀ v rem, p0 ≠ .visiting v rem) (hp : ∀ v rem, p ≠ .visiting v rem) :
    curOf reg (s.disp.set d0 p)[d]? = curOf reg s.disp[d]? ∧
      gotOf reg r (s.disp.set d0 p)[d]? = gotOf reg r s.disp[d]? := by
  rw [List.getElem?_set]
  by_cases hd : d0 = d
  · subst hd
    have := getElem?_lt h0
    simp only [this, if_true, h0]
    cases p <;> cases p0 <;> simp [curOf, gotOf] at * 
  · simp [hd]

theorem visit_other {s : State ε} {d d0 : Nat} {p : DPC ε} (h : d0 ≠ d) : (s.disp.set d0 p)[d]? = s.disp[d]? := by
  rw [List.getElem?_set]; simp [h]

/-- Visiting another receiver. -/
theorem cur_visit {s : State ε} {d d0 r q : Nat} {reg : Bool} {v : ε} {rem : List Nat}
    (h0 : s.disp[d0]? = some (.visiting v rem)) (hne : d0 = d → q ≠ r) :
    curOf reg (s.disp.set d0 (.visiting v (rem.erase q)))[d]? = curOf reg s.disp[d]? ∧
      gotOf reg r (s.disp.set d0 (.visiting v (rem.erase q)))[d]? = gotOf reg r s.disp[d]? := by
  by_cases hd : d0 = d
  · subst hd
    rw [List.getElem?_set]
    have hlt := getElem?_lt h0
    have hqr := hne rfl
    simp only [hlt, if_true, h0, curOf, gotOf]
    have : (rem.erase q).contains r = rem.contains r := by
      rw [Bool.eq_iff_iff]
      simp [List.mem_erase_of_ne (Ne.symm hqr)]
    simp only [this, and_self]
  · rw [visit_other hd]; simp

/-- Delivering the current event to `r`. -/
theorem blk_deliver {d r : Nat} {s s' : State ε} (w : Wf s) (h : Blk d r s) {v : ε} {rem : List Nat}
    (hd : s.disp[d]? = some (.visiting v rem)) (hr : r ∈ rem)
    (hrc : (∀ c, s'.rcvs[r]? = some c → c.strat = .block) → ∀ c, s.rcvs[r]? = some c → c.strat = .block)
    (hd' : s'.disp = s.disp.set d (.visiting v (rem.erase r))) (hm : s'.map = s.map)
    (hl : ∃ suf, s'.log = s.log ++ .deliver d r v :: suf ∧ ∀ e ∈ suf, e.quiet d r) : Blk d r s' := by
  obtain ⟨suf, he, hq⟩ := hl
  intro hb
  obtain ⟨h1, h2⟩ := h (hrc hb)
  obtain ⟨q1, q2, q3⟩ := scan_quiet d r suf (s.log ++ [.deliver d r v]) hq
  have hreg : r ∈ ids s.map := (w.rem d v rem hd).2 r hr
  have hnd := (w.rem d v rem hd).1
  have hlt := getElem?_lt hd
  have hc : rem.contains r = true := by simpa using hr
  have hc' : (rem.erase r).contains r = false := by
    have := hnd.not_mem_erase (a := r)
    simpa using this
  have e1 : s'.log = s.log ++ [.deliver d r v] ++ suf := by rw [he]; simp
  rw [e1, q1, q2, q3, scan_append, hd', hm]
  simp only [hreg, decide_true, hd, curOf, gotOf, hc, if_true] at h1 h2 ⊢
  simp only [List.getElem?_set, hlt, if_true, hc']
  refine ⟨h1, ?_⟩
  simp only [Scan.next]
  simp at h2 ⊢
  rw [← h2]
  simp [deliverBy]

theorem reg_mono {s : State ε} {r r0 : Nat} {c0 : Rcv ε} {b : List ε} (hc : s.rcvs[r0]? = some c0) :
    (∀ c, (s.rcvs.set r0 { c0 with buf := b })[r]? = some c → c.strat = .block) →
      ∀ c, s.rcvs[r]? = some c → c.strat = .block := by
  intro h c hcc
  by_cases hr : r0 = r
  · subst hr
    rw [hc] at hcc; simp at hcc; subst hcc
    have := h { c0 with buf := b } (by rw [List.getElem?_set]; simp [getElem?_lt hc])
    exact this
  · exact h c (by rw [List.getElem?_set]; simp [hr, hcc])

theorem unlocked_cur {s : State ε} (hl : lockable s = true) (d r : Nat) (reg : Bool) :
    curOf reg s.disp[d]? = none ∧ gotOf reg r s.disp[d]? = [] := by
  have := lockable_no_visit hl d
  rcases h : s.disp[d]? with _ | p
  · simp [curOf, gotOf]
  · cases p with
    | visiting v rem => exact absurd h (this v rem)
    | _ => simp [curOf, gotOf]

theorem blk_tr (d r : Nat) {s s' : State ε} (w : Wf s) (hreg : Reg s) (h : Blk d r s) (t : Tr s s') : Blk d r s' := by
  cases t with
  | sendPanic _ => exact blk_frame h id ⟨rfl, rfl⟩ ⟨_, rfl, by simp [Ev.quiet]⟩
  | send v _ _ => exact blk_frame h id ⟨rfl, rfl⟩ ⟨_, rfl, by simp [Ev.quiet]⟩
  | sendTo d0 v hd _ _ => exact blk_frame h id (cur_set hd (by simp) (by simp)) ⟨_, rfl, by simp [Ev.quiet]⟩
  | goDispatch =>
    refine blk_frame h id ?_ ⟨[], by simp, by simp⟩
    simp only
    rw [List.getElem?_append]
    split
    · simp
    · rename_i hlt
      have : s.disp[d]? = none := by rw [List.getElem?_eq_none_iff]; omega
      rw [this]
      rcases hk : d - s.disp.length with _ | k <;> simp [curOf, gotOf]
  | take d0 v ch hd _ => exact blk_frame h id (cur_set hd (by simp) (by simp)) ⟨[], by simp, by simp⟩
  | gone d0 hd _ _ => exact blk_frame h id (cur_set hd (by simp) (by simp)) ⟨[], by simp, by simp⟩
  | rlock d0 v hd _ =>
    by_cases hdd : d0 = d
    · subst hdd
      intro hb
      obtain ⟨h1, h2⟩ := h hb
      have hlt := getElem?_lt hd
      simp only [scan_append, Scan.next, if_true, scan_reg]
      simp only [List.getElem?_set, hlt, if_true]
      have hrr : registered r s.log = decide (r ∈ ids s.map) := by
        rw [Bool.eq_iff_iff]; simp [hreg r]
      simp only [hd, gotOf] at h2
      refine ⟨by simp [curOf, hrr], ?_⟩
      have : deliverBy d0 r (s.log ++ [.start d0 v]) = deliverBy d0 r s.log := by simp [deliverBy]
      rw [this, h2]
      simp [gotOf]
    · refine blk_frame h id ?_ ⟨_, rfl, by simp [Ev.quiet, hdd]⟩
      simp only [visit_other hdd]; simp
  | skip d0 q v rem c hd hr hc hs =>
    by_cases hq : d0 = d ∧ q = r
    · obtain ⟨rfl, rfl⟩ := hq
      intro hb
      have := hb c hc
      rw [hs] at this; simp at this
    · exact blk_frame h id (cur_visit hd (fun hh h2 => hq ⟨hh, h2⟩)) ⟨[], by simp, by simp⟩
  | hand d0 q k v rem c rd hd hr hc hop hs hk hp hrr =>
    by_cases hq : d0 = d ∧ q = r
    · obtain ⟨rfl, rfl⟩ := hq
      exact blk_deliver w h hd hr id rfl rfl ⟨[.read q k v], by simp, by simp [Ev.quiet]⟩
    · refine blk_frame h id (cur_visit hd (fun hh h2 => hq ⟨hh, h2⟩)) ⟨_, rfl, ?_⟩
      simp [Ev.quiet]
      exact fun h1 h2 => hq ⟨h1, h2⟩
  | buffer d0 q v rem c hd hr hc hop hs hw hl =>
    by_cases hq : d0 = d ∧ q = r
    · obtain ⟨rfl, rfl⟩ := hq
      exact blk_deliver w h hd hr (reg_mono hc) rfl rfl ⟨[], by simp, by simp⟩
    · refine blk_frame h (reg_mono hc) (cur_visit hd (fun hh h2 => hq ⟨hh, h2⟩)) ⟨_, rfl, ?_⟩
      simp [Ev.quiet]
      exact fun h1 h2 => hq ⟨h1, h2⟩
  | dropped d0 q v rem c hd hr hc hop hs hw hl =>
    by_cases hq : d0 = d ∧ q = r
    · obtain ⟨rfl, rfl⟩ := hq
      intro hb
      have := hb c hc
      rw [hs] at this; simp at this
    · exact blk_frame h id (cur_visit hd (fun hh h2 => hq ⟨hh, h2⟩)) ⟨_, rfl, by simp [Ev.quiet]⟩
  | runlock d0 v hd =>
    by_cases hdd : d0 = d
    · subst hdd
      intro hb
      obtain ⟨h1, h2⟩ := h hb
      have hlt := getElem?_lt hd
      simp only [scan_append, Scan.next, if_true]
      simp only [List.getElem?_set, hlt, if_true]
      simp only [hd] at h1 h2
      refine ⟨by simp [curOf], ?_⟩
      have : deliverBy d0 r (s.log ++ [.fin d0]) = deliverBy d0 r s.log := by simp [deliverBy]
      rw [this, h2, h1]
      by_cases hr : r ∈ ids s.map <;> simp [gotOf, curOf, hr]
    · refine blk_frame h id ?_ ⟨_, rfl, by simp [Ev.quiet, hdd]⟩
      simp only [visit_other hdd]; simp
  | newRecv name cap strat hl =>
    refine blk_frame h ?_ ?_ ⟨_, rfl, ?_⟩
    · intro hh c hc
      exact hh c (by simp only; rw [List.getElem?_append_left (getElem?_lt hc)]; exact hc)
    · have := unlocked_cur hl d r
      simp only [this]; simp
    · intro e he
      simp at he
      rcases he with ⟨q, _, rfl⟩ | rfl <;> simp [Ev.quiet]
  | wedge q me _ _ _ => exact blk_frame h id ⟨rfl, rfl⟩ ⟨_, rfl, by simp [Ev.quiet]⟩
  | close s' rs hl hcl hm hrs =>
    obtain ⟨suf, he, hcs, _⟩ := hcl.log
    refine blk_frame h ?_ ?_ ⟨suf, he, ?_⟩
    · intro hh c hc
      have := hh _ (by rw [hcl.rcvs, hc]; rfl)
      by_cases hr : r ∈ rs <;> simpa [hr] using this
    · rw [hcl.disp]
      have := unlocked_cur hl d r
      simp only [this]; simp
    · intro e hee
      have := hcs e hee
      cases e <;> simp [Ev.isClosing] at this <;> simp [Ev.quiet]
  | busPanic _ => exact blk_frame h id ⟨rfl, rfl⟩ ⟨_, rfl, by simp [Ev.quiet]⟩
  | busClose1 _ => exact blk_frame h id ⟨rfl, rfl⟩ ⟨[], by simp, by simp⟩
  | startRead r drain hl => exact blk_frame h id ⟨rfl, rfl⟩ ⟨[], by simp, by simp⟩
  | readBuf k rd c v buf hk hst hc hb =>
    exact blk_frame h (reg_mono hc) ⟨rfl, rfl⟩ ⟨_, rfl, by simp [Ev.quiet]⟩
  | readClosed k rd c _ _ _ _ _ => exact blk_frame h id ⟨rfl, rfl⟩ ⟨_, rfl, by simp [Ev.quiet]⟩
  | drained k rd c _ _ _ _ _ _ => exact blk_frame h id ⟨rfl, rfl⟩ ⟨[], by simp, by simp⟩
  | park k rd c _ _ _ _ _ _ => exact blk_frame h id ⟨rfl, rfl⟩ ⟨[], by simp, by simp⟩
  | timeout k rd _ _ => exact blk_frame h id ⟨rfl, rfl⟩ ⟨[], by simp, by simp⟩

theorem reach_blk {n : Nat} {s : State ε} (h : Reach n s) (d r : Nat) : Blk d r s :=
  (reach_inv (I := fun s => Reg s ∧ Blk d r s) h
    ⟨by intro r; simp [new, registered, ids], by intro _; simp [new, scan, curOf, deliverBy, gotOf]⟩
    (fun _ _ w hi t => ⟨reg_tr w hi.1 t, blk_tr d r w hi.1 hi.2 t⟩)).2.2

end Gears.Bus
