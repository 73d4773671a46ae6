import Verif.Bus.Props

/-
C157: those who read events from receivers (/repo/event/bus.go:124-169) and send events to the same bus (`FanOutBus.C`, 28) in response.

On top of `Model.lean`: reading goroutine `k` sends the events `react k v` after it has received `v`, one after the other, and receives
again only when they are sent.
-/

namespace Gears.Bus.Loop

open Gears.Bus

variable {ε : Type}

/-- The bus, and what every reading goroutine has yet to send. -/
structure HState (ε : Type) where
  bus  : State ε
  todo : Nat → List ε

inductive HAct (ε : Type) where
  /-- any step of the bus and its users -/
  | bus (a : Action ε)
  /-- reading goroutine `k` sends its next event; to the dispatcher `d`, which waits at 97 -/
  | publish (k : Nat)
  | publishTo (k d : Nat)

/-- The events that goroutine `k` sends for what it has received. -/
def answers (react : Nat → ε → List ε) (k : Nat) : List (Ev ε) → List ε
  | [] => []
  | .read _ k' v :: l => (if k' = k then react k v else []) ++ answers react k l
  | _ :: l => answers react k l

/-- A reading goroutine that has events to send does not receive or return. -/
def free (s : HState ε) : Action ε → Bool
  | .recv k => (s.todo k).isEmpty
  | .recvFrom k _ => (s.todo k).isEmpty
  | .timeout k => (s.todo k).isEmpty
  | _ => true

def hStep (react : Nat → ε → List ε) (s : HState ε) : HAct ε → Option (HState ε)
  | .bus a =>
    if free s a then
      (step s.bus a).map fun b => ⟨b, fun k => s.todo k ++ answers react k (b.log.drop s.bus.log.length)⟩
    else none
  | .publish k =>
    match s.todo k, s.bus.chClosed with
    | v :: vs, false => (step s.bus (.send v)).map fun b => ⟨b, fun j => if j = k then vs else s.todo j⟩
    | _, _ => none
  | .publishTo k d =>
    match s.todo k with
    | v :: vs => (step s.bus (.sendTo d v)).map fun b => ⟨b, fun j => if j = k then vs else s.todo j⟩
    | [] => none

def HReach (react : Nat → ε → List ε) (n : Nat) (s : HState ε) : Prop := Reachable (hStep react) ⟨new n, fun _ => []⟩ s

/-! ## Specification -/

/-- The steps of the dispatchers and of the reading goroutines. -/
def own : HAct ε → Bool
  | .bus (.take _) => true
  | .bus (.rlock _) => true
  | .bus (.visit _ _ _) => true
  | .bus (.runlock _) => true
  | .bus (.recv _) => true
  | .bus (.recvFrom _ _) => true
  | .bus _ => false
  | _ => true

/-- There are events that were not delivered yet, or not even sent. -/
def Work (s : HState ε) : Prop :=
  s.bus.ch ≠ [] ∨ (∃ (d : Nat) (v : ε), s.bus.disp[d]? = some (.got v)) ∨
  (∃ (d : Nat) (v : ε) (rem : List Nat), s.bus.disp[d]? = some (.visiting v rem)) ∨ ∃ k, s.todo k ≠ []

/-- The bus is open and has a dispatcher, and somebody reads from every receiver. -/
structure Running (s : HState ε) : Prop where
  opened  : s.bus.chClosed = false
  healthy : s.bus.wedged = false
  served  : ∃ (d : Nat) (p : DPC ε), s.bus.disp[d]? = some p ∧ p ≠ .gone
  heard   : ∀ (r : Nat) (c : Rcv ε), s.bus.rcvs[r]? = some c → c.closed = false →
    ∃ (k : Nat) (rd : Reader ε), s.bus.rds[k]? = some rd ∧ rd.r = r ∧ rd.st ≠ .ret

/-- Nobody can go on. -/
def Dead (react : Nat → ε → List ε) (s : HState ε) : Prop := ∀ a, own a = true → hStep react s a = none

/-- **C157** in full: as long as there are events, dispatchers and readers go on. -/
def C157Claim (ε : Type) : Prop := ∀ (react : Nat → ε → List ε) (n : Nat) (s : HState ε), HReach react n s → Running s → Work s → ¬ Dead react s

/-- Dispatcher `d` waits for a Block receiver that has no room, and all who read from it have events to send. -/
def Waits (s : HState ε) (d : Nat) : Prop :=
  ∃ v rem r c, s.bus.disp[d]? = some (.visiting v rem) ∧ r ∈ rem ∧ s.bus.rcvs[r]? = some c ∧ c.strat = .block ∧ c.cap ≤ c.buf.length ∧
    (∃ (k : Nat) (rd : Reader ε), s.bus.rds[k]? = some rd ∧ rd.r = r ∧ rd.st ≠ .ret) ∧
    ∀ (k : Nat) rd, s.bus.rds[k]? = some rd → rd.r = r → rd.st ≠ .ret → s.todo k ≠ []

/-! ## Proofs -/

theorem hstep_bus {react : Nat → ε → List ε} {s s' : HState ε} {a : HAct ε} (h : hStep react s a = some s') :
    ∃ b, step s.bus b = some s'.bus := by
  cases a with
  | bus a =>
    simp only [hStep] at h
    split at h
    · cases hb : step s.bus a <;> simp [hb] at h
      subst h; exact ⟨a, hb⟩
    · simp at h
  | publish k =>
    simp only [hStep] at h
    split at h
    · rename_i v vs _ _
      cases hb : step s.bus (.send v) <;> simp [hb] at h
      subst h; exact ⟨_, hb⟩
    · simp at h
  | publishTo k d =>
    simp only [hStep] at h
    split at h
    · rename_i v vs _
      cases hb : step s.bus (.sendTo d v) <;> simp [hb] at h
      subst h; exact ⟨_, hb⟩
    · simp at h

theorem hreach_bus {react : Nat → ε → List ε} {n : Nat} {s : HState ε} (h : HReach react n s) : Reach n s.bus := by
  refine Reachable.inv (I := fun s => Reach n s.bus) h ⟨[], rfl⟩ (fun s a s' hs ha => ?_)
  obtain ⟨b, hb⟩ := hstep_bus ha
  exact Reachable.trans hs (Reachable.step b hb)

/-- **C157**: the only way in which dispatchers and readers come to a stop with events left: the channel of the bus is full, every
dispatcher waits for a Block receiver without room, and all who read from this receiver wait for room in the channel of the bus. -/
theorem C157_only (react : Nat → ε → List ε) (n : Nat) (s : HState ε) (h : HReach react n s) (hr : Running s) (hw : Work s)
    (hd : Dead react s) : s.bus.chCap ≤ s.bus.ch.length ∧ ∀ d p, s.bus.disp[d]? = some p → p ≠ .gone → Waits s d := by
  have w := reach_wf (hreach_bus h)
  -- a dispatcher in its loop waits for a Block receiver
  have visiting : ∀ (d : Nat) (v : ε) (rem : List Nat), s.bus.disp[d]? = some (.visiting v rem) → Waits s d := by
    intro d v rem hv
    cases hrem : rem with
    | nil =>
      subst hrem
      have := hd (.bus (.runlock d)) rfl
      simp [hStep, free, step, hv] at this
    | cons r rem' =>
      have hm : r ∈ rem := by simp [hrem]
      obtain ⟨c, hc, hop, -⟩ := w.mem_open ((w.rem d v rem hv).2 r hm)
      have hno : ∀ k, offer s.bus d r k v (rem.erase r) c = none := by
        intro k
        have := hd (.bus (.visit d r k)) rfl
        simpa [hStep, free, step, hv, hm, hc] using this
      have hnw : waiting s.bus r = false := by
        cases hw : waiting s.bus r with
        | false => rfl
        | true =>
          obtain ⟨k, rd, hk, hp, hrr⟩ := (waiting_iff s.bus r).mp hw
          have h1 := hno k
          have h2 := (rd.waitsOn_iff r).mpr ⟨hp, hrr⟩
          simp only [offer, hop, hw, hk, h2] at h1
          split at h1 <;> simp at h1
      have hfull : c.strat = .block ∧ c.cap ≤ c.buf.length := by
        have h1 := hno 0
        simp only [offer, hop, hnw] at h1
        split at h1
        · simp at h1
        · rename_i ho
          simp at h1
          split at h1
          · simp at h1
          · rename_i hl
            cases hs : c.strat <;> simp [hs] at h1 ho ⊢
            omega
      refine ⟨v, rem, r, c, hv, hm, hc, hfull.1, hfull.2, hr.heard r c hc hop, fun k rd hk hrr hret ht => ?_⟩
      have hrun : rd.st = .run := by
        cases hs : rd.st with
        | run => rfl
        | ret => exact absurd hs hret
        | parked =>
          rw [(waiting_iff s.bus r).mpr ⟨k, rd, hk, hs, hrr⟩] at hnw
          simp at hnw
      have h1 := hd (.bus (.recv k)) rfl
      subst hrr
      simp only [hStep, free, ht, List.isEmpty_nil, if_true, step, hk, hrun, hc, hop, Option.map_eq_none_iff] at h1
      cases hb : c.buf with
      | cons x xs => simp [hb] at h1
      | nil =>
        simp only [hb, Bool.false_eq_true, if_false] at h1
        split at h1 <;> simp at h1
  have got : ∀ (d : Nat) (v : ε), s.bus.disp[d]? ≠ some (.got v) := by
    intro d v hg
    have := hd (.bus (.rlock d)) rfl
    simp [hStep, free, step, hg, hr.healthy] at this
  have full : ∀ k, s.todo k ≠ [] → s.bus.chCap ≤ s.bus.ch.length := by
    intro k hk
    have h1 := hd (.publish k) rfl
    cases ht : s.todo k with
    | nil => exact absurd ht hk
    | cons x xs =>
      simp [hStep, ht, hr.opened, step] at h1
      exact h1
  have idle : ∀ d : Nat, s.bus.disp[d]? ≠ some .idle := by
    intro d hi
    have hch : s.bus.ch = [] := by
      have h1 := hd (.bus (.take d)) rfl
      cases hc : s.bus.ch with
      | nil => rfl
      | cons x xs => simp [hStep, free, step, hi, hc] at h1
    have htodo : ∀ k, s.todo k = [] := by
      intro k
      have h1 := hd (.publishTo k d) rfl
      cases ht : s.todo k with
      | nil => rfl
      | cons x xs => simp [hStep, ht, step, hi, hch, hr.opened] at h1
    rcases hw with hw | ⟨d', v, hg⟩ | ⟨d', v, rem, hv⟩ | ⟨k, hk⟩
    · exact hw hch
    · exact got d' v hg
    · obtain ⟨-, -, r, c, -, -, -, -, -, ⟨k, rd, hk, hrr, hret⟩, hall⟩ := visiting d' v rem hv
      exact hall k rd hk hrr hret (htodo k)
    · exact hk (htodo k)
  have all : ∀ d p, s.bus.disp[d]? = some p → p ≠ .gone → Waits s d := by
    intro d p hp hg
    cases p with
    | idle => exact absurd hp (idle d)
    | got v => exact absurd hp (got d v)
    | visiting v rem => exact visiting d v rem hp
    | gone => exact absurd rfl hg
  refine ⟨?_, all⟩
  obtain ⟨d, p, hp, hg⟩ := hr.served
  obtain ⟨-, -, r, c, -, -, -, -, -, ⟨k, rd, hk, hrr, hret⟩, hall⟩ := all d p hp hg
  exact full k (hall k rd hk hrr hret)

/-- **C157**, without Block receivers. -/
theorem C157_drop_partial (react : Nat → ε → List ε) (n : Nat) (s : HState ε) (h : HReach react n s) (hr : Running s) (hw : Work s)
    (hb : ∀ c ∈ s.bus.rcvs, c.strat ≠ .block) : ¬ Dead react s := by
  intro hd
  obtain ⟨d, p, hp, hg⟩ := hr.served
  obtain ⟨-, -, r, c, -, -, hc, hs, -⟩ := (C157_only react n s h hr hw hd).2 d p hp hg
  exact hb c (List.mem_of_getElem? hc) hs

/-- **C157**, while there is room in the channel of the bus. -/
theorem C157_room_partial (react : Nat → ε → List ε) (n : Nat) (s : HState ε) (h : HReach react n s) (hr : Running s) (hw : Work s)
    (hb : s.bus.ch.length < s.bus.chCap) : ¬ Dead react s := by
  intro hd
  have := (C157_only react n s h hr hw hd).1
  omega

theorem answers_ne {react : Nat → ε → List ε} {k : Nat} : ∀ {l : List (Ev ε)}, answers react k l ≠ [] → ∃ v, react k v ≠ []
  | [], h => absurd rfl h
  | e :: l, h => by
    cases e with
    | read r k' v =>
      simp only [answers] at h
      by_cases hk : k' = k
      · by_cases hv : react k v = []
        · exact answers_ne (l := l) (by simpa [hk, hv] using h)
        · exact ⟨v, hv⟩
      · exact answers_ne (l := l) (by simpa [hk] using h)
    | _ => exact answers_ne (l := l) (by simpa [answers] using h)

theorem todo_ne {react : Nat → ε → List ε} {n : Nat} {s : HState ε} (h : HReach react n s) : ∀ k, s.todo k ≠ [] → ∃ v, react k v ≠ [] := by
  refine Reachable.inv (I := fun s => ∀ k, s.todo k ≠ [] → ∃ v, react k v ≠ []) h (fun k hk => absurd rfl hk) (fun s a s' hs ha k hk => ?_)
  cases a with
  | bus a =>
    simp only [hStep] at ha
    split at ha
    · cases hb : step s.bus a <;> simp [hb] at ha
      subst ha
      by_cases ht : s.todo k = []
      · exact answers_ne (l := _) (by simpa [ht] using hk)
      · exact hs k ht
    · simp at ha
  | publish j =>
    simp only [hStep] at ha
    split at ha
    · rename_i v vs hj _
      cases hb : step s.bus (.send v) <;> simp [hb] at ha
      subst ha
      by_cases e : k = j
      · exact hs k (by rw [e, hj]; simp)
      · exact hs k (by simpa [e] using hk)
    · simp at ha
  | publishTo j d =>
    simp only [hStep] at ha
    split at ha
    · rename_i v vs hj
      cases hb : step s.bus (.sendTo d v) <;> simp [hb] at ha
      subst ha
      by_cases e : k = j
      · exact hs k (by rw [e, hj]; simp)
      · exact hs k (by simpa [e] using hk)
    · simp at ha

/-- **C157**, when those who read from Block receivers do not send events themselves (others may). -/
theorem C157_quiet_partial (react : Nat → ε → List ε) (n : Nat) (s : HState ε) (h : HReach react n s) (hr : Running s) (hw : Work s)
    (hb : ∀ (k : Nat) rd c, s.bus.rds[k]? = some rd → s.bus.rcvs[rd.r]? = some c → c.strat = .block → ∀ v, react k v = []) : ¬ Dead react s := by
  intro hd
  obtain ⟨d, p, hp, hg⟩ := hr.served
  obtain ⟨-, -, r, c, -, -, hc, hs, -, ⟨k, rd, hk, hrr, hret⟩, hall⟩ := (C157_only react n s h hr hw hd).2 d p hp hg
  obtain ⟨v, hv⟩ := todo_ne h k (hall k rd hk hrr hret)
  exact hv (hb k rd c hk (by rw [hrr]; exact hc) hs v)

/-! ## For ever -/

/-- The dispatcher waits for the Block receiver `r` to take event `v`, and the readers of `r` wait for the bus. -/
def Jam (v : ε) (r : Nat) (s : HState ε) : Prop :=
  s.bus.chCap ≤ s.bus.ch.length ∧ (∃ rem, s.bus.disp = [.visiting v rem] ∧ r ∈ rem) ∧
  (∃ c, s.bus.rcvs[r]? = some c ∧ c.strat = .block ∧ c.cap ≤ c.buf.length ∧ c.closed = false) ∧
  ∀ (k : Nat) rd, s.bus.rds[k]? = some rd → rd.r = r → rd.st = .ret ∨ (rd.st = .run ∧ s.todo k ≠ [])

theorem jam_step {react : Nat → ε → List ε} {v : ε} {r : Nat} {s s' : HState ε} {a : HAct ε} (w : Wf s.bus) (ha : ∀ q drain, a ≠ .bus (.startRead q drain))
    (hg : a ≠ .bus .goDispatch) (h : Jam v r s) (hs : hStep react s a = some s') : Jam v r s' ∧ s'.bus.ch = s.bus.ch := by
  obtain ⟨hch, ⟨rem, hdisp, hm⟩, ⟨c, hc, hst, hfull, hop⟩, hrd⟩ := h
  have hlock : lockable s.bus = false := by simp [lockable, rlocked, hdisp]
  have hwait : waiting s.bus r = false := by
    cases hw : waiting s.bus r with
    | false => rfl
    | true =>
      obtain ⟨k, rd, hk, hp, hrr⟩ := (waiting_iff s.bus r).mp hw
      rcases hrd k rd hk hrr with e | ⟨e, -⟩ <;> rw [hp] at e <;> simp at e
  have hd : ∀ d p, s.bus.disp[d]? = some p → d = 0 ∧ p = .visiting v rem := by
    intro d p hp
    rw [hdisp] at hp
    cases d with
    | zero => simp at hp; exact ⟨rfl, hp.symm⟩
    | succ d => simp at hp
  have more : ∀ (k : Nat) (l : List (Ev ε)), s.todo k ≠ [] → s.todo k ++ answers react k l ≠ [] := by
    intro k l h e
    exact h (List.append_eq_nil_iff.1 e).1
  cases a with
  | publish k =>
    simp only [hStep] at hs
    split at hs
    · rename_i x xs _ hcl
      have : ¬ s.bus.ch.length < s.bus.chCap := by omega
      simp [step, hcl, this] at hs
    · simp at hs
  | publishTo k d =>
    simp only [hStep] at hs
    split at hs
    · cases hp : s.bus.disp[d]? with
      | none => simp [step, hp] at hs
      | some p => obtain ⟨-, rfl⟩ := hd d p hp; simp [step, hp] at hs
    · simp at hs
  | bus a =>
    simp only [hStep] at hs
    split at hs
    rotate_left
    · simp at hs
    rename_i hf
    cases hb : step s.bus a with
    | none => simp [hb] at hs
    | some b =>
      simp [hb] at hs
      subst hs
      have keep : b.ch = s.bus.ch → b.chCap = s.bus.chCap → b.disp = s.bus.disp → b.rcvs[r]? = s.bus.rcvs[r]? →
          (∀ (k : Nat) rd', b.rds[k]? = some rd' → rd'.r = r → s.bus.rds[k]? = some rd') →
          Jam v r ⟨b, fun k => s.todo k ++ answers react k (b.log.drop s.bus.log.length)⟩ ∧ b.ch = s.bus.ch := by
        intro h1 h2 h3 h4 h5
        refine ⟨⟨by simp only [h1, h2]; exact hch, ⟨rem, by simp only [h3]; exact hdisp, hm⟩, ⟨c, by simp only [h4]; exact hc, hst, hfull, hop⟩, ?_⟩, h1⟩
        intro k rd hk hrr
        rcases hrd k rd (h5 k rd hk hrr) hrr with e | ⟨e, e'⟩
        · exact .inl e
        · exact .inr ⟨e, more k _ e'⟩
      cases a with
      | send x =>
        simp only [step] at hb
        split at hb
        · simp at hb; subst hb
          exact keep rfl rfl rfl rfl (fun k rd h _ => h)
        · split at hb
          · omega
          · simp at hb
      | sendTo d x =>
        cases hp : s.bus.disp[d]? with
        | none => simp [step, hp] at hb
        | some p => obtain ⟨-, rfl⟩ := hd d p hp; simp [step, hp] at hb
      | goDispatch => exact absurd rfl hg
      | take d =>
        cases hp : s.bus.disp[d]? with
        | none => simp [step, hp] at hb
        | some p => obtain ⟨-, rfl⟩ := hd d p hp; simp [step, hp] at hb
      | rlock d =>
        cases hp : s.bus.disp[d]? with
        | none => simp [step, hp] at hb
        | some p => obtain ⟨-, rfl⟩ := hd d p hp; simp [step, hp] at hb
      | runlock d =>
        cases hp : s.bus.disp[d]? with
        | none => simp [step, hp] at hb
        | some p =>
          obtain ⟨-, rfl⟩ := hd d p hp
          cases rem with
          | nil => simp at hm
          | cons x xs => simp [step, hp] at hb
      | newRecv name cap strat => simp [step, hlock] at hb
      | recvClose q =>
        simp only [step, hlock] at hb
        split at hb <;> simp at hb
      | busClose1 =>
        simp only [step] at hb
        split at hb <;> simp at hb <;> subst hb <;> exact keep rfl rfl rfl rfl (fun k rd h _ => h)
      | busClose2 => simp [step, hlock] at hb
      | startRead q drain => exact absurd rfl (ha q drain)
      | timeout k =>
        simp only [step] at hb
        cases hk : s.bus.rds[k]? with
        | none => simp [hk] at hb
        | some rd =>
          simp only [hk] at hb
          split at hb
          · simp at hb; subst hb
            refine keep rfl rfl rfl rfl (fun j rd' hj hr' => ?_)
            rcases set_some hj with ⟨rfl, rfl⟩ | ⟨-, hj⟩
            · exfalso
              rename_i hc'
              rcases hrd k rd hk hr' with e | ⟨-, e⟩
              · exact hc'.2 e
              · simp [free] at hf; exact e hf
            · exact hj
          · simp at hb
      | recv k =>
        simp only [step] at hb
        cases hk : s.bus.rds[k]? with
        | none => simp [hk] at hb
        | some rd =>
          simp only [hk] at hb
          split at hb
          rotate_left
          · simp at hb
          rename_i hrun
          have hne : rd.r ≠ r := by
            intro e
            rcases hrd k rd hk e with e' | ⟨-, e'⟩
            · rw [hrun] at e'; simp at e'
            · simp [free] at hf; exact e' hf
          have h5 : ∀ (x : Reader ε), x.r = rd.r → ∀ (j : Nat) rd', (s.bus.rds.set k x)[j]? = some rd' → rd'.r = r → s.bus.rds[j]? = some rd' := by
            intro x hx j rd' hj hr'
            rcases set_some hj with ⟨rfl, rfl⟩ | ⟨-, hj⟩
            · exact absurd (hx.symm.trans hr') hne
            · exact hj
          cases hq : s.bus.rcvs[rd.r]? with
          | none => simp [hq] at hb
          | some c' =>
            simp only [hq] at hb
            split at hb
            · simp at hb; subst hb
              exact keep rfl rfl rfl (by simp [hne]) (h5 _ rfl)
            · split at hb
              · simp at hb; subst hb
                exact keep rfl rfl rfl rfl (h5 _ (Reader.onClosed_r rd))
              · split at hb <;> simp at hb <;> subst hb <;> exact keep rfl rfl rfl rfl (h5 _ rfl)
      | recvFrom k d =>
        simp only [step] at hb
        cases hk : s.bus.rds[k]? with
        | none => simp [hk] at hb
        | some rd =>
          cases hp : s.bus.disp[d]? with
          | none => simp [hk, hp] at hb
          | some p =>
            obtain ⟨rfl, rfl⟩ := hd d p hp
            simp only [hk, hp] at hb
            cases hq : s.bus.rcvs[rd.r]? with
            | none => simp [hq] at hb
            | some c' =>
              simp only [hq] at hb
              split at hb
              · rename_i hcond
                have hne : rd.r ≠ r := by
                  intro e
                  rcases hrd k rd hk e with e' | ⟨-, e'⟩
                  · rw [hcond.1] at e'; simp at e'
                  · simp [free] at hf; exact e' hf
                simp at hb; subst hb
                refine ⟨⟨hch, ⟨rem.erase rd.r, by simp [hdisp], (List.mem_erase_of_ne (Ne.symm hne)).2 hm⟩, ⟨c, hc, hst, hfull, hop⟩, ?_⟩, rfl⟩
                intro j rd' hj hr'
                rcases set_some hj with ⟨rfl, rfl⟩ | ⟨-, hj⟩
                · exact absurd hr' hne
                · rcases hrd j rd' hj hr' with e | ⟨e, e'⟩
                  · exact .inl e
                  · exact .inr ⟨e, more j _ e'⟩
              · simp at hb
      | visit d q k =>
        simp only [step] at hb
        cases hp : s.bus.disp[d]? with
        | none => simp [hp] at hb
        | some p =>
          obtain ⟨rfl, rfl⟩ := hd d p hp
          simp only [hp] at hb
          split at hb
          rotate_left
          · simp at hb
          rename_i hqm
          cases hq : s.bus.rcvs[q]? with
          | none => simp [hq] at hb
          | some c' =>
            simp only [hq] at hb
            have hne : q ≠ r := by
              rintro rfl
              rw [hc] at hq; simp at hq; subst hq
              have : ¬ c.buf.length < c.cap := by omega
              simp [offer, hst, hop, hwait, this] at hb
            have hm' : r ∈ rem.erase q := (List.mem_erase_of_ne (Ne.symm hne)).2 hm
            have keep' : b.ch = s.bus.ch → b.chCap = s.bus.chCap → b.disp = s.bus.disp.set 0 (.visiting v (rem.erase q)) →
                b.rcvs[r]? = s.bus.rcvs[r]? → (∀ (k : Nat) rd', b.rds[k]? = some rd' → rd'.r = r → s.bus.rds[k]? = some rd') →
                Jam v r ⟨b, fun k => s.todo k ++ answers react k (b.log.drop s.bus.log.length)⟩ ∧ b.ch = s.bus.ch := by
              intro h1 h2 h3 h4 h5
              refine ⟨⟨by simp only [h1, h2]; exact hch, ⟨rem.erase q, by simp only [h3, hdisp]; rfl, hm'⟩,
                ⟨c, by simp only [h4]; exact hc, hst, hfull, hop⟩, ?_⟩, h1⟩
              intro k rd hk hrr
              rcases hrd k rd (h5 k rd hk hrr) hrr with e | ⟨e, e'⟩
              · exact .inl e
              · exact .inr ⟨e, more k _ e'⟩
            simp only [offer] at hb
            split at hb
            · simp at hb; subst hb
              exact keep' rfl rfl rfl rfl (fun k rd h _ => h)
            split at hb
            · rename_i hcl
              obtain ⟨c2, hc2, hop2, -⟩ := w.mem_open ((w.rem 0 v rem hp).2 q hqm)
              rw [hq] at hc2; simp at hc2; subst hc2
              rw [hop2] at hcl; simp at hcl
            split at hb
            · split at hb
              · rename_i rd hk
                split at hb
                · rename_i hw
                  simp at hb; subst hb
                  refine keep' rfl rfl rfl rfl (fun j rd' hj hr' => ?_)
                  rcases set_some hj with ⟨rfl, rfl⟩ | ⟨-, hj⟩
                  · exact absurd (((rd.waitsOn_iff q).1 hw).2.symm.trans hr') hne
                  · exact hj
                · simp at hb
              · simp at hb
            split at hb
            · simp at hb; subst hb
              exact keep' rfl rfl rfl (by simp [hne]) (fun k rd h _ => h)
            · split at hb
              · simp at hb; subst hb
                exact keep' rfl rfl rfl rfl (fun k rd h _ => h)
              · simp at hb

/-- **C157**: such a stop is for ever, whatever others do, unless a new dispatcher or a new reader comes: the event is never delivered, and
nothing is ever taken from the channel of the bus again. -/
theorem C157_forever (react : Nat → ε → List ε) (n : Nat) (s : HState ε) (h : HReach react n s) (v : ε) (r : Nat) (hj : Jam v r s)
    (as : List (HAct ε)) (ha : ∀ a ∈ as, a ≠ .bus .goDispatch ∧ ∀ q drain, a ≠ .bus (.startRead q drain)) (s' : HState ε)
    (he : exec (hStep react) s as = some s') : Jam v r s' ∧ s'.bus.ch = s.bus.ch := by
  refine (exec_inv_on (I := fun s' => HReach react n s' ∧ Jam v r s' ∧ s'.bus.ch = s.bus.ch)
    (P := fun a => a ≠ .bus .goDispatch ∧ ∀ q drain, a ≠ .bus (.startRead q drain)) ?_ as s s' ha ⟨h, hj, rfl⟩ he).2
  intro s1 a s2 hp ⟨h1, h2, h3⟩ hs
  obtain ⟨h4, h5⟩ := jam_step (reach_wf (hreach_bus h1)) hp.2 hp.1 h2 hs
  exact ⟨Reachable.trans h1 (Reachable.step a hs), h4, h5.trans h3⟩

/-! ## Examples -/

/-- Event 1 is answered by event 2. -/
def exReact : Nat → Nat → List Nat := fun _ v => if v = 1 then [2] else []

/-- Bus and Block receiver without buffers; the reader has received 1 and sends 2, the dispatcher has 3 for the reader. -/
def exJam : HState Nat :=
  ⟨⟨[], 0, false, [⟨"a", 0, .block, [], false⟩], [("a", 0)], [.visiting 3 [0]], [⟨0, false, .run, [some 1]⟩], false, false,
    [.reg 0, .sent 1, .start 0 1, .deliver 0 0 1, .read 0 0 1, .fin 0, .sent 3, .start 0 3]⟩, fun k => if k = 0 then [2] else []⟩

theorem exJam_reach : HReach exReact 0 exJam := by
  refine ⟨[.bus .goDispatch, .bus (.newRecv "a" 0 .block), .bus (.startRead 0 false), .bus (.sendTo 0 1), .bus (.rlock 0), .bus (.recv 0),
    .bus (.visit 0 0 0), .bus (.runlock 0), .bus (.sendTo 0 3), .bus (.rlock 0)], ?_⟩
  simp [exec, hStep, free, step, new, exJam, offer, waiting, lockable, rlocked, without, lookup, Reader.waitsOn, answers, exReact]
  funext k
  by_cases hk : k = 0
  · subst hk; rfl
  · simp [hk, Ne.symm hk]

theorem exJam_jam : Jam 3 0 exJam := by
  refine ⟨by simp [exJam], ⟨[0], rfl, by simp⟩, ⟨_, rfl, rfl, by simp, rfl⟩, fun k rd hk _ => ?_⟩
  cases k with
  | zero => simp [exJam] at hk; subst hk; exact .inr ⟨rfl, by simp [exJam]⟩
  | succ k => simp [exJam] at hk

theorem exJam_running : Running exJam := by
  refine ⟨rfl, rfl, ⟨0, _, rfl, by simp⟩, fun r c hc _ => ?_⟩
  cases r with
  | zero => exact ⟨0, _, rfl, rfl, by simp⟩
  | succ r => simp [exJam] at hc

theorem exJam_dead : Dead exReact exJam := by
  intro a ha
  cases a with
  | publish k => by_cases hk : k = 0 <;> simp [hStep, exJam, hk, step]
  | publishTo k d => by_cases hk : k = 0 <;> cases d <;> simp [hStep, exJam, hk, step]
  | bus a =>
    cases a with
    | take d => cases d <;> simp [hStep, exJam, step]
    | rlock d => cases d <;> simp [hStep, exJam, step]
    | runlock d => cases d <;> simp [hStep, exJam, step]
    | recv k => by_cases hk : k = 0 <;> simp [hStep, exJam, free, hk, step]
    | recvFrom k d => by_cases hk : k = 0 <;> simp [hStep, exJam, free, hk, step]
    | visit d r k =>
      cases d with
      | succ d => simp [hStep, exJam, free, step]
      | zero =>
        by_cases hr : r = 0
        · simp [hStep, exJam, free, step, hr, offer, waiting, Reader.waitsOn]
        · simp [hStep, exJam, free, step, hr]
    | _ => simp [own] at ha

/-- A reader of a Block receiver that answers one event, while somebody else sends another, stops the bus for ever. -/
theorem C157_violated : ¬ C157Claim Nat := fun h =>
  h exReact 0 exJam exJam_reach exJam_running (.inr (.inr (.inl ⟨0, 3, [0], rfl⟩))) exJam_dead

/-- With a Drop receiver it goes on: event 3 can be dropped. -/
example : ∃ s, HReach exReact 0 s ∧ Running s ∧ Work s ∧ ∀ c ∈ s.bus.rcvs, c.strat ≠ .block := by
  refine ⟨⟨⟨[], 0, false, [⟨"a", 0, .drop, [], false⟩], [("a", 0)], [.visiting 3 [0]], [⟨0, false, .run, [some 1]⟩], false, false,
    [.reg 0, .sent 1, .start 0 1, .deliver 0 0 1, .read 0 0 1, .fin 0, .sent 3, .start 0 3]⟩, fun k => if k = 0 then [2] else []⟩, ?_, ?_, ?_, ?_⟩
  · refine ⟨[.bus .goDispatch, .bus (.newRecv "a" 0 .drop), .bus (.startRead 0 false), .bus (.sendTo 0 1), .bus (.rlock 0), .bus (.recv 0),
      .bus (.visit 0 0 0), .bus (.runlock 0), .bus (.sendTo 0 3), .bus (.rlock 0)], ?_⟩
    simp [exec, hStep, free, step, new, offer, waiting, lockable, rlocked, without, lookup, Reader.waitsOn, answers, exReact]
    funext k
    by_cases hk : k = 0
    · subst hk; rfl
    · simp [hk, Ne.symm hk]
  · refine ⟨rfl, rfl, ⟨0, _, rfl, by simp⟩, fun r c hc _ => ?_⟩
    cases r with
    | zero => exact ⟨0, _, rfl, rfl, by simp⟩
    | succ r => simp at hc
  · exact .inr (.inr (.inl ⟨0, 3, [0], rfl⟩))
  · simp

end Gears.Bus.Loop
