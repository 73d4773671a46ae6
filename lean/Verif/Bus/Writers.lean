import Verif.Bus.Progress

/-
C132: the bus (/repo/event/bus.go) with the lock of Go's package sync (rwmutex.go).

In Model.lean a section under the write lock of `recvMapLock` happens at some moment at which no dispatcher holds the lock for reading.  Here a call first is in `Lock`:
from then on dispatchers that come to `RLock` (98) have to wait; the call goes on when the dispatchers that have the lock are through; when it unlocks, all the
dispatchers that came meanwhile get the lock, before any other call does.
Calls that wait for a call which is in `Lock` or has the lock have not done anything; they are not in the state.
-/

namespace Gears.Bus

variable {ε : Type}

/-- The sections under the write lock: 73-75, 107-110, 88-93. -/
inductive Writer where
  | newRecv (name : String) (cap : Nat) (strat : Strategy)
  | recvClose (r : Nat)
  | busClose
deriving Repr, DecidableEq

def Writer.act : Writer → Action ε
  | .newRecv name cap strat => .newRecv name cap strat
  | .recvClose r => .recvClose r
  | .busClose => .busClose2

/-- The call can be at its `Lock`: the receiver exists, the channel of the bus has been closed in the call (87). -/
def Writer.Ready (s : State ε) : Writer → Prop
  | .newRecv _ _ _ => True
  | .recvClose r => r < s.rcvs.length
  | .busClose => s.closing = true

instance (s : State ε) (w : Writer) : Decidable (w.Ready s) := by cases w <;> unfold Writer.Ready <;> infer_instance

/-- `cur`: the call that is in `Lock`, or died with the lock; `waiting`: the dispatchers parked in `RLock`. -/
structure WState (ε : Type) where
  bus     : State ε
  cur     : Option Writer
  waiting : List Nat
deriving Repr, DecidableEq

def wNew (n : Nat) : WState ε := ⟨new n, none, []⟩

/-- Neither `RLock` nor a section under the write lock. -/
def Plain : Action ε → Bool
  | .rlock _ | .newRecv _ _ _ | .recvClose _ | .busClose2 => false
  | _ => true

inductive WAct (ε : Type) where
  | plain (a : Action ε)
  | rlock (d : Nat)
  /-- a call keeps the dispatchers out -/
  | lock (w : Writer)
  /-- the call gets the lock, does its section and unlocks -/
  | enter
deriving Repr, DecidableEq

def wStep (s : WState ε) : WAct ε → Option (WState ε)
  | .plain a => if Plain a then (step s.bus a).map fun b => { s with bus := b } else none
  | .rlock d =>
    match s.bus.disp[d]? with
    | some (.got _) =>
      if d ∈ s.waiting then none
      else match s.cur with
        | none => (step s.bus (.rlock d)).map fun b => { s with bus := b }
        | some _ => some { s with waiting := s.waiting ++ [d] }
    | _ => none
  | .lock w => if s.cur = none ∧ w.Ready s.bus then some { s with cur := some w } else none
  | .enter =>
    match s.cur with
    | none => none
    | some w =>
      match step s.bus w.act with
      | none => none
      -- a panic in `deregisterRecv` leaves the lock held
      | some b => if b.wedged then some { s with bus := b } else (exec step b (s.waiting.map .rlock)).map fun b' => ⟨b', none, []⟩

def WReach (n : Nat) (s : WState ε) : Prop := Reachable wStep (wNew n) s

/-- The dispatchers that hold an event keep it until `RLock`. -/
theorem disp_step {s s' : State ε} (w : Wf s) {a : Action ε} (h : step s a = some s') (hr : isRlock a = false) :
    s'.disp = s.disp ∨ s'.disp = s.disp ++ [.idle] ∨ ∃ (d : Nat) (p q : DPC ε), s.disp[d]? = some p ∧ s'.disp = s.disp.set d q ∧ ∀ v, p ≠ .got v := by
  cases a with
  | visit d r k =>
    simp only [step] at h
    split at h
    · rename_i v rem hd
      split at h
      · rename_i hm
        split at h
        · rename_i c hc
          obtain ⟨c', hc', hop, _⟩ := w.mem_open ((w.rem d v rem hd).2 r hm)
          rw [hc] at hc'; simp only [Option.some.injEq] at hc'; subst hc'
          exact .inr (.inr ⟨d, _, _, hd, offer_disp hop h, by simp⟩)
        · simp at h
      · simp at h
    · simp at h
  | rlock d => simp [isRlock] at hr
  | goDispatch => simp only [step, Option.some.injEq] at h; subst h; exact .inr (.inl rfl)
  | busClose2 =>
    left
    simp only [step] at h
    split at h
    · split at h
      · rename_i s1 h1
        simp at h; subst h
        exact (closeAll_disp _ _ s1 h1 : s1.disp = s.disp)
      · simp at h; subst h; rfl
    · simp at h
  | sendTo d v =>
    simp only [step] at h
    split at h
    · rename_i h1 _ _
      simp only [Option.some.injEq] at h
      exact .inr (.inr ⟨d, _, _, h1, by rw [← h], by simp⟩)
    · simp at h
  | take d =>
    simp only [step] at h
    split at h
    · rename_i h1
      split at h
      · simp only [Option.some.injEq] at h
        exact .inr (.inr ⟨d, _, _, h1, by rw [← h], by simp⟩)
      · split at h
        · simp only [Option.some.injEq] at h
          exact .inr (.inr ⟨d, _, _, h1, by rw [← h], by simp⟩)
        · simp at h
    · simp at h
  | runlock d =>
    simp only [step] at h
    split at h
    · rename_i h1
      simp only [Option.some.injEq] at h
      exact .inr (.inr ⟨d, _, _, h1, by rw [← h], by simp⟩)
    · simp at h
  | recvFrom k d =>
    simp only [step] at h
    split at h
    · rename_i rd v rem hrd hd
      split at h
      · simp at h
      · split at h
        · simp only [Option.some.injEq] at h
          exact .inr (.inr ⟨d, _, _, hd, by rw [← h], by simp⟩)
        · simp at h
    · simp at h
  | _ => left; simp only [step] at h; (repeat' split at h) <;> simp at h <;> subst h <;> rfl

theorem got_stays {s s' : State ε} (w : Wf s) {a : Action ε} (h : step s a = some s') (hr : isRlock a = false) {d : Nat} {v : ε}
    (hd : s.disp[d]? = some (.got v)) : s'.disp[d]? = some (.got v) := by
  rcases disp_step w h hr with e | e | ⟨d', p, q, h1, e, h2⟩
  · rw [e]; exact hd
  · rw [e, List.getElem?_append_left (by have := List.getElem?_eq_some_iff.1 hd; exact this.1)]; exact hd
  · rw [e, List.getElem?_set_ne]
    · exact hd
    · rintro rfl
      rw [hd] at h1
      exact h2 v (Option.some.inj h1).symm

theorem plain_keeps {s s' : State ε} {a : Action ε} (h : step s a = some s') (hp : Plain a = true) :
    s'.rcvs.map (·.strat) = s.rcvs.map (·.strat) ∧ (s.closing = true → s'.closing = true) ∧ s'.map = s.map := by
  have hset : ∀ (r : Nat) (c c' : Rcv ε), s.rcvs[r]? = some c → c'.strat = c.strat → (s.rcvs.set r c').map (·.strat) = s.rcvs.map (·.strat) := by
    intro r c c' hc hs
    apply List.ext_getElem?
    intro i
    simp only [List.getElem?_map, List.getElem?_set]
    split
    · subst_vars
      split
      · simp [hc, hs]
      · rename_i h1; exact absurd (List.getElem?_eq_some_iff.1 hc).1 h1
    · rfl
  cases a <;> simp only [Plain, Bool.false_eq_true] at hp <;> simp only [step, offer] at h <;> (repeat' split at h) <;> simp at h <;>
    (try subst h) <;> (refine ⟨?_, ?_, ?_⟩ <;> first | rfl | exact id | (intro _; rfl) | (refine hset _ _ _ (by assumption) ?_; rfl))

theorem plain_rlock {a : Action ε} (h : Plain a = true) : isRlock a = false := by cases a <;> simp_all [Plain, isRlock]

theorem writer_rlock (w : Writer) : isRlock (w.act : Action ε) = false := by cases w <;> rfl

/-- All the dispatchers that wait get the lock. -/
theorem grant : ∀ (ds : List Nat) (b : State ε), ds.Nodup → (∀ d ∈ ds, ∃ v, b.disp[d]? = some (.got v)) → b.wedged = false →
    ∃ b', exec step b (ds.map .rlock) = some b' ∧ b'.map = b.map ∧ b'.wedged = false ∧ b'.rcvs = b.rcvs ∧ b'.closing = b.closing ∧
      (∀ d ∈ ds, ∀ v, b.disp[d]? = some (.got v) → b'.disp[d]? = some (.visiting v (b.map.map Prod.snd))) ∧
      ∀ d, d ∉ ds → b'.disp[d]? = b.disp[d]?
  | [], b, _, _, hw => ⟨b, rfl, rfl, hw, rfl, rfl, by simp, by simp⟩
  | d :: ds, b, hn, hg, hw => by
    obtain ⟨v, hv⟩ := hg d (by simp)
    obtain ⟨hd, hn⟩ := List.nodup_cons.1 hn
    have h1 : step b (.rlock d) = some { b with disp := b.disp.set d (.visiting v (b.map.map Prod.snd)), log := b.log ++ [.start d v] } := by
      simp [step, hv, hw]
    have hlt : d < b.disp.length := (List.getElem?_eq_some_iff.1 hv).1
    obtain ⟨b', e, h2, h3, h4, h5, h6, h7⟩ := grant ds { b with disp := b.disp.set d (.visiting v (b.map.map Prod.snd)), log := b.log ++ [.start d v] } hn
      (by
        intro d' hd'
        obtain ⟨v', hv'⟩ := hg d' (by simp [hd'])
        have : d ≠ d' := by rintro rfl; exact hd hd'
        exact ⟨v', by simpa [List.getElem?_set_ne this] using hv'⟩) hw
    refine ⟨b', by simp only [List.map_cons, exec, h1]; exact e, h2, h3, h4, h5, ?_, ?_⟩
    · intro d' hd' v' hv'
      rcases List.mem_cons.1 hd' with rfl | hd'
      · rw [hv] at hv'
        cases hv'
        rw [h7 d' hd]
        simp [hlt]
      · have : d ≠ d' := by rintro rfl; exact hd hd'
        exact h6 d' hd' v' (by simpa [List.getElem?_set_ne this] using hv')
    · intro d' hd'
      simp only [List.mem_cons, not_or] at hd'
      rw [h7 d' hd'.2]
      simp [List.getElem?_set_ne (Ne.symm hd'.1)]

theorem plain_wedged {s s' : State ε} (w : Wf s) {a : Action ε} (h : step s a = some s') (hp : Plain a = true) : s'.wedged = s.wedged := by
  cases a with
  | visit d r k =>
    simp only [step] at h
    split at h
    · rename_i v rem hd
      split at h
      · rename_i hm
        split at h
        · rename_i c hc
          obtain ⟨c', hc', hop, _⟩ := w.mem_open ((w.rem d v rem hd).2 r hm)
          rw [hc] at hc'; simp only [Option.some.injEq] at hc'; subst hc'
          simp only [offer, hop, Bool.false_eq_true, if_false] at h
          (repeat' split at h) <;> simp at h <;> subst h <;> rfl
        · simp at h
      · simp at h
    · simp at h
  | _ => simp only [Plain, Bool.false_eq_true] at hp <;> simp only [step] at h <;> (repeat' split at h) <;> simp at h <;> subst h <;> rfl

structure WInv (n : Nat) (s : WState ε) : Prop where
  reach : Reach n s.bus
  nodup : s.waiting.Nodup
  got   : ∀ d ∈ s.waiting, ∃ v, s.bus.disp[d]? = some (.got v)
  cur   : s.waiting ≠ [] → s.cur ≠ none
  ready : ∀ w, s.cur = some w → s.bus.wedged = false → w.Ready s.bus
  free  : s.cur = none → s.bus.wedged = false

theorem winv_step (n : Nat) (s : WState ε) (a : WAct ε) (s' : WState ε) (hi : WInv n s) (h : wStep s a = some s') : WInv n s' := by
  obtain ⟨h1, h2, h3, h4, h5, h6⟩ := hi
  have w := reach_wf h1
  cases a <;> simp only [wStep] at h
  case plain a =>
    split at h
    · rename_i hp
      obtain ⟨b, hb, rfl⟩ := Option.map_eq_some_iff.1 h
      obtain ⟨k1, k2, -⟩ := plain_keeps hb hp
      refine ⟨h1.trans (.step a hb), h2, fun d hd => ?_, h4, fun x hx hw => ?_, fun hc => ?_⟩
      · obtain ⟨v, hv⟩ := h3 d hd
        exact ⟨v, got_stays w hb (plain_rlock hp) hv⟩
      · have := h5 x hx (by rw [← plain_wedged w hb hp]; exact hw)
        cases x
        · trivial
        · have hl := congrArg List.length k1
          simp only [List.length_map] at hl
          simpa [Writer.Ready, hl] using this
        · exact k2 this
      · exact (plain_wedged w hb hp).trans (h6 hc)
    · cases h
  case rlock d =>
    split at h
    · rename_i v hv
      split at h
      · cases h
      · rename_i hd
        split at h
        · rename_i hc
          obtain ⟨b, hb, rfl⟩ := Option.map_eq_some_iff.1 h
          have hw : s.waiting = [] := by
            cases hx : s.waiting with
            | nil => rfl
            | cons _ _ => exact absurd hc (h4 (by simp [hx]))
          refine ⟨h1.trans (.step _ hb), h2, by simp [hw], h4, fun x hx => by simp [hc] at hx, fun _ => ?_⟩
          have h0 := h6 hc
          simp only [step, hv, h0, Bool.false_eq_true, if_false, Option.some.injEq] at hb
          subst hb; rfl
        · cases h
          rename_i x hc
          refine ⟨h1, ?_, ?_, fun _ => by simp [hc], h5, h6⟩
          · simp [List.nodup_append, h2]
            intro a ha; rintro rfl; exact hd ha
          · intro d' hd'
            rcases List.mem_append.1 hd' with hd' | hd'
            · exact h3 d' hd'
            · simp at hd'; subst hd'; exact ⟨v, hv⟩
    · cases h
  case lock x =>
    split at h <;> cases h
    rename_i hc
    refine ⟨h1, h2, h3, fun _ => by simp, fun y hy hw => ?_, by simp⟩
    cases hy; exact hc.2
  case enter =>
    split at h
    · cases h
    · rename_i x hx
      split at h
      · cases h
      · rename_i b hb
        split at h
        · cases h
          rename_i hw
          refine ⟨h1.trans (.step _ hb), h2, fun d hd => ?_, h4, fun y hy hw' => ?_, fun hc => ?_⟩
          · obtain ⟨v, hv⟩ := h3 d hd
            exact ⟨v, got_stays w hb (writer_rlock x) hv⟩
          · simp only at hw'; simp [hw] at hw'
          · simp only at hc; simp [hx] at hc
        · rename_i hw
          have hw : b.wedged = false := by simpa using hw
          obtain ⟨b', e, rfl⟩ := Option.map_eq_some_iff.1 h
          obtain ⟨b'', e', g1, g2, -⟩ := grant s.waiting b h2 (fun d hd => by
            obtain ⟨v, hv⟩ := h3 d hd
            exact ⟨v, got_stays w hb (writer_rlock x) hv⟩) hw
          rw [e'] at e
          cases e
          exact ⟨(h1.trans (.step _ hb)).trans ⟨_, e'⟩, by simp, by simp, by simp, by simp, fun _ => g2⟩

theorem wreach_inv {n : Nat} {s : WState ε} (h : WReach n s) : WInv n s :=
  h.inv ⟨.refl _, by simp [wNew], by simp [wNew], by simp [wNew], by simp [wNew], by simp [wNew, new]⟩ (winv_step n)

/-! ## C132 -/

/-- C132: the lock only removes schedules: what was shown of all executions of the bus holds with it. -/
theorem C132_safe (n : Nat) (s : WState ε) (h : WReach n s) : Reach n s.bus := (wreach_inv h).reach

/-- C132: a dispatcher with an event waits for one call at most: it waits only while a call is in `Lock`, and when this call has unlocked, the dispatcher has the lock
and its event goes to all the receivers that are registered then. -/
theorem C132_turn (n : Nat) (s : WState ε) (h : WReach n s) (d : Nat) (hd : d ∈ s.waiting) :
    ∃ v, s.bus.disp[d]? = some (.got v) ∧ s.cur ≠ none ∧ (∀ w, wStep s (.lock w) = none) ∧
      ∀ s', wStep s .enter = some s' → s'.bus.wedged = false →
        s'.cur = none ∧ s'.waiting = [] ∧ s'.bus.disp[d]? = some (.visiting v (s'.bus.map.map Prod.snd)) := by
  obtain ⟨h1, h2, h3, h4, -, -⟩ := wreach_inv h
  obtain ⟨v, hv⟩ := h3 d hd
  have hc := h4 (List.ne_nil_of_mem hd)
  refine ⟨v, hv, hc, fun w => by simp [wStep, hc], fun s' hs hw => ?_⟩
  simp only [wStep] at hs
  split at hs
  · cases hs
  · rename_i x hx
    split at hs
    · cases hs
    · rename_i b hb
      split at hs
      · cases hs; rename_i hw'; simp only at hw; simp [hw] at hw'
      · rename_i hw'
        have hw' : b.wedged = false := by simpa using hw'
        have hgot : ∀ d ∈ s.waiting, ∃ v, b.disp[d]? = some (.got v) := fun d hd => by
          obtain ⟨v, hv⟩ := h3 d hd
          exact ⟨v, got_stays (reach_wf h1) hb (writer_rlock x) hv⟩
        obtain ⟨b', e, rfl⟩ := Option.map_eq_some_iff.1 hs
        obtain ⟨b'', e', g1, -, -, -, g2, -⟩ := grant s.waiting b h2 hgot hw'
        rw [e'] at e
        cases e
        refine ⟨rfl, rfl, ?_⟩
        rw [g1]
        exact g2 d hd v (got_stays (reach_wf h1) hb (writer_rlock x) hv)

theorem ready_enabled {n : Nat} {s : State ε} (h : Reach n s) (x : Writer) (hx : x.Ready s) (hl : lockable s = true) : ∃ b, step s x.act = some b := by
  have w := reach_wf h
  cases x with
  | newRecv name cap strat => exact ⟨_, by simp only [Writer.act, step, hl, if_true]; rfl⟩
  | recvClose q =>
    obtain ⟨me, hme⟩ : ∃ me, s.rcvs[q]? = some me := ⟨_, List.getElem?_eq_getElem hx⟩
    simp only [Writer.act, step, hme, hl, if_true]
    split
    · exact ⟨_, rfl⟩
    · rename_i q' hq'
      obtain ⟨c, hc, _⟩ := w.entry _ (lookup_some hq')
      simp only at hc
      rw [hc]
      dsimp only
      split <;> exact ⟨_, rfl⟩
  | busClose =>
    simp only [Writer.Ready] at hx
    simp only [Writer.act, step, hx, hl, true_and, if_true]
    split <;> exact ⟨_, rfl⟩

theorem enter_enabled {n : Nat} {s : WState ε} (hi : WInv n s) (x : Writer) (hc : s.cur = some x) (hw : s.bus.wedged = false) (hl : lockable s.bus = true) :
    ∃ s', wStep s .enter = some s' ∧ (s'.cur = none ∨ s'.bus.wedged = true) := by
  obtain ⟨b, hb⟩ := ready_enabled hi.reach x (hi.ready x hc hw) hl
  simp only [wStep, hc, hb]
  split
  · rename_i h; exact ⟨_, rfl, .inr h⟩
  · rename_i h
    obtain ⟨b', e, -⟩ := grant s.waiting b hi.nodup (fun d hd => by
      obtain ⟨v, hv⟩ := hi.got d hd
      exact ⟨v, got_stays (reach_wf hi.reach) hb (writer_rlock x) hv⟩) (by simpa using h)
    rw [e]
    exact ⟨_, rfl, .inl rfl⟩

/-- A dispatcher's step in its loop. -/
def wOwn : WAct ε → Bool
  | .plain a => own a
  | _ => false

theorem call_moves {n : Nat} {s' : WState ε} (hi : WInv n s') (x : Writer) (hc' : s'.cur = some x) (hw : s'.bus.wedged = false) :
    (∃ s'', wStep s' .enter = some s'' ∧ (s''.cur = none ∨ s''.bus.wedged = true)) ∨
      (∃ a, wOwn a = true ∧ (wStep s' a).isSome) ∨
      ∃ (r : Nat) (c : Rcv ε), s'.bus.rcvs[r]? = some c ∧ c.strat = .block ∧ c.cap ≤ c.buf.length ∧ c.closed = false ∧
        ∀ (k : Nat) rd, s'.bus.rds[k]? = some rd → rd.r = r → rd.st ≠ .parked := by
  by_cases hl : lockable s'.bus = true
  · exact .inl (enter_enabled hi x hc' hw hl)
  · right
    have hv : ∃ (d : Nat) (v : ε) (rem : List Nat), s'.bus.disp[d]? = some (DPC.visiting v rem) := by
      have : rlocked s'.bus = true := by simpa [lockable, hw] using hl
      unfold rlocked at this
      rw [List.any_eq_true] at this
      obtain ⟨p, hp, hpp⟩ := this
      obtain ⟨d, hd⟩ := List.getElem?_of_mem hp
      cases p <;> simp at hpp
      exact ⟨d, _, _, hd⟩
    obtain ⟨d, v, rem, hd⟩ := hv
    rcases holder_moves (reach_wf hi.reach) hd with ⟨a, ha, hs⟩ | hb
    · refine .inl ⟨.plain a, ha, ?_⟩
      have hp : Plain a = true := by cases a <;> simp_all [own, Plain]
      obtain ⟨b, hb⟩ := Option.isSome_iff_exists.1 hs
      simp [wStep, hp, hb]
    · exact .inr hb

/-- C132: a call that is in `Lock` waits for at most `work` steps of the dispatchers that have the lock, however many dispatchers come after it; it can take the lock, or
one of these dispatchers can go on, or one of them waits for a Block receiver with a full buffer on which nobody waits (C92). -/
theorem C132_call (n : Nat) (s : WState ε) (h : WReach n s) (x : Writer) (hc : s.cur = some x) (as : List (WAct ε)) (hn : WAct.enter ∉ as) (s' : WState ε)
    (he : exec wStep s as = some s') (hw : s'.bus.wedged = false) :
    as.countP wOwn ≤ work s.bus ∧ s'.cur = some x ∧
    ((∃ s'', wStep s' .enter = some s'' ∧ (s''.cur = none ∨ s''.bus.wedged = true)) ∨
      (∃ a, wOwn a = true ∧ (wStep s' a).isSome) ∨
      ∃ (r : Nat) (c : Rcv ε), s'.bus.rcvs[r]? = some c ∧ c.strat = .block ∧ c.cap ≤ c.buf.length ∧ c.closed = false ∧
        ∀ (k : Nat) rd, s'.bus.rds[k]? = some rd → rd.r = r → rd.st ≠ .parked) := by
  have key : ∀ (as : List (WAct ε)) (s : WState ε), WInv n s → s.cur = some x → WAct.enter ∉ as → exec wStep s as = some s' →
      WInv n s' ∧ as.countP wOwn ≤ work s.bus ∧ s'.cur = some x := by
    intro as
    induction as with
    | nil => intro s hi hc _ he; simp [exec] at he; subst he; exact ⟨hi, by simp, hc⟩
    | cons a as ih =>
      intro s hi hc hn he
      simp only [exec] at he
      simp only [List.mem_cons, not_or] at hn
      split at he
      · rename_i s1 h1
        have hi1 := winv_step n s a s1 hi h1
        have : s1.cur = some x ∧ work s1.bus + (if wOwn a then 1 else 0) ≤ work s.bus := by
          cases a with
          | plain a =>
            simp only [wStep] at h1
            split at h1
            · rename_i hp
              obtain ⟨b, hb, rfl⟩ := Option.map_eq_some_iff.1 h1
              exact ⟨hc, work_step (reach_wf hi.reach) hb (plain_rlock hp)⟩
            · cases h1
          | rlock d =>
            simp only [wStep, hc] at h1
            split at h1
            · split at h1
              · cases h1
              · cases h1; exact ⟨rfl, by simp [wOwn]⟩
            · cases h1
          | lock w => simp [wStep, hc] at h1
          | enter => simp at hn
        obtain ⟨k1, k2, k3⟩ := ih s1 hi1 this.1 hn.2 he
        refine ⟨k1, ?_, k3⟩
        rw [List.countP_cons]
        omega
      · simp at he
  obtain ⟨hi, hk, hc'⟩ := key as s (wreach_inv h) hc hn he
  refine ⟨hk, hc', ?_⟩
  exact call_moves hi x hc' hw

/-- C132: with Drop receivers only, nobody waits for good: the dispatchers and the call that is in `Lock` get through by their own steps; then no call and no dispatcher
waits for the lock (unless the call panics, C38). -/
theorem C132_drop (n : Nat) (s : WState ε) (h : WReach n s) (hb : ∀ c ∈ s.bus.rcvs, c.strat ≠ .block) (hw : s.bus.wedged = false) :
    ∃ as s', (∀ a ∈ as, wOwn a = true ∨ a = .enter) ∧ exec wStep s as = some s' ∧ (s'.cur = none ∧ s'.waiting = [] ∨ s'.bus.wedged = true) := by
  have key : ∀ (m : Nat) (s : WState ε), WInv n s → (∀ c ∈ s.bus.rcvs, c.strat ≠ .block) → s.bus.wedged = false → work s.bus ≤ m →
      ∃ as s', (∀ a ∈ as, wOwn a = true ∨ a = .enter) ∧ exec wStep s as = some s' ∧ (s'.cur = none ∧ s'.waiting = [] ∨ s'.bus.wedged = true) := by
    intro m
    induction m using Nat.strongRecOn with
    | ind m ih =>
    intro s hi hb hw hm
    cases hc : s.cur with
    | none => exact ⟨[], s, by simp, rfl, .inl ⟨hc, by
        cases hwt : s.waiting with
        | nil => rfl
        | cons d ds => exact absurd hc (hi.cur (by simp [hwt]))⟩⟩
    | some x =>
      rcases call_moves hi x hc hw with ⟨s', hs, hr⟩ | ⟨a, ha, hs⟩ | ⟨r, c, hr, hcb, _⟩
      · refine ⟨[.enter], s', by simp, by simp [exec, hs], hr.imp (fun hcn => ⟨hcn, ?_⟩) id⟩
        have hi' := winv_step n s .enter s' hi hs
        cases hwt : s'.waiting with
        | nil => rfl
        | cons d ds => exact absurd hcn (hi'.cur (by simp [hwt]))
      · obtain ⟨s1, h1⟩ := Option.isSome_iff_exists.1 hs
        have hi1 := winv_step n s a s1 hi h1
        cases a with
        | plain a =>
          simp only [wStep] at h1
          split at h1
          · rename_i hp
            obtain ⟨b, hbb, rfl⟩ := Option.map_eq_some_iff.1 h1
            have w := reach_wf hi.reach
            have hwk := work_step w hbb (plain_rlock hp)
            simp only [wOwn] at ha
            have hkeep : ∀ c ∈ b.rcvs, c.strat ≠ .block := by
              intro c hcm hcs
              have : Strategy.block ∈ s.bus.rcvs.map (·.strat) := by
                rw [← (plain_keeps hbb hp).1]
                exact List.mem_map.2 ⟨c, hcm, hcs⟩
              obtain ⟨c', h1, h2⟩ := List.mem_map.1 this
              exact hb c' h1 h2
            simp only [ha, if_true] at hwk
            obtain ⟨as, s', k1, k2, k3⟩ := ih (work b) (by omega) _ hi1 hkeep ((plain_wedged w hbb hp).trans hw) (Nat.le_refl _)
            refine ⟨.plain a :: as, s', ?_, ?_, k3⟩
            · intro y hy
              rcases List.mem_cons.1 hy with rfl | hy
              · exact .inl ha
              · exact k1 y hy
            · simp only [exec, wStep, hp, if_true, hbb, Option.map_some]
              exact k2
          · cases h1
        | rlock d => simp [wOwn] at ha
        | lock w => simp [wOwn] at ha
        | enter => simp [wOwn] at ha
      · exact absurd hcb (hb c (List.mem_of_getElem? hr))
  exact key _ s (wreach_inv h) hb hw (Nat.le_refl _)

/-- How many times a dispatcher has taken the lock to pass an event on. -/
def starts (log : List (Ev ε)) : Nat := log.countP fun
  | .start _ _ => true
  | _ => false

theorem plain_starts {s s' : State ε} {a : Action ε} (h : step s a = some s') (hp : Plain a = true) : starts s'.log = starts s.log := by
  cases a <;> simp only [Plain, Bool.false_eq_true] at hp <;> simp only [step, offer] at h <;> (repeat' split at h) <;> simp at h <;> subst h <;> simp [starts]

/-- C132: a call that comes while a dispatcher waits for a Block receiver whose buffer is full (say, the call is the `Close` of this receiver by the goroutine that
used to read it) stops the bus: no dispatcher passes an event on to any receiver before somebody reads an event from that receiver. -/
theorem C132_stop (n : Nat) (s : WState ε) (h : WReach n s) (x : Writer) (hc : s.cur = some x) (r : Nat) (hst : Stuck s.bus r) (as : List (WAct ε)) (s' : WState ε)
    (he : exec wStep s as = some s') :
    reads r s.bus.log < reads r s'.bus.log ∨ s'.cur = some x ∧ wStep s' .enter = none ∧ starts s'.bus.log = starts s.bus.log := by
  have hle : ∀ (as : List (Action ε)) (b b' : State ε), Wf b → exec step b as = some b' → reads r b.log ≤ reads r b'.log := by
    intro as
    induction as with
    | nil => intro b b' _ he; simp [exec] at he; subst he; exact Nat.le_refl _
    | cons a as ih =>
      intro b b' w he
      simp only [exec] at he
      split at he
      · rename_i b1 h1
        exact Nat.le_trans (reads_tr r (step_tr w h1)) (ih b1 b' (wf_tr w (step_tr w h1)) he)
      · simp at he
  have hle1 : ∀ (s s' : WState ε) (a : WAct ε), WInv n s → wStep s a = some s' → reads r s.bus.log ≤ reads r s'.bus.log := by
    intro s s' a hi h1
    have w := reach_wf hi.reach
    cases a with
    | plain a =>
      simp only [wStep] at h1
      split at h1
      · obtain ⟨b, hb, rfl⟩ := Option.map_eq_some_iff.1 h1
        exact reads_tr r (step_tr w hb)
      · cases h1
    | rlock d =>
      simp only [wStep] at h1
      split at h1
      · split at h1
        · cases h1
        · split at h1
          · obtain ⟨b, hb, rfl⟩ := Option.map_eq_some_iff.1 h1
            exact reads_tr r (step_tr w hb)
          · cases h1; exact Nat.le_refl _
      · cases h1
    | lock x =>
      simp only [wStep] at h1
      split at h1
      · cases h1; exact Nat.le_refl _
      · cases h1
    | enter =>
      simp only [wStep] at h1
      split at h1
      · cases h1
      · split at h1
        · cases h1
        · rename_i b hb
          have hb' := reads_tr r (step_tr w hb)
          split at h1
          · cases h1; exact hb'
          · obtain ⟨b', e, rfl⟩ := Option.map_eq_some_iff.1 h1
            exact Nat.le_trans hb' (hle _ _ _ (wf_tr w (step_tr w hb)) e)
  have hent : ∀ (s : WState ε), s.cur = some x → Stuck s.bus r → wStep s .enter = none := by
    intro s hc hst
    obtain ⟨n1, n2, n3⟩ := stuck_no_lock hst
    have : step s.bus x.act = none := by
      cases x with
      | newRecv a b c => exact n2 a b c
      | recvClose q => exact n1 q
      | busClose => exact n3
    simp [wStep, hc, this]
  have key : ∀ (as : List (WAct ε)) (s0 : WState ε), WInv n s0 → reads r s.bus.log ≤ reads r s0.bus.log →
      (reads r s.bus.log < reads r s0.bus.log ∨ s0.cur = some x ∧ Stuck s0.bus r ∧ starts s0.bus.log = starts s.bus.log) → exec wStep s0 as = some s' →
      reads r s.bus.log < reads r s'.bus.log ∨ s'.cur = some x ∧ Stuck s'.bus r ∧ starts s'.bus.log = starts s.bus.log := by
    intro as
    induction as with
    | nil => intro s0 _ _ h0 he; simp [exec] at he; subst he; exact h0
    | cons a as ih =>
      intro s0 hi hl h0 he
      simp only [exec] at he
      split at he
      · rename_i s1 h1
        have hl1 := hle1 s0 s1 a hi h1
        refine ih s1 (winv_step n s0 a s1 hi h1) (by omega) ?_ he
        rcases h0 with h0 | ⟨c0, st0, e0⟩
        · exact .inl (by omega)
        · have w := reach_wf hi.reach
          cases a with
          | plain a =>
            simp only [wStep] at h1
            split at h1
            · rename_i hp
              obtain ⟨b, hb, rfl⟩ := Option.map_eq_some_iff.1 h1
              rcases (stuck_tr st0 (step_tr w hb)).2 with hs | hs
              · exact .inr ⟨c0, hs, (plain_starts hb hp).trans e0⟩
              · exact .inl (Nat.lt_of_le_of_lt hl hs)
            · cases h1
          | rlock d =>
            simp only [wStep, c0] at h1
            split at h1
            · split at h1
              · cases h1
              · cases h1; exact .inr ⟨rfl, st0, e0⟩
            · cases h1
          | lock y => simp [wStep, c0] at h1
          | enter => rw [hent s0 c0 st0] at h1; cases h1
      · simp at he
  rcases key as s (wreach_inv h) (Nat.le_refl _) (.inr ⟨hc, hst, rfl⟩) he with h1 | ⟨h1, h2, h3⟩
  · exact .inl h1
  · exact .inr ⟨h1, hent s' h1 h2, h3⟩

/-! Two dispatchers; one has an event for a Drop receiver, a call comes, then the second dispatcher, which has to wait, though the lock is held for reading only. -/

def exWait : List (WAct Nat) :=
  [.plain .goDispatch, .plain .goDispatch, .lock (.newRecv "a" 0 .drop), .enter, .plain (.sendTo 0 10), .rlock 0, .lock (.newRecv "b" 1 .drop), .plain (.sendTo 1 11), .rlock 1]

example : (exec wStep (wNew 0) exWait).map (fun s => (s.bus.disp, s.cur, s.waiting)) =
    some ([.visiting 10 [0], .got 11], some (.newRecv "b" 1 .drop), [1]) := by decide
-- the call waits for the first dispatcher
example : (exec wStep (wNew 0) (exWait ++ [.enter])) = none := by decide
-- when the call is through, the second dispatcher has the lock and its event goes to the new receiver too
example : (exec wStep (wNew 0) (exWait ++ [.plain (.visit 0 0 0), .plain (.runlock 0), .enter])).map (fun s => (s.bus.disp, s.cur, s.waiting)) =
    some ([.idle, .visiting 11 [0, 1]], none, []) := by decide
-- in the model without writer preference the second dispatcher overtakes the call
example : (exec step (new 0) [.goDispatch, .goDispatch, .newRecv "a" 0 .drop, .sendTo 0 10, .rlock 0, .sendTo 1 11, .rlock 1]).map (·.disp) =
    some [.visiting 10 [0], .visiting 11 [0]] := by decide
-- the reader of a Block receiver closes it instead of reading on
example : ∃ s, exec wStep (wNew 0) [.plain .goDispatch, .lock (.newRecv "a" 0 .block), .enter, .plain (.sendTo 0 10), .rlock 0, .lock (.recvClose 0)] = some s ∧
    s.cur = some (.recvClose 0) ∧ Stuck s.bus 0 := ⟨_, rfl, rfl, 0, 10, [0], _, rfl, by simp, rfl, rfl, by decide⟩

end Gears.Bus
