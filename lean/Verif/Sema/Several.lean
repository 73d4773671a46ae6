import Verif.Sema.Fair

/-
Goroutines that hold several permits at a time (C174): /repo/concurrent/sema.go:22-33 (the interface), 59-70, 91-108.

There is no call that takes several permits at once, so a goroutine that needs `n` of them calls `Acquire` `n` times,
works, and calls `Release` `n` times.  Any number of such goroutines share one semaphore, in any interleaving.  The
semaphores are those of Model.lean; a goroutine that is blocked in `Acquire` goes on when its call has got its permit.
-/

namespace Gears.Sema.Several

open Gears Gears.Sema

/-- What a goroutine can do with a semaphore: `Acquire`, `Release`, and the steps inside blocked calls of `Acquire`. -/
structure Impl (σ : Type) where
  acquire : σ → Option σ
  release : σ → Option σ
  inner   : σ → Nat → Option σ
  log     : σ → List Ev
  calls   : σ → Nat

/-- `ChanSemaphore` (55-81). -/
def chan : Impl Chan.State where
  acquire s := Chan.step s .acquire
  release s := Chan.step s .release
  inner _ _ := none
  log s := s.log
  calls s := s.calls

/-- `LockSemaphore` (84-122); a woken call gets the mutex and tests again (93). -/
def lock : Impl Lock.State where
  acquire s := Lock.step s .acquire
  release s := Lock.step s .release
  inner s i := Lock.step s (.run i)
  log s := s.log
  calls s := s.pcs.length

/-- Where a goroutine is. -/
inductive At where
  /-- between two calls of `Acquire`, or after the last -/
  | taking
  /-- blocked in call `i` of `Acquire` -/
  | blocked (i : Nat)
  /-- between two calls of `Release`, or after the last -/
  | giving
deriving Repr, DecidableEq

/-- A goroutine: how many permits it needs, how many `Acquire` calls minus `Release` calls have returned. -/
structure G where
  need : Nat
  held : Nat
  at_  : At
deriving Repr, DecidableEq

structure Sys (σ : Type) where
  s  : σ
  gs : List G

def G.new (n : Nat) : G := ⟨n, 0, .taking⟩

/-- It has returned everything. -/
def G.Finished (g : G) : Prop := g.held = 0 ∧ (g.at_ = .giving ∨ g.at_ = .taking ∧ g.need = 0)

inductive Action where
  /-- goroutine `g` makes its next call, or comes back from a blocked one -/
  | act (g : Nat)
  /-- a step inside a blocked call -/
  | inner (i : Nat)
deriving Repr, DecidableEq

def step {σ : Type} (I : Impl σ) (x : Sys σ) : Action → Option (Sys σ)
  | .inner i => (I.inner x.s i).map fun s' => { x with s := s' }
  | .act k =>
    match x.gs[k]? with
    | none => none
    | some g =>
      match g.at_ with
      | .blocked i => if Ev.acquired i ∈ I.log x.s then some { x with gs := x.gs.set k ⟨g.need, g.held + 1, .taking⟩ } else none
      | .taking =>
        if g.held < g.need then
          (I.acquire x.s).map fun s' =>
            if Ev.acquired (I.calls x.s) ∈ I.log s' then ⟨s', x.gs.set k ⟨g.need, g.held + 1, .taking⟩⟩
            else ⟨s', x.gs.set k ⟨g.need, g.held, .blocked (I.calls x.s)⟩⟩
        else if 0 < g.held then (I.release x.s).map fun s' => ⟨s', x.gs.set k ⟨g.need, g.held - 1, .giving⟩⟩
        else none
      | .giving =>
        if 0 < g.held then (I.release x.s).map fun s' => ⟨s', x.gs.set k ⟨g.need, g.held - 1, .giving⟩⟩ else none

/-- Nothing can happen any more. -/
def Stuck {σ : Type} (I : Impl σ) (x : Sys σ) : Prop := ∀ a, step I x a = none

def start {σ : Type} (s : σ) (needs : List Nat) : Sys σ := ⟨s, needs.map G.new⟩

/-- All goroutines get through: every schedule ends, and when nothing can happen any more all of them have finished. -/
def GetThrough {σ : Type} (I : Impl σ) (s : σ) (needs : List Nat) : Prop :=
  (∃ B : Nat, ∀ as x, exec (step I) (start s needs) as = some x → as.length ≤ B) ∧
  ∀ as x, exec (step I) (start s needs) as = some x → Stuck I x → ∀ g ∈ x.gs, g.Finished

/-! ### What is used of the semaphores -/

structure Laws {σ : Type} (I : Impl σ) (p : Int) (R : σ → Prop) (rank : σ → Nat) : Prop where
  old : ∀ s i, R s → Ev.acquired i ∈ I.log s → i < I.calls s
  acq : ∀ s, R s → ∃ s', I.acquire s = some s' ∧ R s' ∧ I.calls s' = I.calls s + 1 ∧ rank s' ≤ rank s ∧
    ((inUse (I.log s) < p ∧ I.log s' = I.log s ++ [.acquired (I.calls s)]) ∨
      (p ≤ inUse (I.log s) ∧ I.log s' = I.log s ++ [.blocked (I.calls s)]))
  rel : ∀ s, R s → ∃ s', I.release s = some s' ∧ R s' ∧ I.calls s' = I.calls s ∧ rank s' ≤ I.calls s ∧
    ((inUse (I.log s) ≤ 0 ∧ I.log s' = I.log s ++ [.released false]) ∨ I.log s' = I.log s ++ [.released true] ∨
      ∃ i, i < I.calls s ∧ Ev.acquired i ∉ I.log s ∧ I.log s' = I.log s ++ [.released true, .acquired i])
  inn : ∀ s i s', R s → I.inner s i = some s' → R s' ∧ I.calls s' = I.calls s ∧ rank s' < rank s ∧
    (I.log s' = I.log s ∨ (i < I.calls s ∧ Ev.acquired i ∉ I.log s ∧ I.log s' = I.log s ++ [.acquired i]))
  live : ∀ s i, R s → inUse (I.log s) < p → i < I.calls s → Ev.acquired i ∉ I.log s → ∃ s', I.inner s i = some s'
  calm : ∀ s i, R s → (∀ b, Ev.released b ∉ I.log s) → I.inner s i = none

theorem chan_reach_step {p : Int} {s s' : Chan.State} {a : Chan.Action} (h : Chan.Reach p s) (hs : Chan.step s a = some s') :
    Chan.Reach p s' := by
  obtain ⟨s0, e, hr⟩ := h
  exact ⟨s0, e, hr.trans (Reachable.step a hs)⟩

theorem chan_laws (p : Int) : Laws chan p (Chan.Reach p) (fun _ => 0) where
  old s i h hi := ((Chan.reach_queue h).made i).1 (.inl hi)
  acq s h := by
    obtain ⟨inv, hp⟩ := Chan.reach_inv h
    have h1 := inv.use
    have h2 := inv.permits
    simp only [chan]
    by_cases hf : s.n < s.permits
    · have hu : inUse s.log < p := by omega
      refine ⟨_, by simp only [Chan.step]; rw [if_pos hf], chan_reach_step (a := .acquire) h (by simp only [Chan.step]; rw [if_pos hf]),
        rfl, Nat.le_refl _, .inl ⟨hu, rfl⟩⟩
    · have hu : ¬ inUse s.log < p := by omega
      refine ⟨_, by simp only [Chan.step]; rw [if_neg hf], chan_reach_step (a := .acquire) h (by simp only [Chan.step]; rw [if_neg hf]),
        rfl, Nat.le_refl _, .inr ⟨by omega, rfl⟩⟩
  rel s h := by
    obtain ⟨inv, hp⟩ := Chan.reach_inv h
    have h1 := inv.use
    have hq := Chan.reach_queue h
    simp only [chan]
    have hs : ∃ s', Chan.step s .release = some s' ∧ s'.calls = s.calls ∧
        ((inUse s.log ≤ 0 ∧ s'.log = s.log ++ [.released false]) ∨ s'.log = s.log ++ [.released true] ∨
          ∃ i, i < s.calls ∧ Ev.acquired i ∉ s.log ∧ s'.log = s.log ++ [.released true, .acquired i]) := by
      simp only [Chan.step]
      split
      · next i q hiq =>
        refine ⟨_, rfl, rfl, .inr (.inr ⟨i, ?_, ?_, rfl⟩)⟩
        · have : i ∈ List.range s.calls := by rw [← hq.all, hiq]; simp
          simpa using this
        · intro hi
          have hnd : (served s.log ++ s.sendq).Nodup := by rw [hq.all]; exact List.nodup_range
          exact (List.nodup_append.1 hnd).2.2 i (served_mem.2 hi) i (by rw [hiq]; simp) rfl
      · split
        · exact ⟨_, rfl, rfl, .inr (.inl rfl)⟩
        · exact ⟨_, rfl, rfl, .inl ⟨by omega, rfl⟩⟩
    obtain ⟨s', e, hc, hl⟩ := hs
    exact ⟨s', e, chan_reach_step h e, hc, Nat.zero_le _, hl⟩
  inn s i s' _ h := by simp [chan] at h
  live s i h hu hi hn := by
    have h1 := C31_chan_no_sleeper p s h hu
    have hq := Chan.reach_queue h
    have : i ∈ List.range s.calls := by simpa [chan] using hi
    rw [← hq.all, h1, List.append_nil, served_mem] at this
    exact absurd this hn
  calm s i _ _ := rfl

/-- The calls of `Acquire` and the log. -/
structure Seats (s : Lock.State) : Prop where
  done : ∀ i : Nat, s.pcs[i]? = some .done ↔ Ev.acquired i ∈ s.log
  calm : (∀ b, Ev.released b ∉ s.log) → ∀ i : Nat, s.pcs[i]? ≠ some .woken

theorem seats_step (s : Lock.State) (a : Lock.Action) (s' : Lock.State) (q : Seats s) (h : Lock.step s a = some s') :
    Seats s' := by
  obtain ⟨h1, h2⟩ := q
  have hlt : ∀ i, Ev.acquired i ∈ s.log → i < s.pcs.length := fun i hi => (List.getElem?_eq_some_iff.1 ((h1 i).2 hi)).1
  have snoc : ∀ (q : Lock.PC) (i : Nat) (r : Lock.PC), (s.pcs ++ [q])[i]? = some r ↔
      (s.pcs[i]? = some r ∨ i = s.pcs.length ∧ q = r) := by
    intro q i r
    rw [List.getElem?_append]
    split
    · next hi =>
      constructor
      · exact .inl
      · rintro (h | h)
        · exact h
        · omega
    · next hi =>
      rw [List.getElem?_eq_none (by omega : s.pcs.length ≤ i)]
      rcases hk : i - s.pcs.length with _ | k
      · have : i = s.pcs.length := by omega
        simp [this]
      · have : ¬ i = s.pcs.length := by omega
        simp [this]
  cases a with
  | acquire =>
    simp only [Lock.step] at h
    split at h
    · simp only [Option.some.injEq] at h; subst h
      refine ⟨fun i => ?_, fun hr i => ?_⟩
      · simp only [snoc, h1]; simp
      · have := h2 (fun b hb => hr b (by simp [hb])) i
        simp only [ne_eq, snoc]; simp [this]
    · simp only [Option.some.injEq] at h; subst h
      refine ⟨fun i => ?_, fun hr i => ?_⟩
      · simp only [snoc, h1]; simp
      · have := h2 (fun b hb => hr b (by simp [hb])) i
        simp only [ne_eq, snoc]; simp [this]
  | run j =>
    simp only [Lock.step] at h
    split at h
    · next hj =>
      have hjl := (List.getElem?_eq_some_iff.1 hj).1
      have hrel : ¬ ∀ b, Ev.released b ∉ s.log := fun hr => h2 hr j hj
      split at h
      · simp only [Option.some.injEq] at h; subst h
        refine ⟨fun i => ?_, fun hr => absurd hr hrel⟩
        simp only [List.getElem?_set]
        by_cases hij : j = i
        · subst hij
          rw [if_pos rfl, if_pos hjl, ← h1 j, hj]
          simp
        · rw [if_neg hij]; exact h1 i
      · simp only [Option.some.injEq] at h; subst h
        refine ⟨fun i => ?_, fun hr => absurd (fun b hb => hr b (by simp [hb])) hrel⟩
        simp only [List.getElem?_set, List.mem_append, List.mem_singleton, Ev.acquired.injEq]
        by_cases hij : j = i
        · subst hij
          simp [hjl]
        · rw [if_neg hij, h1 i]
          have : ¬ i = j := fun h => hij h.symm
          simp [this]
    · cases h
  | tryAcquire =>
    simp only [Lock.step] at h
    split at h
    all_goals
      simp only [Option.some.injEq] at h; subst h
      refine ⟨fun i => ?_, fun hr i => h2 (fun b hb => hr b (by simp [hb])) i⟩
      simp [h1 i]
  | release =>
    simp only [Lock.step] at h
    split at h
    · simp only [Option.some.injEq] at h; subst h
      refine ⟨fun i => ?_, fun hr i => absurd (hr false) (by simp)⟩
      simp [h1 i]
    · simp only [Option.some.injEq] at h; subst h
      refine ⟨fun i => ?_, fun hr i => absurd (hr true) (by simp)⟩
      simp only [List.getElem?_map, List.mem_append, List.mem_singleton, reduceCtorEq, or_false, ← h1 i]
      cases s.pcs[i]? with
      | none => simp
      | some q => cases q <;> simp [Lock.wake]

theorem reach_seats {p : Int} {s : Lock.State} (h : Lock.Reach p s) : Seats s :=
  Reachable.inv h ⟨by simp [Lock.new], by simp [Lock.new]⟩ seats_step

/-- Calls that have been woken and have not tested again. -/
def woken (s : Lock.State) : Nat := s.pcs.countP (· = .woken)

theorem countP_set (l : List Lock.PC) (i : Nat) (q : Lock.PC) (hi : l[i]? = some .woken) (hq : q ≠ .woken) :
    (l.set i q).countP (· = .woken) < l.countP (· = .woken) := by
  induction l generalizing i with
  | nil => simp at hi
  | cons a l ih =>
    cases i with
    | zero =>
      simp only [List.getElem?_cons_zero, Option.some.injEq] at hi
      subst hi
      simp [hq]
    | succ i =>
      simp only [List.getElem?_cons_succ] at hi
      have := ih i hi
      simp only [List.set_cons_succ, List.countP_cons]
      omega

theorem lock_laws (p : Int) : Laws lock p (Lock.Reach p) woken where
  old s i h hi := (List.getElem?_eq_some_iff.1 (((reach_seats h).done i).2 hi)).1
  acq s h := by
    have inv := Lock.reach_inv h
    have h1 := inv.use
    have h2 := inv.permits
    simp only [lock]
    by_cases hf : s.isFull
    · have hu : ¬ inUse s.log < p := by unfold Lock.State.isFull at hf; omega
      refine ⟨_, by simp only [Lock.step]; rw [if_pos hf],
        Reachable.trans h (Reachable.step .acquire (by simp only [Lock.step]; rw [if_pos hf])),
        by simp, by simp [woken], .inr ⟨by omega, rfl⟩⟩
    · have hu : inUse s.log < p := by unfold Lock.State.isFull at hf; omega
      refine ⟨_, by simp only [Lock.step]; rw [if_neg hf],
        Reachable.trans h (Reachable.step .acquire (by simp only [Lock.step]; rw [if_neg hf])),
        by simp, by simp [woken], .inl ⟨hu, rfl⟩⟩
  rel s h := by
    have inv := Lock.reach_inv h
    have h1 := inv.use
    simp only [lock]
    by_cases hc : s.count ≤ 0
    · refine ⟨{ s with log := s.log ++ [.released false] }, by simp only [Lock.step]; rw [if_pos hc],
        Reachable.trans h (Reachable.step .release (by simp only [Lock.step]; rw [if_pos hc])), rfl, ?_,
        .inl ⟨by omega, rfl⟩⟩
      exact List.countP_le_length
    · refine ⟨_, by simp only [Lock.step]; rw [if_neg hc],
        Reachable.trans h (Reachable.step .release (by simp only [Lock.step]; rw [if_neg hc])), by simp, ?_, .inr (.inl rfl)⟩
      have : (s.pcs.map Lock.wake).countP (· = .woken) ≤ (s.pcs.map Lock.wake).length := List.countP_le_length
      simpa [woken] using this
  inn s i s' h hs := by
    simp only [lock] at hs ⊢
    have hr : Lock.Reach p s' := Reachable.trans h (Reachable.step _ hs)
    refine ⟨hr, ?_⟩
    simp only [Lock.step] at hs
    split at hs
    · next hi =>
      split at hs
      · simp only [Option.some.injEq] at hs; subst hs
        exact ⟨by simp, countP_set _ _ _ hi (by simp), .inl rfl⟩
      · simp only [Option.some.injEq] at hs; subst hs
        refine ⟨by simp, countP_set _ _ _ hi (by simp), .inr ⟨(List.getElem?_eq_some_iff.1 hi).1, ?_, rfl⟩⟩
        rw [← (reach_seats h).done i, hi]
        simp
    · cases hs
  live s i h hu hi hn := by
    simp only [lock] at *
    obtain ⟨s', h1, _⟩ := C31_lock_available_served p s h hu i _ (List.getElem?_eq_getElem hi) (by
      intro hd
      exact hn (((reach_seats h).done i).1 (by rw [List.getElem?_eq_getElem hi, hd])))
    exact ⟨s', h1⟩
  calm s i h hr := by
    have := (reach_seats h).calm hr i
    simp only [lock, Lock.step]

/-! ### Invariant -/

def tot (f : G → Nat) (gs : List G) : Nat := (gs.map f).sum

theorem tot_set (f : G → Nat) (gs : List G) (k : Nat) (g g' : G) (h : gs[k]? = some g) :
    tot f (gs.set k g') + f g = tot f gs + f g' := by
  induction gs generalizing k with
  | nil => simp at h
  | cons a gs ih =>
    cases k with
    | zero =>
      simp only [List.getElem?_cons_zero, Option.some.injEq] at h
      subst h
      simp only [tot, List.set_cons_zero, List.map_cons, List.sum_cons]
      omega
    | succ k =>
      simp only [List.getElem?_cons_succ] at h
      have := ih k h
      simp only [tot, List.set_cons_succ, List.map_cons, List.sum_cons] at this ⊢
      omega

theorem tot_mono {f f' : G → Nat} {gs : List G} (h : ∀ g ∈ gs, f g ≤ f' g) : tot f gs ≤ tot f' gs := by
  induction gs with
  | nil => exact Nat.le_refl _
  | cons a gs ih =>
    have h1 := h a (by simp)
    have h2 := ih (fun g hg => h g (by simp [hg]))
    simp only [tot, List.map_cons, List.sum_cons] at h2 ⊢
    omega

theorem tot_lt {f f' : G → Nat} {gs : List G} (h : ∀ g ∈ gs, f g ≤ f' g) (h' : ∃ g ∈ gs, f g < f' g) :
    tot f gs < tot f' gs := by
  induction gs with
  | nil => simp at h'
  | cons a gs ih =>
    have h1 := h a (by simp)
    have h2 : tot f gs ≤ tot f' gs := tot_mono (fun g hg => h g (by simp [hg]))
    obtain ⟨g, hg, hlt⟩ := h'
    rcases List.mem_cons.1 hg with rfl | hg
    · simp only [tot, List.map_cons, List.sum_cons] at h2 ⊢
      omega
    · have h3 := ih (fun g hg => h g (by simp [hg])) ⟨g, hg, hlt⟩
      simp only [tot, List.map_cons, List.sum_cons] at h3 ⊢
      omega

/-- The permits of a goroutine, including the one that its blocked call has got. -/
def own (log : List Ev) (g : G) : Nat :=
  match g.at_ with
  | .blocked i => if Ev.acquired i ∈ log then g.held + 1 else g.held
  | _ => g.held

/-- Calls of `Acquire` it has made. -/
def made (g : G) : Nat :=
  match g.at_ with
  | .taking => g.held
  | .blocked _ => g.held + 1
  | .giving => g.need

/-- What it still has to do. -/
def todo (g : G) : Nat :=
  match g.at_ with
  | .taking => 3 * g.need - 2 * g.held
  | .blocked _ => 3 * g.need - 2 * g.held - 1
  | .giving => g.held

def G.Ok (g : G) : Prop := g.held ≤ g.need ∧ ∀ i, g.at_ = .blocked i → g.held < g.need

structure Inv {σ : Type} (I : Impl σ) (R : σ → Prop) (needs : List Nat) (x : Sys σ) : Prop where
  reach : R x.s
  needs : x.gs.map G.need = needs
  ok    : ∀ g ∈ x.gs, g.Ok
  use   : inUse (I.log x.s) ≤ tot (own (I.log x.s)) x.gs
  calls : I.calls x.s = tot made x.gs
  who   : ∀ i, i < I.calls x.s → Ev.acquired i ∉ I.log x.s → ∃ g ∈ x.gs, g.at_ = .blocked i
  blk   : ∀ g ∈ x.gs, ∀ i, g.at_ = .blocked i → i < I.calls x.s

theorem own_append (log l : List Ev) (g : G) : own log g ≤ own (log ++ l) g := by
  unfold own
  split
  · split
    · next h => rw [if_pos (by simp [h])]; exact Nat.le_refl _
    · split <;> omega
  · exact Nat.le_refl _

/-- A call in which some goroutine is blocked gets its permit. -/
theorem own_serve {log : List Ev} {l : List Ev} {i : Nat} {gs : List G} (hn : Ev.acquired i ∉ log) (hl : Ev.acquired i ∈ l)
    (hg : ∃ g ∈ gs, g.at_ = .blocked i) : tot (own log) gs + 1 ≤ tot (own (log ++ l)) gs := by
  refine tot_lt (fun g _ => own_append log l g) ?_
  obtain ⟨g, hm, hb⟩ := hg
  refine ⟨g, hm, ?_⟩
  unfold own
  simp [hb, hn, hl]

/-- One goroutine moves. -/
theorem upd_inv {σ : Type} {I : Impl σ} {R : σ → Prop} {needs : List Nat} {x : Sys σ} (inv : Inv I R needs x) {k : Nat} {g : G}
    (hk : x.gs[k]? = some g) (s' : σ) (g' : G) (l : List Ev) (hR : R s') (hl : I.log s' = I.log x.s ++ l)
    (hn : g'.need = g.need) (ho : g'.Ok) (hc : I.calls s' + made g = I.calls x.s + made g') (hle : I.calls x.s ≤ I.calls s')
    (hu : inUse (I.log s') + own (I.log s') g ≤ tot (own (I.log s')) x.gs + own (I.log s') g')
    (hw : ∀ i, i < I.calls s' → Ev.acquired i ∉ I.log s' → g'.at_ = .blocked i ∨ (i < I.calls x.s ∧ g.at_ ≠ .blocked i))
    (hb : ∀ i, g'.at_ = .blocked i → i < I.calls s') : Inv I R needs ⟨s', x.gs.set k g'⟩ := by
  obtain ⟨i1, i2, i3, i4, i5, i6, i7⟩ := inv
  have hkl := (List.getElem?_eq_some_iff.1 hk).1
  have mem : ∀ a ∈ x.gs.set k g', a = g' ∨ a ∈ x.gs := by
    intro a ha
    exact (List.mem_or_eq_of_mem_set ha).symm
  refine ⟨hR, ?_, ?_, ?_, ?_, ?_, ?_⟩
  · rw [← i2, List.map_set, hn]
    apply List.ext_getElem?
    intro m
    rw [List.getElem?_set]
    split
    · next h => subst h; simp [hkl, (List.getElem?_eq_some_iff.1 hk).2]
    · rfl
  · intro a ha
    rcases mem a ha with rfl | ha
    · exact ho
    · exact i3 a ha
  · have := tot_set (own (I.log s')) x.gs k g g' hk
    dsimp only
    omega
  · have := tot_set made x.gs k g g' hk
    dsimp only
    omega
  · intro i hi hni
    rcases hw i hi hni with h | ⟨h, h'⟩
    · exact ⟨g', List.mem_set hkl g', h⟩
    · obtain ⟨a, ha, hab⟩ := i6 i h (fun hm => hni (by dsimp only; rw [hl]; simp [hm]))
      obtain ⟨m, hm, rfl⟩ := List.getElem_of_mem ha
      have hne : ¬ k = m := by
        intro h
        subst h
        rw [List.getElem?_eq_getElem hkl, Option.some.injEq] at hk
        rw [hk] at hab
        exact h' hab
      refine ⟨x.gs[m], ?_, hab⟩
      apply List.mem_of_getElem? (i := m)
      rw [List.getElem?_set_ne hne, List.getElem?_eq_getElem hm]
  · intro a ha i hi
    rcases mem a ha with rfl | ha
    · exact hb i hi
    · exact Nat.lt_of_lt_of_le (i7 a ha i hi) hle

theorem not_mem_of_old {σ : Type} {I : Impl σ} {p : Int} {R : σ → Prop} {rank : σ → Nat} (L : Laws I p R rank) {s : σ} (h : R s) :
    Ev.acquired (I.calls s) ∉ I.log s := fun hm => Nat.lt_irrefl _ (L.old s _ h hm)

/-- A `Release`. -/
theorem release_inv {σ : Type} {I : Impl σ} {p : Int} {R : σ → Prop} {rank : σ → Nat} (L : Laws I p R rank) {needs : List Nat}
    {x : Sys σ} (inv : Inv I R needs x) {k : Nat} {g : G} (hk : x.gs[k]? = some g) (hpos : 0 < g.held)
    (hat : g.at_ = .taking ∧ ¬ g.held < g.need ∨ g.at_ = .giving) :
    ∃ s', I.release x.s = some s' ∧ Inv I R needs ⟨s', x.gs.set k ⟨g.need, g.held - 1, .giving⟩⟩ ∧ rank s' ≤ I.calls x.s := by
  obtain ⟨s', h1, h2, h3, h4, h5⟩ := L.rel x.s inv.reach
  have hok := inv.ok g (List.mem_of_getElem? hk)
  have hown : ∀ l, own l g = g.held := by
    intro l; unfold own
    rcases hat with ⟨h, _⟩ | h <;> simp [h]
  have hmade : made g = g.need := by
    unfold made
    rcases hat with ⟨h, h'⟩ | h
    · simp only [h]; have := hok.1; omega
    · simp only [h]
  have hnb : ∀ i, g.at_ ≠ .blocked i := by
    intro i
    rcases hat with ⟨h, _⟩ | h <;> simp [h]
  have hge : g.held ≤ tot (own (I.log x.s)) x.gs := by
    have := tot_set (own (I.log x.s)) x.gs k g ⟨g.need, 0, .giving⟩ hk
    rw [hown] at this
    simp only [own] at this
    omega
  have huse := inv.use
  refine ⟨s', h1, ?_, h4⟩
  have main : ∀ l, I.log s' = I.log x.s ++ l → inUse (I.log s') + 1 ≤ tot (own (I.log s')) x.gs →
      Inv I R needs ⟨s', x.gs.set k ⟨g.need, g.held - 1, .giving⟩⟩ := by
    intro l hl hu
    refine upd_inv inv hk s' _ l h2 hl rfl ⟨by have := hok.1; dsimp only; omega, by simp⟩ ?_ (by omega) ?_ ?_ (by simp)
    · rw [hmade]; simp only [made]; omega
    · rw [hown]; simp only [own]; omega
    · intro i hi _
      exact .inr ⟨by omega, hnb i⟩
  rcases h5 with ⟨h0, hl⟩ | hl | ⟨i, hi, hn, hl⟩
  · refine main _ hl ?_
    have : tot (own (I.log x.s)) x.gs ≤ tot (own (I.log s')) x.gs := by
      rw [hl]; exact tot_mono fun g _ => own_append _ _ g
    have e : inUse (I.log s') = inUse (I.log x.s) := by rw [hl, inUse_append]; simp [inUse]
    omega
  · refine main _ hl ?_
    have : tot (own (I.log x.s)) x.gs ≤ tot (own (I.log s')) x.gs := by
      rw [hl]; exact tot_mono fun g _ => own_append _ _ g
    have e : inUse (I.log s') = inUse (I.log x.s) - 1 := by rw [hl, inUse_append]; simp [inUse]; omega
    omega
  · refine main _ hl ?_
    have : tot (own (I.log x.s)) x.gs + 1 ≤ tot (own (I.log s')) x.gs := by
      rw [hl]; exact own_serve hn (by simp) (inv.who i hi hn)
    have e : inUse (I.log s') = inUse (I.log x.s) := by rw [hl, inUse_append]; simp [inUse]
    omega

/-- An upper bound for the number of steps to come. -/
def bound {σ : Type} (rank : σ → Nat) (needs : List Nat) (x : Sys σ) : Nat := tot todo x.gs * (needs.sum + 1) + rank x.s

theorem made_le {gs : List G} (h : ∀ g ∈ gs, g.Ok) : tot made gs ≤ (gs.map G.need).sum := by
  refine tot_mono (f' := G.need) fun g hg => ?_
  have := h g hg
  unfold made
  split
  · exact this.1
  · next i hi => exact this.2 i hi
  · exact Nat.le_refl _

theorem bound_lt {σ : Type} {rank : σ → Nat} {needs : List Nat} {x : Sys σ} {k : Nat} {g g' : G} {s' : σ}
    (hk : x.gs[k]? = some g) (ht : todo g' < todo g) (hr : rank s' ≤ rank x.s ∨ rank s' ≤ needs.sum) :
    bound rank needs ⟨s', x.gs.set k g'⟩ < bound rank needs x := by
  have h := tot_set todo x.gs k g g' hk
  have h2 : tot todo (x.gs.set k g') + 1 ≤ tot todo x.gs := by omega
  have h3 := Nat.mul_le_mul_right (needs.sum + 1) h2
  rw [Nat.add_mul] at h3
  simp only [bound]
  omega

theorem step_inv {σ : Type} {I : Impl σ} {p : Int} {R : σ → Prop} {rank : σ → Nat} (L : Laws I p R rank) {needs : List Nat}
    {x x' : Sys σ} {a : Action} (inv : Inv I R needs x) (h : step I x a = some x') :
    Inv I R needs x' ∧ bound rank needs x' < bound rank needs x := by
  have hcalls : I.calls x.s ≤ needs.sum := by
    rw [inv.calls, ← inv.needs]; exact made_le inv.ok
  cases a with
  | inner i =>
    simp only [step, Option.map_eq_some_iff] at h
    obtain ⟨s', hs, rfl⟩ := h
    obtain ⟨h1, h2, h3, h4⟩ := L.inn x.s i s' inv.reach hs
    refine ⟨?_, by simp only [bound]; omega⟩
    have huse := inv.use
    rcases h4 with hl | ⟨hi, hn, hl⟩
    · exact ⟨h1, inv.needs, inv.ok, by simpa only [hl] using inv.use, by simpa only [h2] using inv.calls,
        by simpa only [hl, h2] using inv.who, by simpa only [h2] using inv.blk⟩
    · refine ⟨h1, inv.needs, inv.ok, ?_, by simpa only [h2] using inv.calls, ?_, by simpa only [h2] using inv.blk⟩
      · dsimp only
        have : tot (own (I.log x.s)) x.gs + 1 ≤ tot (own (I.log s')) x.gs := by
          rw [hl]; exact own_serve hn (by simp) (inv.who i hi hn)
        have e : inUse (I.log s') = inUse (I.log x.s) + 1 := by rw [hl, inUse_append]; simp [inUse]
        omega
      · intro j hj hnj
        dsimp only at hj hnj
        rw [hl] at hnj
        exact inv.who j (by omega) (fun hm => hnj (by simp [hm]))
  | act k =>
    simp only [step] at h
    split at h
    · cases h
    · next g hk =>
      have hok := inv.ok g (List.mem_of_getElem? hk)
      have huse := inv.use
      split at h
      · next i hi =>
        split at h
        · next hm =>
          simp only [Option.some.injEq] at h
          subst h
          have hlt := hok.2 i hi
          refine ⟨upd_inv inv hk x.s _ [] inv.reach (by simp) rfl ⟨hlt, by simp⟩ ?_ (Nat.le_refl _) ?_ ?_ (by simp),
            bound_lt hk ?_ (.inl (Nat.le_refl _))⟩
          · simp only [made, hi]
          · simp only [own, hi, if_pos hm]; omega
          · intro j hj hnj
            refine .inr ⟨hj, fun he => ?_⟩
            rw [hi] at he
            cases he
            exact hnj hm
          · simp only [todo, hi]; omega
        · cases h
      · next ht =>
        split at h
        · next hlt =>
          simp only [Option.map_eq_some_iff] at h
          obtain ⟨s', hs, h⟩ := h
          obtain ⟨s1, h1, h2, h3, h4, h5⟩ := L.acq x.s inv.reach
          rw [hs] at h1
          cases h1
          have hnm := not_mem_of_old L inv.reach
          have hmono : ∀ l, I.log s' = I.log x.s ++ l → tot (own (I.log x.s)) x.gs ≤ tot (own (I.log s')) x.gs := by
            intro l hl
            rw [hl]; exact tot_mono fun g _ => own_append _ _ g
          have hown : ∀ l, own l g = g.held := by intro l; simp [own, ht]
          rcases h5 with ⟨_, hl⟩ | ⟨_, hl⟩
          · rw [if_pos (by rw [hl]; simp)] at h
            subst h
            have := hmono _ hl
            have e : inUse (I.log s') = inUse (I.log x.s) + 1 := by rw [hl, inUse_append]; simp [inUse]
            refine ⟨upd_inv inv hk s' _ _ h2 hl rfl ⟨hlt, by simp⟩ ?_ (by omega) ?_ ?_ (by simp), bound_lt hk ?_ (.inl h4)⟩
            · simp only [made, ht]; omega
            · rw [hown]; simp only [own]; omega
            · intro j hj hnj
              rw [hl] at hnj
              refine .inr ⟨?_, by simp [ht]⟩
              have : j ≠ I.calls x.s := by
                intro he
                subst he
                exact hnj (by simp)
              omega
            · simp only [todo, ht]; omega
          · rw [if_neg (by rw [hl]; simpa using hnm)] at h
            subst h
            have := hmono _ hl
            have e : inUse (I.log s') = inUse (I.log x.s) := by rw [hl, inUse_append]; simp [inUse]
            refine ⟨upd_inv inv hk s' _ _ h2 hl rfl ⟨hok.1, fun _ _ => hlt⟩ ?_ (by omega) ?_ ?_ ?_, bound_lt hk ?_ (.inl h4)⟩
            · simp only [made, ht]; omega
            · rw [hown]
              simp only [own]
              split <;> omega
            · intro j hj hnj
              by_cases he : j = I.calls x.s
              · exact .inl (by simp [he])
              · exact .inr ⟨by omega, by simp [ht]⟩
            · intro j hj
              simp only [At.blocked.injEq] at hj
              omega
            · simp only [todo, ht]; omega
        · next hge =>
          split at h
          · next hpos =>
            obtain ⟨s', h1, h2, h3⟩ := release_inv L inv hk hpos (.inl ⟨ht, hge⟩)
            simp only [h1, Option.map_some, Option.some.injEq] at h
            subst h
            refine ⟨h2, bound_lt hk ?_ (.inr (Nat.le_trans h3 hcalls))⟩
            have := hok.1
            simp only [todo, ht]; omega
          · cases h
      · next ht =>
        split at h
        · next hpos =>
          obtain ⟨s', h1, h2, h3⟩ := release_inv L inv hk hpos (.inr ht)
          simp only [h1, Option.map_some, Option.some.injEq] at h
          subst h
          refine ⟨h2, bound_lt hk ?_ (.inr (Nat.le_trans h3 hcalls))⟩
          simp only [todo, ht]; omega
        · cases h

theorem exec_bound {σ : Type} {I : Impl σ} {p : Int} {R : σ → Prop} {rank : σ → Nat} (L : Laws I p R rank) {needs : List Nat} :
    ∀ (as : List Action) (x x' : Sys σ), Inv I R needs x → exec (step I) x as = some x' →
      Inv I R needs x' ∧ bound rank needs x' + as.length ≤ bound rank needs x := by
  intro as
  induction as with
  | nil =>
    intro x x' inv h
    simp only [exec, Option.some.injEq] at h
    subst h
    exact ⟨inv, by simp⟩
  | cons a as ih =>
    intro x x' inv h
    simp only [exec] at h
    split at h
    · next x1 h1 =>
      obtain ⟨i1, b1⟩ := step_inv L inv h1
      obtain ⟨i2, b2⟩ := ih x1 x' i1 h
      refine ⟨i2, ?_⟩
      simp only [List.length_cons]
      omega
    · cases h

theorem start_inv {σ : Type} {I : Impl σ} {R : σ → Prop} (s : σ) (needs : List Nat) (hR : R s) (hl : I.log s = [])
    (hc : I.calls s = 0) : Inv I R needs (start s needs) := by
  refine ⟨hR, ?_, ?_, ?_, ?_, ?_, ?_⟩
  · simp [start, G.new, Function.comp_def]
  · intro g hg
    simp only [start, List.mem_map] at hg
    obtain ⟨n, _, rfl⟩ := hg
    exact ⟨Nat.zero_le _, by simp [G.new]⟩
  · simp [start, hl, inUse]
  · simp only [start, hc]
    symm
    simp only [tot, List.map_map, Function.comp_def, G.new, made]
    induction needs with
    | nil => rfl
    | cons n ns ih => simpa using ih
  · simp [start, hc]
  · intro g hg i hi
    simp only [start, List.mem_map] at hg
    obtain ⟨n, _, rfl⟩ := hg
    simp [G.new] at hi

/-! ### Enough permits -/

/-- The permits that all goroutines can hold together while each of them lacks one. -/
def short (needs : List Nat) : Nat := (needs.map (· - 1)).sum

theorem get_through {σ : Type} {I : Impl σ} {p : Int} {R : σ → Prop} {rank : σ → Nat} (L : Laws I p R rank) (s : σ)
    (hR : R s) (hl : I.log s = []) (hc : I.calls s = 0) (needs : List Nat) (hp : (short needs : Int) < p) :
    GetThrough I s needs := by
  have inv0 := start_inv (I := I) s needs hR hl hc
  refine ⟨⟨bound rank needs (start s needs), fun as x h => ?_⟩, fun as x h hst => ?_⟩
  · have := (exec_bound L as _ x inv0 h).2
    omega
  · obtain ⟨inv, _⟩ := exec_bound L as _ x inv0 h
    have each : ∀ g ∈ x.gs, g.Finished ∨ ∃ i, g.at_ = .blocked i ∧ Ev.acquired i ∉ I.log x.s := by
      intro g hg
      obtain ⟨k, hk, rfl⟩ := List.getElem_of_mem hg
      have hk' := List.getElem?_eq_getElem hk
      generalize x.gs[k] = g at *
      have hs := hst (.act k)
      simp only [step, hk'] at hs
      have hr := L.rel x.s inv.reach
      obtain ⟨s1, h1, _⟩ := L.rel x.s inv.reach
      obtain ⟨s2, h2, _⟩ := L.acq x.s inv.reach
      have hok := inv.ok g (List.mem_of_getElem? hk')
      cases hat : g.at_ with
      | blocked i =>
        simp only [hat] at hs
        split at hs
        · cases hs
        · next hn => exact .inr ⟨i, rfl, hn⟩
      | taking =>
        simp only [hat, h1, h2, Option.map_some] at hs
        split at hs
        · cases hs
        · split at hs
          · cases hs
          · exact .inl ⟨by omega, .inr ⟨hat, by omega⟩⟩
      | giving =>
        simp only [hat, h1, Option.map_some] at hs
        split at hs
        · cases hs
        · exact .inl ⟨by omega, .inl hat⟩
    have hsum : tot (own (I.log x.s)) x.gs ≤ short needs := by
      rw [← inv.needs]
      simp only [short, List.map_map]
      refine tot_mono (f' := fun g => g.need - 1) fun g hg => ?_
      rcases each g hg with hf | ⟨i, hi, hn⟩
      · unfold own
        rcases hf with ⟨h0, h1 | ⟨h1, _⟩⟩ <;> simp [h1, h0]
      · have := (inv.ok g hg).2 i hi
        simp only [own, hi, if_neg hn]
        omega
    have huse := inv.use
    intro g hg
    rcases each g hg with hf | ⟨i, hi, hn⟩
    · exact hf
    · obtain ⟨s', hs'⟩ := L.live x.s i inv.reach (by omega) (inv.blk g hg i hi) hn
      have := hst (.inner i)
      simp [step, hs'] at this

/-! ### Too few permits -/

/-- Nobody has all permits it needs, none was given back, those who wait have got nothing. -/
structure Jam {σ : Type} (I : Impl σ) (x : Sys σ) : Prop where
  each : ∀ g ∈ x.gs, g.held ≤ g.need - 1 ∧ (g.at_ = .taking ∨ ∃ i, g.at_ = .blocked i ∧ Ev.acquired i ∉ I.log x.s)
  calm : ∀ b, Ev.released b ∉ I.log x.s
  use  : inUse (I.log x.s) = tot G.held x.gs

theorem jam_end {σ : Type} {I : Impl σ} {p : Int} {R : σ → Prop} {rank : σ → Nat} (L : Laws I p R rank) {needs : List Nat} :
    ∀ (n : Nat) (x : Sys σ), bound rank needs x ≤ n → Inv I R needs x → Jam I x → inUse (I.log x.s) = p →
      ∃ as x', exec (step I) x as = some x' ∧ Stuck I x' ∧ Jam I x' ∧ inUse (I.log x'.s) = p := by
  intro n
  induction n with
  | zero =>
    intro x hb inv jam hp
    refine ⟨[], x, rfl, fun a => ?_, jam, hp⟩
    cases h : step I x a with
    | none => rfl
    | some x' =>
      have := (step_inv L inv h).2
      omega
  | succ n ih =>
    intro x hb inv jam hp
    by_cases hst : Stuck I x
    · exact ⟨[], x, rfl, hst, jam, hp⟩
    · have hex : ∃ a x', step I x a = some x' := by
        refine Classical.byContradiction fun hno => hst fun a => ?_
        cases h : step I x a with
        | none => rfl
        | some x' => exact absurd ⟨a, x', h⟩ hno
      obtain ⟨a, x', h⟩ := hex
      obtain ⟨inv', hlt⟩ := step_inv L inv h
      have key : Jam I x' ∧ inUse (I.log x'.s) = p := by
        cases a with
        | inner i => simp [step, L.calm x.s i inv.reach jam.calm] at h
        | act k =>
          simp only [step] at h
          split at h
          · cases h
          · next g hk =>
            have hg := List.mem_of_getElem? hk
            obtain ⟨hh, hat⟩ := jam.each g hg
            rcases hat with hat | ⟨i, hat, hn⟩
            · simp only [hat] at h
              split at h
              · simp only [Option.map_eq_some_iff] at h
                obtain ⟨s', hs, h⟩ := h
                obtain ⟨s1, h1, h2, h3, h4, h5⟩ := L.acq x.s inv.reach
                rw [hs] at h1
                cases h1
                rcases h5 with ⟨hu, _⟩ | ⟨_, hl⟩
                · omega
                · have hnm := not_mem_of_old L inv.reach
                  rw [if_neg (by rw [hl]; simpa using hnm)] at h
                  subst h
                  have e : inUse (I.log s') = inUse (I.log x.s) := by rw [hl, inUse_append]; simp [inUse]
                  refine ⟨⟨?_, ?_, ?_⟩, by dsimp only; omega⟩
                  · intro a ha
                    dsimp only at ha ⊢
                    rcases List.mem_or_eq_of_mem_set ha with ha | rfl
                    · obtain ⟨b1, b2⟩ := jam.each a ha
                      refine ⟨b1, b2.imp_right ?_⟩
                      rintro ⟨i, c1, c2⟩
                      exact ⟨i, c1, by rw [hl]; simpa using c2⟩
                    · exact ⟨hh, .inr ⟨_, rfl, by rw [hl]; simpa using hnm⟩⟩
                  · intro b
                    dsimp only
                    rw [hl]
                    simpa using jam.calm b
                  · have := tot_set G.held x.gs k g ⟨g.need, g.held, .blocked (I.calls x.s)⟩ hk
                    have := jam.use
                    dsimp only at *
                    omega
              · split at h
                · omega
                · cases h
            · simp [hat, hn] at h
      obtain ⟨as, x'', e1, e2⟩ := ih x' (by omega) inv' key.1 key.2
      exact ⟨a :: as, x'', by simp [exec, h, e1], e2⟩

theorem jam_fill {σ : Type} {I : Impl σ} {p : Int} {R : σ → Prop} {rank : σ → Nat} (L : Laws I p R rank) {needs : List Nat}
    (hp : p ≤ short needs) : ∀ (n : Nat) (x : Sys σ), p - inUse (I.log x.s) = n → Inv I R needs x → Jam I x →
      (∀ g ∈ x.gs, g.at_ = .taking) →
      ∃ as x', exec (step I) x as = some x' ∧ Inv I R needs x' ∧ Jam I x' ∧ inUse (I.log x'.s) = p := by
  intro n
  induction n with
  | zero => intro x hn inv jam _; exact ⟨[], x, rfl, inv, jam, by omega⟩
  | succ n ih =>
    intro x hn inv jam htak
    have hex : ∃ g ∈ x.gs, g.held < g.need - 1 := by
      refine Classical.byContradiction fun hno => ?_
      have : tot (fun g => g.need - 1) x.gs ≤ tot G.held x.gs :=
        tot_mono fun g hg => by
          have : ¬ g.held < g.need - 1 := fun h => hno ⟨g, hg, h⟩
          omega
      have e : tot (fun g => g.need - 1) x.gs = short needs := by
        rw [← inv.needs]; simp [tot, short, Function.comp_def]
      have := jam.use
      omega
    obtain ⟨g, hg, hlt⟩ := hex
    obtain ⟨k, hk, rfl⟩ := List.getElem_of_mem hg
    have hk' := List.getElem?_eq_getElem hk
    generalize x.gs[k] = g at *
    obtain ⟨s', hs, h2, h3, h4, h5⟩ := L.acq x.s inv.reach
    rcases h5 with ⟨_, hl⟩ | ⟨hu, _⟩
    · have hstep : step I x (.act k) = some ⟨s', x.gs.set k ⟨g.need, g.held + 1, .taking⟩⟩ := by
        simp only [step, hk', htak g hg]
        rw [if_pos (by omega), hs, Option.map_some, if_pos (by rw [hl]; simp)]
      obtain ⟨inv', _⟩ := step_inv L inv hstep
      have e : inUse (I.log s') = inUse (I.log x.s) + 1 := by rw [hl, inUse_append]; simp [inUse]
      have all : ∀ a ∈ x.gs.set k ⟨g.need, g.held + 1, .taking⟩, a.held ≤ a.need - 1 ∧ a.at_ = .taking := by
        intro a ha
        rcases List.mem_or_eq_of_mem_set ha with ha | rfl
        · exact ⟨(jam.each a ha).1, htak a ha⟩
        · exact ⟨by dsimp only; omega, rfl⟩
      have jam' : Jam I ⟨s', x.gs.set k ⟨g.need, g.held + 1, .taking⟩⟩ := by
        refine ⟨fun a ha => ⟨(all a ha).1, .inl (all a ha).2⟩, ?_, ?_⟩
        · intro b
          dsimp only
          rw [hl]
          simpa using jam.calm b
        · have := tot_set G.held x.gs k g ⟨g.need, g.held + 1, .taking⟩ hk'
          have := jam.use
          dsimp only at *
          omega
      obtain ⟨as, x'', e1, e2⟩ := ih _ (by dsimp only; omega) inv' jam' (fun a ha => (all a ha).2)
      exact ⟨.act k :: as, x'', by simp [exec, hstep, e1], e2⟩
    · omega

theorem get_stuck {σ : Type} {I : Impl σ} {p : Int} {R : σ → Prop} {rank : σ → Nat} (L : Laws I p R rank) (s : σ)
    (hR : R s) (hl : I.log s = []) (hc : I.calls s = 0) (needs : List Nat) (h1 : 1 ≤ p) (hp : p ≤ short needs) :
    ∃ as x, exec (step I) (start s needs) as = some x ∧ Stuck I x ∧ ∃ g ∈ x.gs, ¬ g.Finished := by
  have inv0 := start_inv (I := I) s needs hR hl hc
  have fresh : ∀ g ∈ (start s needs).gs, g.held = 0 ∧ g.at_ = .taking := by
    intro g hg
    simp only [start, List.mem_map] at hg
    obtain ⟨n, _, rfl⟩ := hg
    exact ⟨rfl, rfl⟩
  have hz : tot G.held (start s needs).gs = 0 := by
    have : tot G.held (start s needs).gs ≤ tot (fun _ => 0) (start s needs).gs :=
      tot_mono fun g hg => by rw [(fresh g hg).1]; exact Nat.le_refl _
    have e : ∀ gs : List G, tot (fun _ => 0) gs = 0 := by
      intro gs; induction gs with
      | nil => rfl
      | cons a gs ih => simpa [tot] using ih
    rw [e] at this
    omega
  have jam0 : Jam I (start s needs) := by
    refine ⟨fun g hg => ⟨by rw [(fresh g hg).1]; exact Nat.zero_le _, .inl (fresh g hg).2⟩, ?_, ?_⟩
    · intro b; simp [start, hl]
    · rw [hz]; simp [start, hl, inUse]
  obtain ⟨as, x, e1, inv1, jam1, u1⟩ := jam_fill L hp p.toNat (start s needs) (by simp [start, hl, inUse]; omega) inv0 jam0
    (fun g hg => (fresh g hg).2)
  obtain ⟨as', x', e2, st, jam2, u2⟩ := jam_end L _ x (Nat.le_refl _) inv1 jam1 u1
  refine ⟨as ++ as', x', by rw [exec_append, e1]; exact e2, st, ?_⟩
  refine Classical.byContradiction fun hno => ?_
  have : tot G.held x'.gs ≤ tot (fun _ => 0) x'.gs := tot_mono fun g hg => by
    have : g.Finished := Classical.byContradiction fun h => hno ⟨g, hg, h⟩
    rw [this.1]; exact Nat.le_refl _
  have e : ∀ gs : List G, tot (fun _ => 0) gs = 0 := by
    intro gs; induction gs with
    | nil => rfl
    | cons a gs ih => simpa [tot] using ih
  rw [e] at this
  have := jam2.use
  omega

/-! ### C174 -/

/-- The claim: goroutines none of which needs more permits than there are all get through. -/
def C174Claim {σ : Type} (I : Impl σ) (new : Nat → σ) : Prop :=
  ∀ (p : Nat) (needs : List Nat), 1 ≤ p → (∀ n ∈ needs, n ≤ p) → GetThrough I (new p) needs

/-- `NewChanSemaphore(p)` (37-41). -/
def newChan (p : Nat) : Chan.State := ⟨p, 0, [], 0, []⟩

theorem newChan_eq (p : Nat) : Chan.new p = some (newChan p) := by
  simp [Chan.new, newChan]

/-- **C174**, ChanSemaphore: goroutines that take the permits they need one by one get through, in every interleaving,
exactly if there are more permits than all of them together can hold while each lacks one.  (If none needs more than one,
`short` is 0.) -/
theorem C174_chan (p : Nat) (h1 : 1 ≤ p) (needs : List Nat) : GetThrough chan (newChan p) needs ↔ short needs < p := by
  have hR : Chan.Reach p (newChan p) := ⟨_, newChan_eq p, Reachable.refl _⟩
  constructor
  · intro h
    refine Classical.byContradiction fun hn => ?_
    obtain ⟨as, x, e, st, g, hg, hf⟩ := get_stuck (chan_laws p) (newChan p) hR rfl rfl needs (by omega) (by omega)
    exact hf (h.2 as x e st g hg)
  · intro h
    exact get_through (chan_laws p) (newChan p) hR rfl rfl needs (by omega)

/-- **C174**, LockSemaphore. -/
theorem C174_lock (p : Nat) (h1 : 1 ≤ p) (needs : List Nat) : GetThrough lock (Lock.new p) needs ↔ short needs < p := by
  have hR : Lock.Reach p (Lock.new p) := Reachable.refl _
  constructor
  · intro h
    refine Classical.byContradiction fun hn => ?_
    obtain ⟨as, x, e, st, g, hg, hf⟩ := get_stuck (lock_laws p) (Lock.new p) hR rfl rfl needs (by omega) (by omega)
    exact hf (h.2 as x e st g hg)
  · intro h
    exact get_through (lock_laws p) (Lock.new p) hR rfl rfl needs (by omega)

/-- **C174**, partial: the claim for goroutines that need one permit each. -/
theorem C174_single_partial (p : Nat) (h1 : 1 ≤ p) (needs : List Nat) (hn : ∀ n ∈ needs, n ≤ 1) :
    GetThrough chan (newChan p) needs ∧ GetThrough lock (Lock.new p) needs := by
  have : short needs = 0 := by
    unfold short
    induction needs with
    | nil => rfl
    | cons n ns ih =>
      have := hn n (by simp)
      have := ih (fun m hm => hn m (by simp [hm]))
      simp only [List.map_cons, List.sum_cons]
      omega
  exact ⟨(C174_chan p h1 needs).2 (by omega), (C174_lock p h1 needs).2 (by omega)⟩

/-- **C174**, violated: two permits, and two goroutines that need both. -/
theorem C174_violated : ¬ C174Claim chan newChan ∧ ¬ C174Claim lock (fun p => Lock.new p) := by
  constructor
  · intro h
    have := (C174_chan 2 (by decide) [2, 2]).1 (h 2 [2, 2] (by decide) (by decide))
    revert this; decide
  · intro h
    have := (C174_lock 2 (by decide) [2, 2]).1 (h 2 [2, 2] (by decide) (by decide))
    revert this; decide

/-- **C174**, violated, in general: however many permits there are, enough goroutines that need two each can block each
other for ever. -/
theorem C174_two_violated (p : Nat) (h1 : 1 ≤ p) :
    ¬ GetThrough chan (newChan p) (List.replicate p 2) ∧ ¬ GetThrough lock (Lock.new p) (List.replicate p 2) := by
  have : short (List.replicate p 2) = p := by simp [short]
  exact ⟨fun h => by have := (C174_chan p h1 _).1 h; omega, fun h => by have := (C174_lock p h1 _).1 h; omega⟩

/-- Non-vacuity: the two goroutines of `C174_violated`, each with one permit, blocked. -/
example : (exec (step chan) (start (newChan 2) [2, 2]) [.act 0, .act 1, .act 0, .act 1]).map (·.gs) =
    some [⟨2, 1, .blocked 2⟩, ⟨2, 1, .blocked 3⟩] := by decide

/-- Non-vacuity: three permits, the same goroutines; the first gets its second permit, and both finish. -/
example : (exec (step lock) (start (Lock.new 3) [2, 2])
      [.act 0, .act 1, .act 0, .act 1, .act 0, .inner 3, .act 1, .act 0, .act 1, .act 1]).map (·.gs) =
    some [⟨2, 0, .giving⟩, ⟨2, 0, .giving⟩] := by decide

end Gears.Sema.Several
