import Verif.Common.Exec

/-
How old the values are that the store returns (property C165).

Model of concurrent reads (/repo/confstore/store.go:224-253, which begin with `DoLoad`) of one key that is in redis and
that other processes set, with the load policies of /repo/confstore/loader.go:

* any number of goroutines; time passes between any two steps;
* `time.Now` has a monotonic reading, which `Before` compares (loader.go:45-46, 54), so the clock does not go back;
* `HGETALL` is executed by redis at one moment (`fetch`), and its reply arrives later (`apply`: UpdateNoPersist of the key,
  store.go:163-166); it may fail (persister.go:45-49), which the reads ignore;
* all values are accepted by the processor; the key is not deleted, and this process does not set it.

Not modelled: that `now - minInterval` saturates (durations are below 2^63 ns), several keys.
-/

namespace Gears.Confstore.Fresh

/-- `NewLoadPolicy(minInterval)` (loader.go:24-29) or `NewSimpleLoadPolicy()` (58-61). -/
inductive Policy where
  | interval (m : Int)
  | simple
deriving Repr, DecidableEq

variable {V : Type}

/-- Where a read is. `t` is when it was called. -/
inductive PC (V : Type) where
  | idle
  /-- before `loadLock.Lock()` (38) -/
  | waiting (t : Int)
  /-- before `time.Now()` (41-46) -/
  | deciding (t : Int)
  /-- `p.Load` (42, 50, 67), before redis executes HGETALL -/
  | loading (t : Int)
  /-- redis has returned `v` at time `h` -/
  | fetched (t : Int) (v : V) (h : Int)
  /-- the value is in the store; before line 54 -/
  | applied (t : Int) (h : Int)
  /-- `DoLoad` has returned, with an error or not; before the read of the map (store.go:228-236) -/
  | reading (t : Int) (failed : Bool)
deriving Repr, DecidableEq

/-- What a read returns: the value, and when redis returned it to this process. -/
structure Read (V : Type) where
  started : Int
  failed  : Bool
  got     : Option (V × Int)
deriving Repr, DecidableEq

structure State (V : Type) where
  time  : Int
  /-- the values that were written to redis, the newest first -/
  hist  : List (Int × V)
  /-- the value in the store, and when redis returned it -/
  store : Option (V × Int)
  /-- `lastLoadTs` (33) -/
  last  : Option Int
  /-- who has `loadLock` -/
  lock  : Option Nat
  /-- the longest time so far from the execution of HGETALL to the use of its reply and to line 54 -/
  slow  : Int
  pcs   : List (PC V)
  reads : List (Read V)
deriving Repr, DecidableEq

def init (n : Nat) (t : Int) (v : V) : State V := ⟨t, [(t, v)], none, none, none, 0, List.replicate n .idle, []⟩

inductive Action (V : Type) where
  | tick (d : Nat)
  /-- another process sets the key -/
  | write (v : V)
  | call (i : Nat)
  | lock (i : Nat)
  | decide (i : Nat)
  | fetch (i : Nat)
  | fail (i : Nat)
  | apply (i : Nat)
  | finish (i : Nat)
  | read (i : Nat)
deriving Repr, DecidableEq

def State.setPc (s : State V) (i : Nat) (p : PC V) : State V := { s with pcs := s.pcs.set i p }

/-- Line 46. -/
def skips (m : Int) (now : Int) : Option Int → Bool
  | none => false
  | some l => now - m < l

def step (pol : Policy) (s : State V) : Action V → Option (State V)
  | .tick d => some { s with time := s.time + d }
  | .write v => some { s with hist := (s.time, v) :: s.hist }
  | .call i =>
    match s.pcs[i]? with
    | some .idle => some (s.setPc i (.waiting s.time))
    | _ => none
  | .lock i =>
    match s.pcs[i]? with
    | some (.waiting t) =>
      match pol with
      | .simple => some (s.setPc i (.loading t))
      | .interval _ => if s.lock = none then some ({ s with lock := some i }.setPc i (.deciding t)) else none
    | _ => none
  | .decide i =>
    match s.pcs[i]? with
    | some (.deciding t) =>
      match pol with
      | .simple => none
      | .interval m =>
        if m ≤ 0 then some (s.setPc i (.loading t))
        else if skips m s.time s.last then some ({ s with lock := none }.setPc i (.reading t false))
        else some (s.setPc i (.loading t))
    | _ => none
  | .fetch i =>
    match s.pcs[i]? with
    | some (.loading t) =>
      match s.hist with
      | [] => none
      | (_, v) :: _ => some (s.setPc i (.fetched t v s.time))
    | _ => none
  | .fail i =>
    match s.pcs[i]? with
    | some (.loading t) =>
      match pol with
      | .simple => some (s.setPc i (.reading t true))
      | .interval _ => some ({ s with lock := none }.setPc i (.reading t true))
    | _ => none
  | .apply i =>
    match s.pcs[i]? with
    | some (.fetched t v h) => some ({ s with store := some (v, h), slow := max s.slow (s.time - h) }.setPc i (.applied t h))
    | _ => none
  | .finish i =>
    match s.pcs[i]? with
    | some (.applied t h) =>
      match pol with
      | .simple => some ({ s with slow := max s.slow (s.time - h) }.setPc i (.reading t false))
      | .interval m =>
        some ({ s with last := if m ≤ 0 then s.last else some s.time, lock := none, slow := max s.slow (s.time - h) }.setPc i (.reading t false))
    | _ => none
  | .read i =>
    match s.pcs[i]? with
    | some (.reading t failed) => some ({ s with reads := s.reads ++ [Read.mk t failed s.store] }.setPc i .idle)
    | _ => none

/-! ## Specification -/

/-- Redis had `v` at time `h`: it was written before, and what was written later was written after. -/
def Held (hist : List (Int × V)) (v : V) (h : Int) : Prop :=
  ∃ newer t older, hist = newer ++ (t, v) :: older ∧ t ≤ h ∧ ∀ x ∈ newer, h ≤ x.1

/-- The least time between two loads. -/
def Policy.spacing : Policy → Int
  | .interval m => max m 0
  | .simple => 0

/-- A read returns a value that redis had not long before the call. -/
def FreshReads (pol : Policy) (s : State V) : Prop :=
  ∀ r ∈ s.reads, r.failed = false → ∃ v h, r.got = some (v, h) ∧ Held s.hist v h ∧ r.started - pol.spacing - s.slow ≤ h

/-- Reads do not go back in time. -/
def ForwardReads (s : State V) : Prop :=
  s.reads.Pairwise fun r r' => ∀ v h, r.got = some (v, h) → ∃ v' h', r'.got = some (v', h') ∧ h ≤ h'

/-! ## Invariant -/

theorem Held.write {hist : List (Int × V)} {v : V} {h : Int} (hh : Held hist v h) {t : Int} (ht : h ≤ t) (w : V) : Held ((t, w) :: hist) v h := by
  obtain ⟨newer, t1, older, e, h1, h2⟩ := hh
  refine ⟨(t, w) :: newer, t1, older, by rw [e]; rfl, h1, fun x hx => ?_⟩
  rcases List.mem_cons.1 hx with rfl | hx
  · exact ht
  · exact h2 x hx

/-- The value in the store is from time `t` or later. -/
def From (s : State V) (t : Int) : Prop := ∃ v h, s.store = some (v, h) ∧ t ≤ h

def inLock : PC V → Bool
  | .deciding _ | .loading _ | .fetched .. | .applied .. => true
  | _ => false

def PcOk (pol : Policy) (s : State V) : PC V → Prop
  | .idle => True
  | .waiting t | .deciding t | .loading t => t ≤ s.time
  | .fetched t v h => t ≤ h ∧ h ≤ s.time ∧ Held s.hist v h ∧ (pol ≠ .simple → ∀ v' h', s.store = some (v', h') → h' ≤ h)
  | .applied t h => t ≤ s.time ∧ h ≤ s.time ∧ From s (t - s.slow) ∧ (pol ≠ .simple → From s h)
  | .reading t failed => t ≤ s.time ∧ (failed = false → From s (t - pol.spacing - s.slow))

structure Inv (pol : Policy) (s : State V) : Prop where
  top   : ∀ x ∈ s.hist, x.1 ≤ s.time
  slow  : 0 ≤ s.slow
  store : ∀ v h, s.store = some (v, h) → h ≤ s.time ∧ Held s.hist v h
  last  : ∀ l, s.last = some l → pol ≠ .simple ∧ From s (l - s.slow)
  excl  : pol ≠ .simple → ∀ (i : Nat) (p : PC V), s.pcs[i]? = some p → inLock p = true → s.lock = some i
  pcs   : ∀ (i : Nat) (p : PC V), s.pcs[i]? = some p → PcOk pol s p
  reads : FreshReads pol s
  held  : ∀ r ∈ s.reads, ∀ v h, r.got = some (v, h) → Held s.hist v h ∧ h ≤ s.time ∧ (pol ≠ .simple → From s h)
  fwd   : pol ≠ .simple → ForwardReads s

theorem From.mono {s s' : State V} {t t' : Int} (h : From s t) (hs : s'.store = s.store) (ht : t' ≤ t) : From s' t' := by
  obtain ⟨v, h', h1, h2⟩ := h
  exact ⟨v, h', by rw [hs, h1], by omega⟩

theorem spacing_nonneg (pol : Policy) : 0 ≤ pol.spacing := by
  cases pol <;> simp only [Policy.spacing] <;> omega

/-- A step that changes the place of one read only. -/
theorem set_get {ps : List (PC V)} {i j : Nat} {p q : PC V} (h : (ps.set i p)[j]? = some q) : (j = i ∧ q = p) ∨ (j ≠ i ∧ ps[j]? = some q) := by
  rw [List.getElem?_set] at h
  split at h
  · rename_i e
    split at h
    · cases h; exact .inl ⟨e.symm, rfl⟩
    · cases h
  · rename_i e
    exact .inr ⟨fun e' => e e'.symm, h⟩

theorem inv_init (pol : Policy) (n : Nat) (t : Int) (v : V) : Inv pol (init n t v) where
  top := by simp [init]
  slow := Int.le_refl _
  store := by simp [init]
  last := by simp [init]
  excl := by
    intro _ i p hp hl
    simp only [init, List.getElem?_replicate] at hp
    split at hp
    · cases hp; simp [inLock] at hl
    · cases hp
  pcs := by
    intro i p hp
    simp only [init, List.getElem?_replicate] at hp
    split at hp
    · cases hp; trivial
    · cases hp
  reads := by simp [init, FreshReads]
  held := by simp [init]
  fwd := by simp [init, ForwardReads]

/-- Everything but the place of read `i` and the lock stays. -/
theorem inv_move {pol : Policy} {s : State V} (H : Inv pol s) (i : Nat) (p : PC V) (lk : Option Nat) (hp : PcOk pol s p)
    (hx : pol ≠ .simple → (inLock p = true → lk = some i) ∧ (lk = s.lock ∨ (lk = none ∧ s.lock = some i) ∨ s.lock = none)) :
    Inv pol ({ s with lock := lk }.setPc i p) where
  top := H.top
  slow := H.slow
  store := H.store
  last := H.last
  excl := by
    intro hs j q hq hl
    obtain ⟨h1, h2⟩ := hx hs
    rcases set_get hq with ⟨rfl, rfl⟩ | ⟨hj, hq⟩
    · exact h1 hl
    · have := H.excl hs j q hq hl
      rcases h2 with h | ⟨h, h'⟩ | h
      · show lk = some j
        rw [h]; exact this
      · rw [h'] at this; cases this; exact absurd rfl hj
      · rw [h] at this; cases this
  pcs := by
    intro j q hq
    rcases set_get hq with ⟨rfl, rfl⟩ | ⟨hj, hq⟩
    · cases q <;> exact hp
    · have := H.pcs j q hq
      cases q <;> exact this
  reads := H.reads
  held := H.held
  fwd := H.fwd

theorem step_inv {pol : Policy} {s : State V} {a : Action V} {s' : State V} (H : Inv pol s) (h : step pol s a = some s') : Inv pol s' := by
  have hsp := spacing_nonneg pol
  cases a with
  | tick d =>
    cases h
    refine ⟨fun x hx => ?_, H.slow, fun v h hs => ?_, H.last, H.excl, fun i p hp => ?_, H.reads, fun r hr v h hg => ?_, H.fwd⟩
    · have := H.top x hx; simp only; omega
    · obtain ⟨h1, h2⟩ := H.store v h hs
      exact ⟨by simp only; omega, h2⟩
    · have := H.pcs i p hp
      cases p <;> simp only [PcOk] at this ⊢
      · omega
      · omega
      · omega
      · obtain ⟨h1, h2, h3⟩ := this; exact ⟨h1, by omega, h3⟩
      · obtain ⟨h1, h2, h3⟩ := this; exact ⟨by omega, by omega, h3⟩
      · obtain ⟨h1, h2⟩ := this; exact ⟨by omega, h2⟩
    · obtain ⟨h1, h2, h3⟩ := H.held r hr v h hg
      exact ⟨h1, by simp only; omega, h3⟩
  | write w =>
    cases h
    refine ⟨fun x hx => ?_, H.slow, fun v h hs => ?_, H.last, H.excl, fun i p hp => ?_, fun r hr hf => ?_, fun r hr v h hg => ?_, H.fwd⟩
    · rcases List.mem_cons.1 hx with rfl | hx
      · exact Int.le_refl _
      · exact H.top x hx
    · obtain ⟨h1, h2⟩ := H.store v h hs
      exact ⟨h1, h2.write h1 w⟩
    · have := H.pcs i p hp
      cases p <;> simp only [PcOk] at this ⊢ <;> try exact this
      obtain ⟨h1, h2, h3, h4⟩ := this
      exact ⟨h1, h2, h3.write h2 w, h4⟩
    · obtain ⟨v, h, h1, h2, h3⟩ := H.reads r hr hf
      exact ⟨v, h, h1, h2.write (H.held r hr v h h1).2.1 w, h3⟩
    · obtain ⟨h1, h2, h3⟩ := H.held r hr v h hg
      exact ⟨h1.write h2 w, h2, h3⟩
  | call i =>
    simp only [step] at h
    split at h
    · cases h
      exact inv_move H i _ s.lock (Int.le_refl s.time) fun _ => ⟨by simp [inLock], .inl rfl⟩
    · cases h
  | lock i =>
    simp only [step] at h
    split at h
    · rename_i t hp
      have hpc := H.pcs i _ hp
      split at h
      · cases h
        exact inv_move H i (.loading t) s.lock hpc fun hs => absurd rfl hs
      · split at h
        · rename_i hl
          cases h
          exact inv_move H i (.deciding t) (some i) hpc fun _ => ⟨fun _ => rfl, .inr (.inr hl)⟩
        · cases h
    · cases h
  | decide i =>
    simp only [step] at h
    split at h
    · rename_i t hp
      have hpc : t ≤ s.time := H.pcs i _ hp
      split at h
      · cases h
      · rename_i m
        have hlk := H.excl (by simp) i _ hp rfl
        split at h
        · cases h
          exact inv_move H i (.loading t) s.lock hpc fun _ => ⟨fun _ => hlk, .inl rfl⟩
        · rename_i hm
          split at h
          · rename_i hs
            cases h
            refine inv_move H i (.reading t false) none ⟨hpc, fun _ => ?_⟩ fun _ => ⟨by simp [inLock], .inr (.inl ⟨rfl, hlk⟩)⟩
            cases hl : s.last with
            | none => rw [hl] at hs; simp [skips] at hs
            | some l =>
              rw [hl] at hs
              simp only [skips, decide_eq_true_eq] at hs
              refine (H.last l hl).2.mono rfl ?_
              simp only [Policy.spacing]
              omega
          · cases h
            exact inv_move H i (.loading t) s.lock hpc fun _ => ⟨fun _ => hlk, .inl rfl⟩
    · cases h
  | fetch i =>
    simp only [step] at h
    split at h
    · rename_i t hp
      have hpc : t ≤ s.time := H.pcs i _ hp
      split at h
      · cases h
      · rename_i t1 v older hh
        cases h
        refine inv_move H i (.fetched t v s.time) s.lock ⟨hpc, Int.le_refl _, ⟨[], t1, older, hh, ?_, by simp⟩, fun _ v' h' hs => (H.store v' h' hs).1⟩
          fun hs => ⟨fun _ => H.excl hs i _ hp rfl, .inl rfl⟩
        exact H.top (t1, v) (by rw [hh]; simp)
    · cases h
  | fail i =>
    simp only [step] at h
    split at h
    · rename_i t hp
      have hpc : t ≤ s.time := H.pcs i _ hp
      split at h
      · cases h
        exact inv_move H i (.reading t true) s.lock ⟨hpc, by simp⟩ fun hs => absurd rfl hs
      · cases h
        exact inv_move H i (.reading t true) none ⟨hpc, by simp⟩ fun hs => ⟨by simp [inLock], .inr (.inl ⟨rfl, H.excl hs i _ hp rfl⟩)⟩
    · cases h
  | apply i =>
    simp only [step] at h
    split at h
    · rename_i t v h0 hp
      obtain ⟨p1, p2, p3, p4⟩ := H.pcs i _ hp
      cases h
      -- the new value is not older, up to `slow`
      have hfrom : ∀ {t' : Int}, From s t' → t' ≤ h0 ∨ pol ≠ .simple → From ({ s with store := some (v, h0), slow := max s.slow (s.time - h0) }.setPc i (.applied t h0)) t' := by
        intro t' hf ho
        refine ⟨v, h0, rfl, ?_⟩
        rcases ho with ho | ho
        · exact ho
        · obtain ⟨v', h', e1, e2⟩ := hf
          have := p4 ho v' h' e1
          omega
      have hnew : ∀ {t' : Int}, t' ≤ h0 → From ({ s with store := some (v, h0), slow := max s.slow (s.time - h0) }.setPc i (.applied t h0)) t' :=
        fun ht => ⟨v, h0, rfl, ht⟩
      refine ⟨H.top, ?_, fun v' h' hs => ?_, fun l hl => ?_, fun hs j q hq hl => ?_, fun j q hq => ?_, fun r hr hf => ?_, fun r hr v' h' hg => ?_, H.fwd⟩
      · have := H.slow
        simp only [State.setPc]; omega
      · cases hs; exact ⟨p2, p3⟩
      · obtain ⟨h1, h2⟩ := H.last l hl
        refine ⟨h1, hfrom (h2.mono rfl ?_) (.inr h1)⟩
        simp only [State.setPc]; omega
      · rcases set_get hq with ⟨rfl, rfl⟩ | ⟨hj, hq⟩
        · exact H.excl hs j _ hp rfl
        · exact H.excl hs j q hq hl
      · rcases set_get hq with ⟨rfl, rfl⟩ | ⟨hj, hq⟩
        · refine ⟨by simp only [State.setPc]; omega, p2, hnew ?_, fun _ => hnew (Int.le_refl _)⟩
          simp only [State.setPc]
          have := H.slow
          omega
        · have hq' := H.pcs j q hq
          cases q with
          | idle => trivial
          | waiting t' => exact hq'
          | deciding t' => exact hq'
          | loading t' => exact hq'
          | fetched t' v' h' =>
            obtain ⟨q1, q2, q3, q4⟩ := hq'
            refine ⟨q1, q2, q3, fun hs => ?_⟩
            have e1 := H.excl hs i _ hp rfl
            have e2 := H.excl hs j _ hq rfl
            rw [e1] at e2; cases e2; exact absurd rfl hj
          | applied t' h' =>
            obtain ⟨q1, q2, q3, q4⟩ := hq'
            refine ⟨q1, q2, hnew ?_, fun hs => ?_⟩
            · simp only [State.setPc]; omega
            · have e1 := H.excl hs i _ hp rfl
              have e2 := H.excl hs j _ hq rfl
              rw [e1] at e2; cases e2; exact absurd rfl hj
          | reading t' f =>
            obtain ⟨q1, q2⟩ := hq'
            refine ⟨q1, fun hf => hnew ?_⟩
            simp only [State.setPc]; omega
      · obtain ⟨v', h', e1, e2, e3⟩ := H.reads r hr hf
        exact ⟨v', h', e1, e2, by simp only [State.setPc]; omega⟩
      · obtain ⟨e1, e2, e3⟩ := H.held r hr v' h' hg
        exact ⟨e1, e2, fun hs => hfrom (e3 hs) (.inr hs)⟩
    · cases h
  | finish i =>
    simp only [step] at h
    split at h
    · rename_i t h0 hp
      obtain ⟨p1, p2, p3, p4⟩ := H.pcs i _ hp
      have hslow : ∀ l : Option Int, (l = s.last ∨ (pol ≠ .simple ∧ l = some s.time)) → Inv pol { s with slow := max s.slow (s.time - h0), last := l } := by
        intro l hl
        refine ⟨H.top, ?_, H.store, fun l' hl' => ?_, H.excl, fun j q hq => ?_, fun r hr hf => ?_, H.held, H.fwd⟩
        · have := H.slow
          simp only; omega
        · rcases hl with rfl | ⟨hs, rfl⟩
          · obtain ⟨h1, h2⟩ := H.last l' hl'
            exact ⟨h1, h2.mono rfl (by simp only; omega)⟩
          · cases hl'
            exact ⟨hs, (p4 hs).mono rfl (by simp only; omega)⟩
        · have hq' := H.pcs j q hq
          cases q with
          | idle => trivial
          | waiting t' => exact hq'
          | deciding t' => exact hq'
          | loading t' => exact hq'
          | fetched t' v' h' => exact hq'
          | applied t' h' =>
            obtain ⟨q1, q2, q3, q4⟩ := hq'
            exact ⟨q1, q2, q3.mono rfl (by simp only; omega), q4⟩
          | reading t' f =>
            obtain ⟨q1, q2⟩ := hq'
            exact ⟨q1, fun hf => (q2 hf).mono rfl (by simp only; omega)⟩
        · obtain ⟨v', h', e1, e2, e3⟩ := H.reads r hr hf
          exact ⟨v', h', e1, e2, by simp only; omega⟩
      split at h
      · cases h
        exact inv_move (hslow s.last (.inl rfl)) i (.reading t false) s.lock ⟨p1, fun _ => p3.mono rfl (by simp only; omega)⟩ fun hs => absurd rfl hs
      · rename_i m
        cases h
        refine inv_move (hslow (if m ≤ 0 then s.last else some s.time) ?_) i (.reading t false) none ⟨p1, fun _ => p3.mono rfl (by simp only; omega)⟩
          fun hs => ⟨by simp [inLock], .inr (.inl ⟨rfl, H.excl hs i _ hp rfl⟩)⟩
        split
        · exact .inl rfl
        · exact .inr ⟨by simp, rfl⟩
    · cases h
  | read i =>
    simp only [step] at h
    split at h
    · rename_i t f hp
      obtain ⟨p1, p2⟩ := H.pcs i _ hp
      cases h
      have hlast : ∀ r ∈ s.reads ++ [Read.mk t f s.store], r ∈ s.reads ∨ r = ⟨t, f, s.store⟩ := by
        intro r hr
        simpa using hr
      have hreads : Inv pol { s with reads := s.reads ++ [Read.mk t f s.store] } := by
        refine ⟨H.top, H.slow, H.store, H.last, H.excl, fun j q hq => ?_, fun r hr hf => ?_, fun r hr v h hg => ?_, fun hs => ?_⟩
        · have := H.pcs j q hq
          cases q <;> exact this
        · rcases hlast r hr with hr | rfl
          · exact H.reads r hr hf
          · obtain ⟨v, h, e1, e2⟩ := p2 hf
            exact ⟨v, h, e1, (H.store v h e1).2, e2⟩
        · rcases hlast r hr with hr | rfl
          · exact H.held r hr v h hg
          · obtain ⟨e1, e2⟩ := H.store v h hg
            exact ⟨e2, e1, fun _ => ⟨v, h, hg, Int.le_refl _⟩⟩
        · refine List.pairwise_append.2 ⟨H.fwd hs, by simp, fun r hr r' hr' v h hg => ?_⟩
          simp at hr'
          subst hr'
          obtain ⟨v', h', e1, e2⟩ := (H.held r hr v h hg).2.2 hs
          exact ⟨v', h', e1, e2⟩
      exact inv_move hreads i .idle s.lock trivial fun _ => ⟨by simp [inLock], .inl rfl⟩
    · cases h

theorem reach_inv {pol : Policy} {n : Nat} {t0 : Int} {v0 : V} {s : State V} (h : Reachable (step pol) (init n t0 v0) s) : Inv pol s := by
  obtain ⟨as, h⟩ := h
  exact exec_inv (I := Inv pol) (fun _ _ _ H hx => step_inv H hx) as _ _ (inv_init pol n t0 v0) h

/-! ## The property -/

/-- **C165** in full: reads return values that redis had not long before the call, and do not go back in time. -/
def C165Claim : Prop := ∀ (pol : Policy) (n : Nat) (t0 : Int) (v0 : Nat) (s : State Nat), Reachable (step pol) (init n t0 v0) s → FreshReads pol s ∧ ForwardReads s

/-- **C165.**  A read whose load did not fail returns a value that redis had at the time of the call, less the least time between
two loads and the longest delay of a load. -/
theorem C165_fresh (pol : Policy) (n : Nat) (t0 : Int) (v0 : V) (s : State V) (h : Reachable (step pol) (init n t0 v0) s) : FreshReads pol s :=
  (reach_inv h).reads

/-- What redis has, and had all this time, is what a read returns. -/
theorem C165_seen (pol : Policy) (n : Nat) (t0 : Int) (v0 : V) (s : State V) (h : Reachable (step pol) (init n t0 v0) s) (t : Int) (v : V) (older : List (Int × V))
    (hh : s.hist = (t, v) :: older) (r : Read V) (hr : r ∈ s.reads) (hf : r.failed = false) (hlate : t + pol.spacing + s.slow < r.started) :
    ∃ h, r.got = some (v, h) := by
  obtain ⟨v', h', e1, ⟨newer, t1, older', e2, h1, h2⟩, e3⟩ := C165_fresh pol n t0 v0 s h r hr hf
  cases newer with
  | nil =>
    rw [hh] at e2
    cases e2
    exact ⟨h', e1⟩
  | cons x newer =>
    rw [hh] at e2
    cases e2
    have := h2 (t, v) (by simp)
    simp only at this
    omega

/-- With any policy, loads failing or not, a read returns what redis had some time, if it finds anything. -/
theorem C165_held (pol : Policy) (n : Nat) (t0 : Int) (v0 : V) (s : State V) (h : Reachable (step pol) (init n t0 v0) s) (r : Read V) (hr : r ∈ s.reads) (v : V) (t : Int)
    (hg : r.got = some (v, t)) : Held s.hist v t :=
  ((reach_inv h).held r hr v t hg).1

/-- **C165** for `NewLoadPolicy`, with any interval: reads do not go back in time.  Missing: `SimpleLoadPolicy`. -/
theorem C165_forward_partial (m : Int) (n : Nat) (t0 : Int) (v0 : V) (s : State V) (h : Reachable (step (.interval m)) (init n t0 v0) s) : ForwardReads s :=
  (reach_inv h).fwd (by simp)

/-! ## Examples -/

/-- A skipped load: the value was read at 0, redis has another one since 3, the interval is 10; the next load sees it. -/
def waits : List (Action Nat) :=
  [.call 0, .lock 0, .decide 0, .fetch 0, .apply 0, .tick 1, .finish 0, .read 0, .tick 2, .write 2,
   .tick 5, .call 0, .lock 0, .decide 0, .read 0, .tick 4, .call 0, .lock 0, .decide 0, .fetch 0, .apply 0, .finish 0, .read 0]

example : (exec (step (.interval 10)) (init 1 0 1) waits).map (fun s => (s.reads, s.slow, s.hist)) =
    some ([⟨0, false, some (1, 0)⟩, ⟨8, false, some (1, 0)⟩, ⟨12, false, some (2, 12)⟩], 1, [(3, 2), (0, 1)]) := by decide

/-- A load that fails. -/
example : (exec (step (.interval 10)) (init 1 0 1) [.call 0, .lock 0, .decide 0, .fail 0, .read 0]).map (·.reads) = some [⟨0, true, none⟩] := by decide

/-- With `SimpleLoadPolicy`, loads overlap: a reply that redis sent before the change is used after the one that was sent later. -/
def back : List (Action Nat) :=
  [.call 0, .lock 0, .fetch 0, .tick 1, .write 2, .tick 1,
   .call 1, .lock 1, .fetch 1, .apply 1, .finish 1, .read 1,
   .call 1, .lock 1, .fetch 1, .apply 1, .finish 1, .apply 0, .read 1]

theorem back_reads : (exec (step .simple) (init 2 0 1) back).map (·.reads) = some [⟨2, false, some (2, 2)⟩, ⟨2, false, some (1, 0)⟩] := by decide

/-- **C165 is violated** with `SimpleLoadPolicy`: a goroutine reads the new value and then the old one, although redis had the new one
before both calls. -/
theorem C165_violated : ¬ C165Claim := by
  intro h
  cases he : exec (step .simple) (init 2 0 1) back with
  | none => have := back_reads; rw [he] at this; cases this
  | some s =>
    have hr := back_reads
    rw [he] at hr
    have h1 := (h .simple 2 0 1 s ⟨back, he⟩).2
    simp only [ForwardReads, Option.map_some, Option.some.injEq] at h1 hr
    rw [hr] at h1
    have h2 := (List.pairwise_cons.1 h1).1 ⟨2, false, some (1, 0)⟩ (by simp) 2 2 rfl
    obtain ⟨v, t, e, hle⟩ := h2
    cases e
    omega

end Gears.Confstore.Fresh
