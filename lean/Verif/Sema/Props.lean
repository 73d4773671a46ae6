import Verif.Sema.Model

/-
Property theorems for the semaphores (C28-C32).
-/

namespace Gears.Sema

/-- Permits taken minus permits returned, according to the observable log. -/
def inUse : List Ev → Int
  | [] => 0
  | .acquired _ :: l => inUse l + 1
  | .tried true :: l => inUse l + 1
  | .released true :: l => inUse l - 1
  | _ :: l => inUse l

theorem inUse_append (a b : List Ev) : inUse (a ++ b) = inUse a + inUse b := by
  induction a with
  | nil => simp [inUse]
  | cons e a ih =>
    rw [List.cons_append]
    cases e with
    | blocked i => simpa [inUse] using ih
    | acquired i => simp [inUse, ih]; omega
    | tried b => cases b <;> simp [inUse, ih]; omega
    | released b => cases b <;> simp [inUse, ih]; omega

/-! ### Invariants -/

namespace Chan

structure Inv (p : Nat) (s : State) : Prop where
  permits : s.permits = p
  le      : s.n ≤ p
  use     : inUse s.log = s.n
  full    : s.sendq ≠ [] → s.n = p

theorem step_inv {p : Nat} (s : State) (a : Action) (s' : State) (inv : Inv p s) (h : step s a = some s') :
    Inv p s' := by
  obtain ⟨h1, h2, h3, h4⟩ := inv
  cases a with
  | acquire =>
    simp only [step] at h
    split at h
    · rename_i hlt
      simp at h; subst h
      refine ⟨h1, by simp only; omega, by simp [inUse_append, inUse, h3], ?_⟩
      intro hq; have := h4 hq; omega
    · rename_i hlt
      simp at h; subst h
      refine ⟨h1, h2, by simp [inUse_append, inUse, h3], ?_⟩
      intro _; simp only; omega
  | tryAcquire =>
    simp only [step] at h
    split at h
    · rename_i hlt
      simp at h; subst h
      refine ⟨h1, by simp only; omega, by simp [inUse_append, inUse, h3], ?_⟩
      intro hq; have := h4 hq; omega
    · simp at h; subst h
      exact ⟨h1, h2, by simp [inUse_append, inUse, h3], h4⟩
  | release =>
    simp only [step] at h
    split at h
    · rename_i i q hq
      simp at h; subst h
      refine ⟨h1, h2, by simp [inUse_append, inUse, h3], ?_⟩
      intro _; exact h4 (by simp [hq])
    · rename_i hq
      split at h
      · simp at h; subst h
        refine ⟨h1, by simp only; omega, ?_, by simp [hq]⟩
        simp [inUse_append, inUse, h3]; omega
      · simp at h; subst h
        exact ⟨h1, h2, by simp [inUse_append, inUse, h3], h4⟩

/-- States a new semaphore with `p` permits can reach. -/
def Reach (p : Int) (s : State) : Prop := ∃ s0, new p = some s0 ∧ Reachable step s0 s

theorem reach_inv {p : Int} {s : State} (h : Reach p s) : Inv p.toNat s ∧ 0 ≤ p := by
  obtain ⟨s0, h0, hr⟩ := h
  unfold new at h0
  split at h0
  · simp at h0
  · rename_i hp
    simp at h0; subst h0
    exact ⟨hr.inv ⟨rfl, by simp, by simp [inUse], by simp⟩ step_inv, by omega⟩

end Chan

namespace Lock

structure Inv (p : Int) (s : State) : Prop where
  permits : s.permits = p
  nonneg  : 0 ≤ s.count
  le      : s.count ≤ max p 0
  use     : inUse s.log = s.count
  asleep  : ∀ (i : Nat), s.pcs[i]? = some .waiting → s.isFull

theorem step_inv {p : Int} (s : State) (a : Action) (s' : State) (inv : Inv p s) (h : step s a = some s') :
    Inv p s' := by
  obtain ⟨h1, h2, h3, h4, h5⟩ := inv
  unfold State.isFull at h5
  cases a with
  | acquire =>
    simp only [step] at h
    split at h
    · rename_i hf
      simp at h; subst h
      exact ⟨h1, h2, h3, by simp [inUse_append, inUse, h4], fun i _ => hf⟩
    · rename_i hf
      unfold State.isFull at hf
      simp at h; subst h
      refine ⟨h1, by simp only; omega, by simp only; omega, by simp [inUse_append, inUse, h4], ?_⟩
      intro i hi
      simp only at hi
      rw [List.getElem?_append] at hi
      split at hi
      · exact absurd (h5 i hi) hf
      · rcases hk : i - s.pcs.length with _ | k <;> simp [hk] at hi
  | run i =>
    simp only [step] at h
    split at h
    · split at h
      · rename_i hf
        simp at h; subst h
        exact ⟨h1, h2, h3, h4, fun j _ => hf⟩
      · rename_i hf
        unfold State.isFull at hf
        simp at h; subst h
        refine ⟨h1, by simp only; omega, by simp only; omega, by simp [inUse_append, inUse, h4], ?_⟩
        intro j hj
        simp only at hj
        rw [List.getElem?_set] at hj
        split at hj
        · split at hj <;> simp at hj
        · exact absurd (h5 j hj) hf
    · simp at h
  | tryAcquire =>
    simp only [step] at h
    split at h
    · simp at h; subst h
      exact ⟨h1, h2, h3, by simp [inUse_append, inUse, h4], h5⟩
    · rename_i hf
      unfold State.isFull at hf
      simp at h; subst h
      refine ⟨h1, by simp only; omega, by simp only; omega, by simp [inUse_append, inUse, h4], ?_⟩
      intro i hi
      exact absurd (h5 i hi) hf
  | release =>
    simp only [step] at h
    split at h
    · simp at h; subst h
      exact ⟨h1, h2, h3, by simp [inUse_append, inUse, h4], h5⟩
    · simp at h; subst h
      refine ⟨h1, by simp only; omega, by simp only; omega, ?_, ?_⟩
      · simp [inUse_append, inUse, h4]; omega
      · intro i hi
        simp only [List.getElem?_map] at hi
        cases hp : s.pcs[i]? with
        | none => simp [hp] at hi
        | some q => cases q <;> simp [hp, wake] at hi

def Reach (p : Int) (s : State) : Prop := Reachable step (new p) s

theorem reach_inv {p : Int} {s : State} (h : Reach p s) : Inv p s :=
  Reachable.inv h ⟨rfl, by simp [new], by simp [new]; omega, by simp [new, inUse], by simp [new]⟩ step_inv

end Lock

/-! ### C28 -/

/-- **C28**, ChanSemaphore: under every schedule the number of permits in use is between 0 and the number of permits. -/
theorem C28_chan_bound (p : Int) (s : Chan.State) (h : Chan.Reach p s) : 0 ≤ inUse s.log ∧ inUse s.log ≤ p := by
  obtain ⟨inv, hp⟩ := Chan.reach_inv h
  have := inv.use; have := inv.le
  omega

/-- **C28**, LockSemaphore (a negative number of permits acts like 0). -/
theorem C28_lock_bound (p : Int) (s : Lock.State) (h : Lock.Reach p s) : 0 ≤ inUse s.log ∧ inUse s.log ≤ max p 0 := by
  have inv := Lock.reach_inv h
  rw [inv.use]; exact ⟨inv.nonneg, inv.le⟩

/-- A negative size makes `NewChanSemaphore` panic; with 0 or more permits it does not. -/
theorem C28_chan_new (p : Int) : (Chan.new p = none ↔ p < 0) := by
  unfold Chan.new; split <;> simp_all

/-- Non-vacuity of C28: all permits in use, one caller blocked, over-release tolerated. -/
example : (exec Chan.step ⟨2, 0, [], 0, []⟩ [.release, .acquire, .tryAcquire, .tryAcquire, .acquire, .release]).map (·.log) =
      some [.released false, .acquired 0, .tried true, .tried false, .blocked 1, .released true, .acquired 1] ∧
    (exec Lock.step (Lock.new 2) [.release, .acquire, .tryAcquire, .tryAcquire, .acquire, .release, .run 1]).map (·.log) =
      some [.released false, .acquired 0, .tried true, .tried false, .blocked 1, .released true, .acquired 1] := by
  decide

/-! ### C29 -/

/-- Two channel states that differ at most in their logs. -/
def Chan.Same (s t : Chan.State) : Prop := { s with log := [] } = { t with log := [] }

/-- Two lock states that differ at most in their logs. -/
def Lock.Same (s t : Lock.State) : Prop := { s with log := [] } = { t with log := [] }

theorem Chan.same_step (s t : Chan.State) (h : Chan.Same s t) (a : Chan.Action) (s' : Chan.State)
    (hs : Chan.step s a = some s') :
    ∃ t' ext, Chan.step t a = some t' ∧ Chan.Same s' t' ∧ s'.log = s.log ++ ext ∧ t'.log = t.log ++ ext := by
  obtain ⟨p, n, q, c, l⟩ := s
  obtain ⟨p', n', q', c', l'⟩ := t
  simp [Chan.Same] at h
  obtain ⟨rfl, rfl, rfl, rfl⟩ := h
  cases a with
  | acquire =>
    simp only [Chan.step] at hs ⊢
    split at hs <;> rename_i hlt <;> simp at hs <;> subst hs
    · exact ⟨_, _, by simp only [hlt, if_true, if_false]; rfl, by rfl, by rfl, by rfl⟩
    · exact ⟨_, _, by simp only [hlt, if_true, if_false]; rfl, by rfl, by rfl, by rfl⟩
  | tryAcquire =>
    simp only [Chan.step] at hs ⊢
    split at hs <;> rename_i hlt <;> simp at hs <;> subst hs
    · exact ⟨_, _, by simp only [hlt, if_true, if_false]; rfl, by rfl, by rfl, by rfl⟩
    · exact ⟨_, _, by simp only [hlt, if_true, if_false]; rfl, by rfl, by rfl, by rfl⟩
  | release =>
    cases q with
    | cons i q => simp [Chan.step] at hs; subst hs; exact ⟨_, _, by rfl, by rfl, by rfl, by rfl⟩
    | nil =>
      simp only [Chan.step] at hs ⊢
      split at hs <;> rename_i hlt <;> simp at hs <;> subst hs
      · exact ⟨_, _, by simp only [hlt, if_true, if_false]; rfl, by rfl, by rfl, by rfl⟩
      · exact ⟨_, _, by simp only [hlt, if_true, if_false]; rfl, by rfl, by rfl, by rfl⟩

theorem Lock.same_step (s t : Lock.State) (h : Lock.Same s t) (a : Lock.Action) (s' : Lock.State)
    (hs : Lock.step s a = some s') :
    ∃ t' ext, Lock.step t a = some t' ∧ Lock.Same s' t' ∧ s'.log = s.log ++ ext ∧ t'.log = t.log ++ ext := by
  obtain ⟨p, n, q, l⟩ := s
  obtain ⟨p', n', q', l'⟩ := t
  simp [Lock.Same] at h
  obtain ⟨rfl, rfl, rfl⟩ := h
  have hiff : (⟨p, n, q, l'⟩ : Lock.State).isFull ↔ (⟨p, n, q, l⟩ : Lock.State).isFull := Iff.rfl
  by_cases hf : (⟨p, n, q, l⟩ : Lock.State).isFull
  all_goals have hf' := hf; rw [← hiff] at hf'
  all_goals cases a with
  | acquire =>
    simp only [Lock.step, hf, hf', if_true, if_false] at hs ⊢
    simp at hs; subst hs
    exact ⟨_, _, by rfl, by rfl, by rfl, by rfl⟩
  | tryAcquire =>
    simp only [Lock.step, hf, hf', if_true, if_false] at hs ⊢
    simp at hs; subst hs
    exact ⟨_, _, by rfl, by rfl, by rfl, by rfl⟩
  | run i =>
    simp only [Lock.step, hf, hf', if_true, if_false] at hs ⊢
    split at hs
    · rename_i hi
      simp at hs; subst hs
      first
      | exact ⟨_, _, by rfl, by rfl, by rfl, by rfl⟩
      | exact ⟨_, [], by rfl, by rfl, by simp, by simp⟩
    · simp at hs
  | release =>
    simp only [Lock.step] at hs ⊢
    split at hs <;> rename_i hlt <;> simp at hs <;> subst hs
    · exact ⟨_, _, by rw [if_pos hlt], by rfl, by rfl, by rfl⟩
    · exact ⟨_, _, by rw [if_neg hlt], by rfl, by rfl, by rfl⟩

/-- **C29**, ChanSemaphore with at least one permit: a `Release` when no permit is in use changes nothing, and
everything that happens afterwards could happen, with the same results, without it. -/
theorem C29_chan_over_release (p : Int) (hp : 1 ≤ p) (s : Chan.State) (h : Chan.Reach p s) (hz : inUse s.log = 0) :
    ∃ s1, Chan.step s .release = some s1 ∧ s1.log = s.log ++ [.released false] ∧ Chan.Same s1 s ∧
    ∀ (as : List Chan.Action) (s2 : Chan.State), exec Chan.step s1 as = some s2 →
      ∃ t2 ext, exec Chan.step s as = some t2 ∧ Chan.Same s2 t2 ∧ s2.log = s1.log ++ ext ∧ t2.log = s.log ++ ext := by
  obtain ⟨inv, _⟩ := Chan.reach_inv h
  have hn : s.n = 0 := by have := inv.use; omega
  have hq : s.sendq = [] := by
    by_cases hq : s.sendq = []
    · exact hq
    · have := inv.full hq; omega
  refine ⟨{ s with log := s.log ++ [.released false] }, by simp [Chan.step, hq, hn], rfl, rfl, ?_⟩
  have gen : ∀ (as : List Chan.Action) (a b : Chan.State), Chan.Same a b → ∀ s2, exec Chan.step a as = some s2 →
      ∃ t2 ext, exec Chan.step b as = some t2 ∧ Chan.Same s2 t2 ∧ s2.log = a.log ++ ext ∧ t2.log = b.log ++ ext := by
    intro as
    induction as with
    | nil =>
      intro a b hab s2 hs2
      simp [exec] at hs2; subst hs2
      exact ⟨b, [], rfl, hab, by simp, by simp⟩
    | cons x as ih =>
      intro a b hab s2 hs2
      simp only [exec] at hs2
      split at hs2
      · rename_i a' ha'
        obtain ⟨b', ext, hb', hab', e1, e2⟩ := Chan.same_step a b hab x a' ha'
        obtain ⟨t2, ext2, ht2, hs, e3, e4⟩ := ih a' b' hab' s2 hs2
        exact ⟨t2, ext ++ ext2, by simp [exec, hb', ht2], hs, by rw [e3, e1]; simp, by rw [e4, e2]; simp⟩
      · simp at hs2
  exact fun as s2 hs2 => gen as _ s (by rfl) s2 hs2

/-- **C29**, LockSemaphore, any number of permits. -/
theorem C29_lock_over_release (p : Int) (s : Lock.State) (h : Lock.Reach p s) (hz : inUse s.log = 0) :
    ∃ s1, Lock.step s .release = some s1 ∧ s1.log = s.log ++ [.released false] ∧ Lock.Same s1 s ∧
    ∀ (as : List Lock.Action) (s2 : Lock.State), exec Lock.step s1 as = some s2 →
      ∃ t2 ext, exec Lock.step s as = some t2 ∧ Lock.Same s2 t2 ∧ s2.log = s1.log ++ ext ∧ t2.log = s.log ++ ext := by
  have inv := Lock.reach_inv h
  have hn : s.count = 0 := by have := inv.use; omega
  refine ⟨{ s with log := s.log ++ [.released false] }, by simp [Lock.step, hn], rfl, rfl, ?_⟩
  have gen : ∀ (as : List Lock.Action) (a b : Lock.State), Lock.Same a b → ∀ s2, exec Lock.step a as = some s2 →
      ∃ t2 ext, exec Lock.step b as = some t2 ∧ Lock.Same s2 t2 ∧ s2.log = a.log ++ ext ∧ t2.log = b.log ++ ext := by
    intro as
    induction as with
    | nil =>
      intro a b hab s2 hs2
      simp [exec] at hs2; subst hs2
      exact ⟨b, [], rfl, hab, by simp, by simp⟩
    | cons x as ih =>
      intro a b hab s2 hs2
      simp only [exec] at hs2
      split at hs2
      · rename_i a' ha'
        obtain ⟨b', ext, hb', hab', e1, e2⟩ := Lock.same_step a b hab x a' ha'
        obtain ⟨t2, ext2, ht2, hs, e3, e4⟩ := ih a' b' hab' s2 hs2
        exact ⟨t2, ext ++ ext2, by simp [exec, hb', ht2], hs, by rw [e3, e1]; simp, by rw [e4, e2]; simp⟩
      · simp at hs2
  exact fun as s2 hs2 => gen as _ s (by rfl) s2 hs2

/-- Without the hypothesis of at least one permit C29 fails for ChanSemaphore: on an unbuffered channel a `Release`
hands a permit to a blocked `Acquire` although none is in use. -/
theorem C29_chan_zero_permits :
    ∃ s s1, Chan.Reach 0 s ∧ inUse s.log = 0 ∧ Chan.step s .release = some s1 ∧
      s1.log = s.log ++ [.released true, .acquired 0] :=
  ⟨_, _, ⟨_, rfl, ⟨[.acquire], rfl⟩⟩, rfl, rfl, rfl⟩

/-- Non-vacuity of C29: a used and fully released semaphore. -/
example : ∃ s, Chan.Reach 2 s ∧ inUse s.log = 0 ∧ s.log ≠ [] ∧ s.calls = 1 :=
  ⟨_, ⟨_, rfl, ⟨[.acquire, .release], rfl⟩⟩, by decide, by decide, rfl⟩

/-! ### C30 -/

/-- **C30**, ChanSemaphore: in every reachable state `TryAcquire` can complete at once, and returns true iff a permit is
available. -/
theorem C30_chan_try (p : Int) (s : Chan.State) (h : Chan.Reach p s) :
    ∃ s', Chan.step s .tryAcquire = some s' ∧ s'.log = s.log ++ [.tried (decide (inUse s.log < p))] := by
  obtain ⟨inv, hp⟩ := Chan.reach_inv h
  have h1 := inv.use; have h2 := inv.permits
  by_cases hlt : s.n < s.permits
  · exact ⟨_, by simp [Chan.step, hlt]; rfl, by simp; omega⟩
  · exact ⟨_, by simp [Chan.step, hlt]; rfl, by simp; omega⟩

/-- **C30**, LockSemaphore. -/
theorem C30_lock_try (p : Int) (s : Lock.State) (h : Lock.Reach p s) :
    ∃ s', Lock.step s .tryAcquire = some s' ∧ s'.log = s.log ++ [.tried (decide (inUse s.log < p))] := by
  have inv := Lock.reach_inv h
  have h1 := inv.use; have h2 := inv.permits
  by_cases hf : s.isFull
  · exact ⟨_, by simp [Lock.step, hf]; rfl, by unfold Lock.State.isFull at hf; simp; omega⟩
  · exact ⟨_, by simp [Lock.step, hf]; rfl, by unfold Lock.State.isFull at hf; simp; omega⟩

/-! ### C31 -/

/-- **C31**, LockSemaphore: while a permit is available no goroutine sleeps in `Acquire`. -/
theorem C31_lock_no_sleeper (p : Int) (s : Lock.State) (h : Lock.Reach p s) (hav : inUse s.log < p) (i : Nat) :
    s.pcs[i]? ≠ some .waiting := by
  intro hi
  have inv := Lock.reach_inv h
  have := inv.asleep i hi
  unfold Lock.State.isFull at this
  have := inv.use; have := inv.permits
  omega

/-- **C31**, LockSemaphore: while a permit is available, every blocked `Acquire` can get it as soon as it runs. -/
theorem C31_lock_available_served (p : Int) (s : Lock.State) (h : Lock.Reach p s) (hav : inUse s.log < p) (i : Nat)
    (pc : Lock.PC) (hi : s.pcs[i]? = some pc) (hb : pc ≠ .done) :
    ∃ s', Lock.step s (.run i) = some s' ∧ s'.pcs[i]? = some .done ∧ s'.log = s.log ++ [.acquired i] := by
  have inv := Lock.reach_inv h
  have hw : pc = .woken := by
    cases pc with
    | waiting => exact absurd hi (C31_lock_no_sleeper p s h hav i)
    | woken => rfl
    | done => exact absurd rfl hb
  subst hw
  have hf : ¬ s.isFull := by
    unfold Lock.State.isFull
    have := inv.use; have := inv.permits; omega
  have hlt : i < s.pcs.length := by rw [List.getElem?_eq_some_iff] at hi; exact hi.1
  exact ⟨_, by simp [Lock.step, hi, hf]; rfl, by simp [hlt], rfl⟩

/-- **C31**, LockSemaphore: a `Release` while a goroutine is blocked in `Acquire` (at least one permit) lets any one of
the blocked goroutines finish next. -/
theorem C31_lock_release_serves (p : Int) (hp : 1 ≤ p) (s : Lock.State) (h : Lock.Reach p s) (i : Nat) (pc : Lock.PC)
    (hi : s.pcs[i]? = some pc) (hb : pc ≠ .done) :
    ∃ s' s'', Lock.step s .release = some s' ∧ Lock.step s' (.run i) = some s'' ∧ s''.pcs[i]? = some .done ∧
      .acquired i ∈ s''.log.drop s.log.length := by
  have inv := Lock.reach_inv h
  have hrel : ∃ s', Lock.step s .release = some s' := by
    simp only [Lock.step]; split <;> exact ⟨_, rfl⟩
  obtain ⟨s', hs'⟩ := hrel
  have hr' : Lock.Reach p s' := Reachable.trans h (Reachable.step _ hs')
  have inv' := Lock.reach_inv hr'
  have hcnt : s'.count < p ∧ (∃ e, s'.log = s.log ++ [e]) ∧ ∃ pc', s'.pcs[i]? = some pc' ∧ pc' ≠ .done := by
    simp only [Lock.step] at hs'
    split at hs'
    · simp at hs'; subst hs'
      exact ⟨by simp only; omega, ⟨_, rfl⟩, pc, hi, hb⟩
    · simp at hs'; subst hs'
      have := inv.le
      refine ⟨by simp only; omega, ⟨_, rfl⟩, Lock.wake pc, by simp [hi], ?_⟩
      cases pc <;> simp_all [Lock.wake]
  obtain ⟨hc, ⟨e, he⟩, pc', hpc', hnd⟩ := hcnt
  obtain ⟨s'', h1, h2, h3⟩ := C31_lock_available_served p s' hr' (by rw [inv'.use]; exact hc) i pc' hpc' hnd
  exact ⟨s', s'', hs', h1, h2, by rw [h3, he]; simp⟩

/-- **C31**, ChanSemaphore: while a permit is available no `Acquire` is blocked. -/
theorem C31_chan_no_sleeper (p : Int) (s : Chan.State) (h : Chan.Reach p s) (hav : inUse s.log < p) : s.sendq = [] := by
  obtain ⟨inv, hp⟩ := Chan.reach_inv h
  by_cases hq : s.sendq = []
  · exact hq
  · have := inv.full hq; have := inv.use; omega

/-- **C31**, ChanSemaphore: a `Release` while goroutines are blocked in `Acquire` completes the first of them. -/
theorem C31_chan_release_serves (s : Chan.State) (i : Nat) (q : List Nat) (hq : s.sendq = i :: q) :
    ∃ s', Chan.step s .release = some s' ∧ s'.log = s.log ++ [.released true, .acquired i] ∧ s'.sendq = q :=
  ⟨_, by simp [Chan.step, hq]; rfl, rfl, rfl⟩

/-- Non-vacuity of C31: two blocked `Acquire` calls, one release, the second of them barges ahead of the first. -/
example : (exec Lock.step (Lock.new 1) [.acquire, .acquire, .acquire, .release, .run 2, .run 1]).map (fun s => (s.pcs, s.log)) =
    some ([.done, .waiting, .done], [.acquired 0, .blocked 1, .blocked 2, .released true, .acquired 2]) := by decide

/-! ### C32 -/

/-- The schedule of the LockSemaphore that mirrors one step of the ChanSemaphore in state `s`: after a `Release` the
blocked calls get the mutex in the order in which they were blocked. -/
def mirror (s : Chan.State) : Chan.Action → List Lock.Action
  | .acquire => [.acquire]
  | .tryAcquire => [.tryAcquire]
  | .release => .release :: s.sendq.map .run

/-- Matching states. -/
structure Sim (c : Chan.State) (l : Lock.State) : Prop where
  permits : l.permits = c.permits
  count   : l.count = c.n
  log     : l.log = c.log
  len     : l.pcs.length = c.calls
  pcs     : ∀ (i : Nat), i < c.calls → l.pcs[i]? = some (if i ∈ c.sendq then .waiting else .done)
  bound   : ∀ i ∈ c.sendq, i < c.calls
  nodup   : c.sendq.Nodup
  full    : c.sendq ≠ [] → c.n = c.permits
  le      : c.n ≤ c.permits
  pos     : 0 < c.permits

/-- Woken calls that find the semaphore full go back to sleep. -/
theorem run_full (q : List Nat) : ∀ (s : Lock.State), s.isFull → q.Nodup → (∀ i ∈ q, s.pcs[i]? = some .woken) →
    ∃ s', exec Lock.step s (q.map .run) = some s' ∧ s'.permits = s.permits ∧ s'.count = s.count ∧ s'.log = s.log ∧
      s'.pcs.length = s.pcs.length ∧ ∀ (i : Nat), s'.pcs[i]? = if i ∈ q then some .waiting else s.pcs[i]? := by
  induction q with
  | nil => intro s _ _ _; exact ⟨s, rfl, rfl, rfl, rfl, rfl, by simp⟩
  | cons j q ih =>
    intro s hf hnd hw
    have hj := hw j (by simp)
    have hlt : j < s.pcs.length := by rw [List.getElem?_eq_some_iff] at hj; exact hj.1
    rw [List.nodup_cons] at hnd
    have hstep : Lock.step s (.run j) = some { s with pcs := s.pcs.set j .waiting } := by
      simp [Lock.step, hj, hf]
    obtain ⟨s', h1, h2, h3, h4, h5, h6⟩ := ih { s with pcs := s.pcs.set j .waiting } hf hnd.2 (by
      intro i hi
      have hne : j ≠ i := by rintro rfl; exact hnd.1 hi
      simp only
      rw [List.getElem?_set_ne hne]
      exact hw i (by simp [hi]))
    refine ⟨s', by simp [exec, hstep, h1], h2, h3, h4, by simpa using h5, ?_⟩
    intro i
    rw [h6 i]
    by_cases hij : i = j
    · subst hij
      simp [hlt]
    · by_cases hq : i ∈ q
      · simp [hq]
      · simp [hq, hij, List.getElem?_set_ne (Ne.symm hij)]

theorem sim_step (c : Chan.State) (l : Lock.State) (hs : Sim c l) (a : Chan.Action) (c' : Chan.State)
    (h : Chan.step c a = some c') : ∃ l', exec Lock.step l (mirror c a) = some l' ∧ Sim c' l' := by
  obtain ⟨h1, h2, h3, h4, h5, h6, h7, h8, h9, h10⟩ := hs
  have hfull : l.isFull ↔ ¬ c.n < c.permits := by unfold Lock.State.isFull; omega
  cases a with
  | acquire =>
    simp only [Chan.step] at h
    split at h
    · rename_i hlt
      simp at h; subst h
      refine ⟨_, by simp [mirror, exec, Lock.step, hfull, hlt]; rfl, ?_⟩
      refine ⟨h1, by simp [h2], by simp [h3, h4], by simp [h4], ?_, ?_, h7, ?_, by simp only; omega, h10⟩
      · intro i hi
        simp only at hi ⊢
        rw [List.getElem?_append]
        split
        · exact h5 i (by omega)
        · have : i = c.calls := by omega
          subst this
          have : c.calls ∉ c.sendq := fun hm => by have := h6 _ hm; omega
          simp [h4, this]
      · intro i hi; have := h6 i hi; simp only; omega
      · intro hq; have := h8 hq; omega
    · rename_i hlt
      simp at h; subst h
      refine ⟨_, by simp [mirror, exec, Lock.step, hfull, hlt]; rfl, ?_⟩
      refine ⟨h1, h2, by simp [h3, h4], by simp [h4], ?_, ?_, ?_, ?_, h9, h10⟩
      · intro i hi
        simp only at hi ⊢
        rw [List.getElem?_append]
        split
        · rename_i hi2
          rw [h5 i (by omega)]
          have : i ≠ c.calls := by omega
          simp [this]
        · have : i = c.calls := by omega
          subst this
          simp [h4]
      · intro i hi
        simp only [List.mem_append, List.mem_singleton] at hi ⊢
        rcases hi with hi | hi
        · have := h6 i hi; omega
        · omega
      · rw [List.nodup_append]
        refine ⟨h7, by simp, ?_⟩
        intro a ha b hb
        simp at hb; subst hb
        have := h6 a ha; omega
      · intro _; simp only; omega
  | tryAcquire =>
    simp only [Chan.step] at h
    split at h
    · rename_i hlt
      simp at h; subst h
      refine ⟨_, by simp [mirror, exec, Lock.step, hfull, hlt]; rfl, ?_⟩
      exact ⟨h1, by simp [h2], by simp [h3], h4, h5, h6, h7, fun hq => by have := h8 hq; omega, by simp only; omega, h10⟩
    · rename_i hlt
      simp at h; subst h
      refine ⟨_, by simp [mirror, exec, Lock.step, hfull, hlt]; rfl, ?_⟩
      exact ⟨h1, h2, by simp [h3], h4, h5, h6, h7, h8, h9, h10⟩
  | release =>
    simp only [Chan.step] at h
    split at h
    · rename_i i q hq
      simp at h; subst h
      have hn := h8 (by simp [hq])
      have hi := h6 i (by simp [hq])
      rw [hq, List.nodup_cons] at h7
      -- the release
      have hpos : ¬ l.count ≤ 0 := by omega
      let l1 : Lock.State := { l with count := l.count - 1, pcs := l.pcs.map Lock.wake, log := l.log ++ [.released true] }
      have hl1 : Lock.step l .release = some l1 := by simp [Lock.step, hpos, l1]
      have hpcs1 : ∀ (j : Nat), j < c.calls → l1.pcs[j]? = some (if j ∈ c.sendq then .woken else .done) := by
        intro j hj
        simp only [l1, List.getElem?_map, h5 j hj]
        by_cases hm : j ∈ c.sendq <;> simp [hm, Lock.wake]
      -- the first blocked call
      let l2 : Lock.State := { l1 with count := l1.count + 1, pcs := l1.pcs.set i .done, log := l1.log ++ [.acquired i] }
      have hl2 : Lock.step l1 (.run i) = some l2 := by
        have hf1 : ¬ l1.isFull := by unfold Lock.State.isFull; simp only [l1]; omega
        have hw : l1.pcs[i]? = some .woken := by rw [hpcs1 i hi]; simp [hq]
        simp only [Lock.step, hw, hf1, if_false, l2]
      -- the others
      have hlen2 : l2.pcs.length = c.calls := by simp [l2, l1, h4]
      have hpcs2 : ∀ (j : Nat), j ≠ i → l2.pcs[j]? = l1.pcs[j]? := by
        intro j hj; simp only [l2]; rw [List.getElem?_set_ne (Ne.symm hj)]
      obtain ⟨l3, e1, e2, e3, e4, e5, e6⟩ := run_full q l2
        (by unfold Lock.State.isFull; simp only [l2, l1]; omega) h7.2 (by
          intro j hj
          have hji : j ≠ i := by rintro rfl; exact h7.1 hj
          rw [hpcs2 j hji, hpcs1 j (h6 j (by simp [hq, hj]))]
          simp [hq, hj])
      refine ⟨l3, ?_, ?_⟩
      · simp [mirror, exec, hq, hl1, hl2, e1]
      · refine ⟨by rw [e2]; exact h1, by rw [e3]; simp only [l2, l1]; omega, by rw [e4]; simp [l2, l1, h3],
          by rw [e5]; exact hlen2, ?_, ?_, h7.2, fun _ => hn, h9, h10⟩
        · intro j hj
          simp only at hj ⊢
          rw [e6 j]
          by_cases hjq : j ∈ q
          · simp [hjq]
          · simp only [hjq, if_false]
            by_cases hji : j = i
            · subst hji
              simp only [l2, l1]
              rw [List.getElem?_set_self (by simp; omega)]
            · rw [hpcs2 j hji, hpcs1 j hj]
              simp [hq, hji, hjq]
        · intro j hj; exact h6 j (by simp [hq, hj])
    · rename_i hq
      split at h
      · rename_i hpos
        simp at h; subst h
        have : ¬ l.count ≤ 0 := by omega
        refine ⟨_, by simp [mirror, exec, Lock.step, hq, this]; rfl, ?_⟩
        refine ⟨h1, by simp only; omega, by simp [h3], by simp [h4], ?_, h6, h7, by simp [hq], by simp only; omega, h10⟩
        intro i hi
        simp [h5 i hi, hq, Lock.wake]
      · rename_i hpos
        simp at h; subst h
        have : l.count ≤ 0 := by omega
        refine ⟨_, by simp [mirror, exec, Lock.step, hq, this]; rfl, ?_⟩
        exact ⟨h1, h2, by simp [h3], h4, h5, h6, h7, h8, h9, h10⟩

/-- **C32**: for at least one permit, every behaviour of the ChanSemaphore (which `Acquire` calls block, when each gets
its permit, all `TryAcquire` and `Release` results, in order) is a behaviour of the LockSemaphore, namely the one in which
blocked calls are served in order as soon as a permit is released. -/
theorem C32_chan_behaviour_of_lock (p : Int) (hp : 1 ≤ p) (as : List Chan.Action) (c0 c : Chan.State)
    (h0 : Chan.new p = some c0) (h : exec Chan.step c0 as = some c) :
    ∃ (bs : List Lock.Action) (l : Lock.State), exec Lock.step (Lock.new p) bs = some l ∧ l.log = c.log := by
  have gen : ∀ (as : List Chan.Action) (c0 c : Chan.State) (l0 : Lock.State), Sim c0 l0 → exec Chan.step c0 as = some c →
      ∃ bs l, exec Lock.step l0 bs = some l ∧ Sim c l := by
    intro as
    induction as with
    | nil => intro c0 c l0 hs h; simp [exec] at h; subst h; exact ⟨[], l0, rfl, hs⟩
    | cons a as ih =>
      intro c0 c l0 hs h
      simp only [exec] at h
      split at h
      · rename_i c1 h1
        obtain ⟨l1, e1, hs1⟩ := sim_step c0 l0 hs a c1 h1
        obtain ⟨bs, l, e2, hs2⟩ := ih c1 c l1 hs1 h
        exact ⟨mirror c0 a ++ bs, l, by rw [exec_append, e1]; exact e2, hs2⟩
      · simp at h
  unfold Chan.new at h0
  rw [if_neg (by omega)] at h0
  simp at h0; subst h0
  obtain ⟨bs, l, e, hs⟩ := gen as _ c (Lock.new p)
    ⟨by simp [Lock.new]; omega, rfl, rfl, rfl, by simp, by simp, by simp, by simp, by simp, by simp; omega⟩ h
  exact ⟨bs, l, e, hs.log⟩

/-- Operations that never wait. -/
inductive Op where
  | tryAcquire | release
deriving Repr, DecidableEq

def Op.chan : Op → Chan.Action
  | .tryAcquire => .tryAcquire
  | .release => .release

def Op.lock : Op → Lock.Action
  | .tryAcquire => .tryAcquire
  | .release => .release

/-- **C32** for sequences of `TryAcquire` and `Release`: both semaphores give exactly the same results, for any number of
permits ≥ 0. -/
theorem C32_same_results (p : Int) (hp : 0 ≤ p) (ops : List Op) :
    ∃ c0 c l, Chan.new p = some c0 ∧ exec Chan.step c0 (ops.map Op.chan) = some c ∧
      exec Lock.step (Lock.new p) (ops.map Op.lock) = some l ∧ c.log = l.log := by
  have gen : ∀ (ops : List Op) (c : Chan.State) (l : Lock.State), c.sendq = [] → l.permits = c.permits → l.count = c.n →
      c.log = l.log → ∃ c' l', exec Chan.step c (ops.map Op.chan) = some c' ∧
        exec Lock.step l (ops.map Op.lock) = some l' ∧ c'.log = l'.log := by
    intro ops
    induction ops with
    | nil => intro c l _ _ _ hlog; exact ⟨c, l, rfl, rfl, hlog⟩
    | cons o ops ih =>
      intro c l hq h1 h2 hlog
      have hfull : l.isFull ↔ ¬ c.n < c.permits := by unfold Lock.State.isFull; omega
      cases o with
      | tryAcquire =>
        by_cases hlt : c.n < c.permits
        · obtain ⟨c', l', e1, e2, e3⟩ := ih { c with n := c.n + 1, log := c.log ++ [.tried true] }
            { l with count := l.count + 1, log := l.log ++ [.tried true] } hq h1 (by simp [h2]) (by simp [hlog])
          exact ⟨c', l', by simp [exec, Op.chan, Chan.step, hlt, e1], by simp [exec, Op.lock, Lock.step, hfull, hlt, e2], e3⟩
        · obtain ⟨c', l', e1, e2, e3⟩ := ih { c with log := c.log ++ [.tried false] }
            { l with log := l.log ++ [.tried false] } hq h1 h2 (by simp [hlog])
          exact ⟨c', l', by simp [exec, Op.chan, Chan.step, hlt, e1], by simp [exec, Op.lock, Lock.step, hfull, hlt, e2], e3⟩
      | release =>
        by_cases hpos : 0 < c.n
        · obtain ⟨c', l', e1, e2, e3⟩ := ih { c with n := c.n - 1, log := c.log ++ [.released true] }
            { l with count := l.count - 1, pcs := l.pcs.map Lock.wake, log := l.log ++ [.released true] } hq h1
            (by simp only; omega) (by simp [hlog])
          have : ¬ l.count ≤ 0 := by omega
          rw [hq] at e1
          exact ⟨c', l', by simp [exec, Op.chan, Chan.step, hq, hpos, e1], by simp [exec, Op.lock, Lock.step, this, e2], e3⟩
        · obtain ⟨c', l', e1, e2, e3⟩ := ih { c with log := c.log ++ [.released false] }
            { l with log := l.log ++ [.released false] } hq h1 h2 (by simp [hlog])
          have : l.count ≤ 0 := by omega
          rw [hq] at e1
          exact ⟨c', l', by simp [exec, Op.chan, Chan.step, hq, hpos, e1], by simp [exec, Op.lock, Lock.step, this, e2], e3⟩
  obtain ⟨c', l', e1, e2, e3⟩ := gen ops ⟨p.toNat, 0, [], 0, []⟩ (Lock.new p) rfl (by simp [Lock.new]; omega) rfl rfl
  exact ⟨_, c', l', by unfold Chan.new; rw [if_neg (by omega)], e1, e2, e3⟩

/-- **C32 is violated** as an equivalence under all schedules: on a LockSemaphore a `TryAcquire` can take a released
permit before a waiting `Acquire` gets the mutex; a ChanSemaphore has handed the permit over by then, in every
schedule. -/
theorem C32_barging_violated :
    (∃ l, Lock.Reach 1 l ∧ l.log = [.acquired 0, .blocked 1, .released true, .tried true]) ∧
    (∀ c, Chan.Reach 1 c → c.log ≠ [.acquired 0, .blocked 1, .released true, .tried true]) := by
  constructor
  · exact ⟨_, ⟨[.acquire, .acquire, .release, .tryAcquire], rfl⟩, by decide⟩
  · rintro c ⟨c0, h0, as, h⟩ hlog
    -- logs only grow
    have grow : ∀ (as : List Chan.Action) (a b : Chan.State), exec Chan.step a as = some b → ∃ ext, b.log = a.log ++ ext := by
      intro as
      induction as with
      | nil => intro a b h; simp [exec] at h; subst h; exact ⟨[], by simp⟩
      | cons x as ih =>
        intro a b h
        simp only [exec] at h
        split at h
        · rename_i a' ha'
          obtain ⟨_, ext, _, _, e1, _⟩ := Chan.same_step a a rfl x a' ha'
          obtain ⟨ext2, e2⟩ := ih a' b h
          exact ⟨ext ++ ext2, by rw [e2, e1]; simp⟩
        · simp at h
    have h0' : c0 = ⟨1, 0, [], 0, []⟩ := by unfold Chan.new at h0; simp at h0; exact h0.symm
    subst h0'
    -- follow the only schedule with that beginning
    rcases as with _ | ⟨a, as⟩
    · simp [exec] at h; subst h; simp at hlog
    cases a <;> simp [exec, Chan.step] at h <;> obtain ⟨ext, hext⟩ := grow _ _ _ h <;> rw [hlog] at hext <;> simp at hext
    rcases as with _ | ⟨a, as⟩
    · simp [exec] at h; subst h; simp at hlog
    cases a <;> simp [exec, Chan.step] at h <;> obtain ⟨ext, hext⟩ := grow _ _ _ h <;> rw [hlog] at hext <;> simp at hext
    rcases as with _ | ⟨a, as⟩
    · simp [exec] at h; subst h; simp at hlog
    cases a <;> simp [exec, Chan.step] at h <;> obtain ⟨ext, hext⟩ := grow _ _ _ h <;> rw [hlog] at hext <;> simp at hext

/-- Non-vacuity of C32: a ChanSemaphore history with two blocked calls. -/
example : (exec Chan.step ⟨1, 0, [], 0, []⟩ [.acquire, .acquire, .acquire, .release, .release]).map (·.log) =
    some [.acquired 0, .blocked 1, .blocked 2, .released true, .acquired 1, .released true, .acquired 2] := by decide

end Gears.Sema
