import Verif.Sema.Props

/-
C135: in which order the `Acquire` calls of a semaphore get their permits.  The channel of `ChanSemaphore` queues its senders, `sync.Cond.Broadcast` of `LockSemaphore`
(sema.go:91-108) makes all sleepers try again.
-/

namespace Gears.Sema

/-! ## Specification -/

/-- The `Acquire` calls that have got a permit, in the order in which they got it. -/
def served : List Ev → List Nat
  | [] => []
  | .acquired i :: l => i :: served l
  | _ :: l => served l

/-- The `Acquire` calls made. -/
def called : List Ev → Nat → Prop := fun l i => .acquired i ∈ l ∨ .blocked i ∈ l

/-- Number of `TryAcquire` calls that returned true. -/
def tries (l : List Ev) : Nat := l.count (.tried true)

/-- Number of `Release` calls that returned a permit. -/
def frees (l : List Ev) : Nat := l.count (.released true)

/-- First come, first served: nobody gets a permit before all who called earlier. -/
def InOrder (l : List Ev) : Prop := ∀ i j : Nat, j < i → i ∈ served l → j ∈ served l

/-! ## Lemmas -/

theorem served_append (a b : List Ev) : served (a ++ b) = served a ++ served b := by
  induction a with
  | nil => rfl
  | cons e a ih => cases e <;> simp [served, ih]

theorem served_mem {l : List Ev} {i : Nat} : i ∈ served l ↔ .acquired i ∈ l := by
  induction l with
  | nil => simp [served]
  | cons e l ih => cases e <;> simp [served, ih]

theorem served_inUse (l : List Ev) : inUse l = (served l).length + tries l - frees l := by
  induction l with
  | nil => rfl
  | cons e l ih =>
    cases e with
    | blocked i => simpa [inUse, served, tries, frees, List.count_cons] using ih
    | acquired i => simp [inUse, served, tries, frees] at ih ⊢; omega
    | tried b => cases b <;> simp [inUse, served, tries, frees] at ih ⊢ <;> omega
    | released b => cases b <;> simp [inUse, served, tries, frees] at ih ⊢ <;> omega

namespace Chan

structure Queue (s : State) : Prop where
  all  : served s.log ++ s.sendq = List.range s.calls
  made : ∀ i, called s.log i ↔ i < s.calls
  full : s.sendq ≠ [] → ¬ s.n < s.permits

theorem called_append (a b : List Ev) (i : Nat) : called (a ++ b) i ↔ called a i ∨ called b i := by
  simp only [called, List.mem_append]; grind

theorem queue_step (s : State) (a : Action) (s' : State) (q : Queue s) (h : step s a = some s') : Queue s' := by
  obtain ⟨h1, h2, h3⟩ := q
  cases a with
  | acquire =>
    simp only [step] at h
    split at h
    · rename_i hlt
      have hq : s.sendq = [] := Classical.byContradiction fun hq => h3 hq hlt
      simp only [Option.some.injEq] at h; subst h
      rw [hq, List.append_nil] at h1
      refine ⟨?_, ?_, ?_⟩
      · simp [served_append, served, hq, h1, List.range_succ]
      · intro i
        simp only [called_append, h2]
        simp [called]; omega
      · exact fun hq' => absurd hq hq'
    · rename_i hlt
      simp only [Option.some.injEq] at h; subst h
      refine ⟨?_, ?_, fun _ => hlt⟩
      · simp only [served_append, served, List.append_nil, ← List.append_assoc, h1, List.range_succ]
      · intro i
        simp only [called_append, h2]
        simp [called]; omega
  | tryAcquire =>
    simp only [step] at h
    split at h
    · rename_i hlt
      have hq : s.sendq = [] := Classical.byContradiction fun hq => h3 hq hlt
      simp only [Option.some.injEq] at h; subst h
      exact ⟨by simpa [served_append, served] using h1, fun i => by rw [called_append, h2]; simp [called], fun hq' => absurd hq hq'⟩
    · simp only [Option.some.injEq] at h; subst h
      exact ⟨by simpa [served_append, served] using h1, fun i => by rw [called_append, h2]; simp [called], h3⟩
  | release =>
    simp only [step] at h
    split at h
    · rename_i i q hq
      simp only [Option.some.injEq] at h; subst h
      refine ⟨by simpa [served_append, served, hq] using h1, ?_, fun _ => h3 (by simp [hq])⟩
      intro j
      have hi : i < s.calls := by
        have : i ∈ List.range s.calls := by rw [← h1, hq]; simp
        simpa using this
      simp only [called_append, h2]
      simp [called]; omega
    · rename_i hq
      split at h
      · simp only [Option.some.injEq] at h; subst h
        exact ⟨by simpa [served_append, served] using h1, fun i => by rw [called_append, h2]; simp [called], fun hq' => absurd hq hq'⟩
      · simp only [Option.some.injEq] at h; subst h
        exact ⟨by simpa [served_append, served] using h1, fun i => by rw [called_append, h2]; simp [called], h3⟩

theorem reach_queue {p : Int} {s : State} (h : Reach p s) : Queue s := by
  obtain ⟨s0, h0, hr⟩ := h
  unfold new at h0
  split at h0
  · simp at h0
  · simp only [Option.some.injEq] at h0; subst h0
    exact hr.inv ⟨rfl, by simp [called], by simp⟩ queue_step

end Chan

/-! ## C135 -/

/-- C135, ChanSemaphore: the `Acquire` calls get their permits in the order in which they came. -/
theorem C135_order (p : Int) (s : Chan.State) (h : Chan.Reach p s) : served s.log = List.range (served s.log).length ∧ InOrder s.log := by
  have hq := (Chan.reach_queue h).all
  have h1 : served s.log = List.range (served s.log).length := by
    have := congrArg (List.take (served s.log).length) hq
    rw [List.take_left, List.take_range] at this
    have hl := congrArg List.length hq
    simp only [List.length_append, List.length_range] at hl
    rwa [Nat.min_eq_left (by omega)] at this
  refine ⟨h1, fun i j hij hi => ?_⟩
  rw [h1] at hi ⊢
  simp only [List.mem_range] at hi ⊢
  omega

/-- C135, ChanSemaphore: how many have got one: all, or as many as there are permits, counting returned ones and without those that `TryAcquire` took. -/
theorem C135_count (p : Int) (s : Chan.State) (h : Chan.Reach p s) :
    (∀ i, called s.log i ↔ i < s.calls) ∧ ((served s.log).length : Int) = min (s.calls : Int) (p + frees s.log - tries s.log) := by
  have hq := Chan.reach_queue h
  obtain ⟨hi, hp⟩ := Chan.reach_inv h
  refine ⟨hq.made, ?_⟩
  have hu := served_inUse s.log
  have hl := congrArg List.length hq.all
  simp only [List.length_append, List.length_range] at hl
  have h1 := hi.use
  have h2 := hi.le
  by_cases he : s.sendq = []
  · simp only [he, List.length_nil] at hl; omega
  · have := hi.full he
    omega

theorem served_stays {s t : Chan.State} {i : Nat} (hi : i ∈ served s.log) (as : List Chan.Action) (h : exec Chan.step s as = some t) : i ∈ served t.log := by
  refine exec_inv (I := fun s => i ∈ served s.log) (fun s a s' hi hs => ?_) as s t hi h
  cases a with
  | acquire => simp only [Chan.step] at hs; split at hs <;> simp only [Option.some.injEq] at hs <;> subst hs <;> simp [served_append, hi]
  | tryAcquire => simp only [Chan.step] at hs; split at hs <;> simp only [Option.some.injEq] at hs <;> subst hs <;> simp [served_append, hi]
  | release =>
    simp only [Chan.step] at hs
    split at hs
    · simp only [Option.some.injEq] at hs; subst hs; simp [served_append, hi]
    · split at hs <;> simp only [Option.some.injEq] at hs <;> subst hs <;> simp [served_append, hi]

/-- C135, ChanSemaphore: a waiting `Acquire` returns with the `Release` that has its place in the queue as number, whatever else is called in between. -/
theorem C135_wait (p : Int) (s : Chan.State) (h : Chan.Reach p s) (q₁ q₂ : List Nat) (i : Nat) (hq : s.sendq = q₁ ++ i :: q₂) (as : List Chan.Action) (t : Chan.State)
    (ht : exec Chan.step s as = some t) : i ∈ served t.log ↔ q₁.length < as.count .release := by
  induction as generalizing s q₁ q₂ with
  | nil =>
    simp only [exec, Option.some.injEq] at ht; subst ht
    simp only [List.count_nil, Nat.not_lt_zero, iff_false]
    intro hi
    have hall := (Chan.reach_queue h).all
    have hnd : (served s.log ++ s.sendq).Nodup := by rw [hall]; exact List.nodup_range
    exact (List.nodup_append.1 hnd).2.2 i hi i (by rw [hq]; simp) rfl
  | cons a as ih =>
    simp only [exec] at ht
    split at ht
    · rename_i s1 hs
      have h1 : Chan.Reach p s1 := by
        obtain ⟨s0, e0, hr⟩ := h
        exact ⟨s0, e0, hr.trans (Reachable.step a hs)⟩
      have hf : ¬ s.n < s.permits := (Chan.reach_queue h).full (by simp [hq])
      cases a with
      | acquire =>
        simp only [Chan.step, hf, if_false, Option.some.injEq] at hs
        rw [ih s1 h1 q₁ (q₂ ++ [s.calls]) (by simp [← hs, hq]) ht]
        simp
      | tryAcquire =>
        simp only [Chan.step, hf, if_false, Option.some.injEq] at hs
        rw [ih s1 h1 q₁ q₂ (by simp [← hs, hq]) ht]
        simp
      | release =>
        cases q₁ with
        | nil =>
          simp only [Chan.step, hq, List.nil_append, Option.some.injEq] at hs
          have : i ∈ served t.log := served_stays (by simp [← hs, served_append, served]) as ht
          simp [this]
        | cons j q₁ =>
          simp only [Chan.step, hq, List.cons_append, Option.some.injEq] at hs
          rw [ih s1 h1 q₁ q₂ (by simp [← hs]) ht]
          simp
    · simp at ht

/-- One permit: `Release` and the next `Acquire` come between the wake-up of the waiting call 1 and its next test. -/
def round : List Lock.Action := [.release, .acquire, .run 1]

/-- C135 is violated by LockSemaphore: while call 1 waits, any number of later calls get permits, although it is woken by every `Release` and gets the mutex after each. -/
theorem C135_starve_violated (N : Nat) : ∃ s, exec Lock.step (Lock.new 1) ([.acquire, .acquire] ++ (List.replicate N round).flatten) = some s ∧
    .blocked 1 ∈ s.log ∧ served s.log = 0 :: (List.range N).map (· + 2) ∧ frees s.log = N := by
  suffices h : ∃ s, exec Lock.step (Lock.new 1) ([.acquire, .acquire] ++ (List.replicate N round).flatten) = some s ∧
      .blocked 1 ∈ s.log ∧ served s.log = 0 :: (List.range N).map (· + 2) ∧ frees s.log = N ∧ s.permits = 1 ∧ s.count = 1 ∧
      s.pcs = .done :: .waiting :: List.replicate N .done by
    obtain ⟨s, h1, h2, h3, h4, -⟩ := h
    exact ⟨s, h1, h2, h3, h4⟩
  induction N with
  | zero => exact ⟨_, rfl, by decide, rfl, rfl, rfl, rfl, rfl⟩
  | succ N ih =>
    obtain ⟨⟨pm, ct, pcs, log⟩, h1, h2, h3, h4, h5, h6, h7⟩ := ih
    simp only at h5 h6 h7 h2 h3 h4
    subst h5 h6 h7
    rw [List.replicate_succ', List.flatten_append, ← List.append_assoc, exec_append, h1]
    refine ⟨⟨1, 1, .done :: .waiting :: List.replicate (N + 1) .done, log ++ [.released true, .acquired (N + 2)]⟩, ?_, ?_, ?_, ?_, rfl, rfl, rfl⟩
    · simp [round, exec, Lock.step, Lock.State.isFull, Lock.wake, List.replicate_succ']
    · simp [h2]
    · simp [served_append, served, h3, List.range_succ]
    · simp only [frees] at h4 ⊢
      simp [List.count_append, h4]

/-- The full claim, for one kind of semaphore: in all its logs permits are given in order. -/
def C135Claim (Reach : Int → List Ev → Prop) : Prop := ∀ p l, Reach p l → InOrder l

theorem C135_chan : C135Claim fun p l => ∃ s, Chan.Reach p s ∧ s.log = l := by
  rintro p l ⟨s, h, rfl⟩
  exact (C135_order p s h).2

theorem C135_lock_violated : ¬ C135Claim fun p l => ∃ s, Lock.Reach p s ∧ s.log = l := by
  intro h
  obtain ⟨s, h1, -, h3, -⟩ := C135_starve_violated 1
  have := h 1 s.log ⟨s, ⟨_, h1⟩, rfl⟩ 2 1 (by omega) (by rw [h3]; decide)
  rw [h3] at this
  revert this; decide

namespace Lock

structure Once (s : State) : Prop where
  done  : ∀ i, i ∈ served s.log ↔ s.pcs[i]? = some .done
  nodup : (served s.log).Nodup

theorem once_step (s : State) (a : Action) (s' : State) (q : Once s) (h : step s a = some s') : Once s' := by
  obtain ⟨h1, h2⟩ := q
  have hlen : s.pcs.length ∉ served s.log := by rw [h1]; simp
  cases a with
  | acquire =>
    simp only [step] at h
    split at h <;> simp only [Option.some.injEq] at h <;> subst h
    · refine ⟨fun i => ?_, by simpa [served_append, served] using h2⟩
      simp only [served_append, served, List.append_nil, h1, List.getElem?_append]
      grind
    · refine ⟨fun i => ?_, ?_⟩
      · simp only [served_append, served, List.mem_append, h1, List.getElem?_append]
        grind
      · simp only [served_append, served, List.nodup_append]
        grind
  | run i =>
    simp only [step] at h
    split at h
    · rename_i hi
      have hni : i ∉ served s.log := by rw [h1, hi]; simp
      split at h <;> simp only [Option.some.injEq] at h <;> subst h
      · refine ⟨fun j => ?_, h2⟩
        simp only [h1, List.getElem?_set]
        grind
      · refine ⟨fun j => ?_, ?_⟩
        · simp only [served_append, served, List.mem_append, h1, List.getElem?_set]
          grind
        · simp only [served_append, served, List.nodup_append]
          grind
    · simp at h
  | tryAcquire =>
    simp only [step] at h
    split at h <;> simp only [Option.some.injEq] at h <;> subst h <;> exact ⟨by simpa [served_append, served] using h1, by simpa [served_append, served] using h2⟩
  | release =>
    simp only [step] at h
    split at h <;> simp only [Option.some.injEq] at h <;> subst h
    · exact ⟨by simpa [served_append, served] using h1, by simpa [served_append, served] using h2⟩
    · refine ⟨fun i => ?_, by simpa [served_append, served] using h2⟩
      simp only [served_append, served, List.append_nil, h1, List.getElem?_map]
      cases hp : s.pcs[i]? with
      | none => simp
      | some q => cases q <;> simp [wake]

end Lock

/-- What remains true of LockSemaphore: a call gets one permit at most, and no more calls have got one than there were permits for.  Missing: the order. -/
theorem C135_lock_partial (p : Int) (s : Lock.State) (h : Lock.Reach p s) :
    (served s.log).Nodup ∧ ((served s.log).length : Int) ≤ max p 0 + frees s.log - tries s.log := by
  have hi := Lock.reach_inv h
  have hu := served_inUse s.log
  have h1 := hi.use
  have h2 := hi.le
  have ho : Lock.Once s := Reachable.inv h ⟨by simp [Lock.new, served], by simp [Lock.new, served]⟩ Lock.once_step
  exact ⟨ho.nodup, by omega⟩

/-- Two waiting calls, and a `TryAcquire` and a new call that do not overtake them. -/
example : ∃ s t, Chan.Reach 1 s ∧ s.sendq = [1, 2] ∧ exec Chan.step s [.tryAcquire, .release, .acquire, .release] = some t ∧ served t.log = [0, 1, 2] := by
  refine ⟨_, _, ⟨_, rfl, [.acquire, .acquire, .acquire], rfl⟩, rfl, rfl, by decide⟩

end Gears.Sema
