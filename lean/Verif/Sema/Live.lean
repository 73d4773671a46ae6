import Verif.Sema.Fair
import Verif.Common.Fair

/-
C160: does every `Acquire` of a semaphore (/repo/concurrent/sema.go) return some time, in infinite executions of the models of
`Sema/Model`, if permits are given back?
-/

namespace Gears.Sema

/-! ## ChanSemaphore -/

namespace Chan

/-- Whenever all permits are taken, a `Release` follows. -/
def Returns (s : Nat → State) (a : Nat → Option Action) : Prop :=
  ∀ j, ¬ (s j).n < (s j).permits → ∃ j', j ≤ j' ∧ a j' = some .release

theorem run_reach {p : Int} {s : Nat → State} {a : Nat → Option Action} (h : IsRun step s a) (h0 : Reach p (s 0)) (i : Nat) : Reach p (s i) := by
  obtain ⟨s0, e, hr⟩ := h0
  exact ⟨s0, e, h.reach hr i⟩

/-- A call that has been made has got a permit or is in the queue. -/
theorem waits {p : Int} {s : State} (h : Reach p s) {i : Nat} (hc : called s.log i) (hn : i ∉ served s.log) : i ∈ s.sendq := by
  have hq := reach_queue h
  have : i ∈ List.range s.calls := by simpa using (hq.made i).mp hc
  rw [← hq.all, List.mem_append] at this
  exact this.resolve_left hn

theorem called_stays {s : Nat → State} {a : Nat → Option Action} (h : IsRun step s a) {m i : Nat} (hc : called (s m).log i) :
    ∀ n, called (s (m + n)).log i := by
  intro n
  refine exec_inv (I := fun st => called st.log i) (fun st x st' hi hs => ?_) _ _ _ hc (h.segment m n)
  cases x <;> simp only [step] at hs <;> (repeat' split at hs) <;> simp only [Option.some.injEq] at hs <;> subst hs <;>
    simp only [called_append] <;> first | exact .inl hi | exact hi

end Chan

/-- **C160**, ChanSemaphore: if permits are given back, every `Acquire` returns. -/
theorem C160_chan (p : Int) (s : Nat → Chan.State) (a : Nat → Option Chan.Action) (h : IsRun Chan.step s a) (h0 : Chan.Reach p (s 0))
    (hret : Chan.Returns s a) (m i : Nat) (hc : called (s m).log i) : ∃ j, m ≤ j ∧ i ∈ served (s j).log := by
  refine Classical.byContradiction fun hno => ?_
  have hns : ∀ n, i ∉ served (s (m + n)).log := fun n e => hno ⟨m + n, by omega, e⟩
  have hw : ∀ n, i ∈ (s (m + n)).sendq := fun n => Chan.waits (Chan.run_reach h h0 _) (Chan.called_stays h hc n) (hns n)
  have hmany : ∀ N, ∃ n, N ≤ (segment a m n).count .release := by
    intro N
    induction N with
    | zero => exact ⟨0, by simp⟩
    | succ N ih =>
      obtain ⟨n, hn⟩ := ih
      have hf := (Chan.reach_queue (Chan.run_reach h h0 (m + n))).full (List.ne_nil_of_mem (hw n))
      obtain ⟨j, hj, ha⟩ := hret _ hf
      obtain ⟨k, rfl⟩ := Nat.exists_eq_add_of_le hj
      have mono : ∀ k, N ≤ (segment a m (n + k)).count .release := by
        intro k
        induction k with
        | zero => exact hn
        | succ k ihk => rw [← Nat.add_assoc, segment_succ, List.count_append]; omega
      refine ⟨n + k + 1, ?_⟩
      rw [segment_succ, List.count_append, ← Nat.add_assoc, ha]
      have := mono k
      simp; omega
  obtain ⟨q₁, q₂, hq⟩ := List.append_of_mem (hw 0)
  obtain ⟨n, hn⟩ := hmany (q₁.length + 1)
  exact hns n ((C135_wait p (s m) (Chan.run_reach h h0 m) q₁ q₂ i hq _ _ (h.segment m n)).mpr (by omega))

/-! ## LockSemaphore -/

namespace Lock

/-- Whenever all permits are taken, a `Release` follows. -/
def Returns (s : Nat → State) (a : Nat → Option Action) : Prop :=
  ∀ j, (s j).isFull → ∃ j', j ≤ j' ∧ a j' = some .release

/-- A call that has been woken gets the mutex some time. -/
def WeakFair (s : Nat → State) (a : Nat → Option Action) : Prop :=
  ∀ i k, (∀ j, k ≤ j → (s j).pcs[i]? = some .woken) → ∃ j, k ≤ j ∧ a j = some (.run i)

/-- A call that is woken again and again gets the mutex again and again. -/
def StrongFair (s : Nat → State) (a : Nat → Option Action) : Prop :=
  ∀ i, (∀ k, ∃ j, k ≤ j ∧ (s j).pcs[i]? = some .woken) → ∀ k, ∃ j, k ≤ j ∧ a j = some (.run i)

/-- Permits that calls got. -/
def gets (l : List Ev) : Nat := (served l).length + tries l

theorem StrongFair.weak {s : Nat → State} {a : Nat → Option Action} (h : StrongFair s a) : WeakFair s a :=
  fun i k hw => h i (fun k' => ⟨max k k', Nat.le_max_right _ _, hw _ (Nat.le_max_left _ _)⟩) k

/-- What a step does. -/
theorem step_cases {s s' : State} {x : Action} (h : step s x = some s') :
    (s'.permits = s.permits) ∧
    ((gets s'.log = gets s.log + 1 ∧ s'.count = s.count + 1) ∨
     (gets s'.log = gets s.log ∧ s'.count ≤ s.count ∧ (x = .release → 0 < s.count → s'.count = s.count - 1))) := by
  cases x <;> simp only [step] at h <;> (repeat' split at h) <;> simp only [Option.some.injEq, reduceCtorEq] at h <;> subst h <;>
    simp [gets, served_append, served, tries, List.count_append] <;> omega

/-- What a step does to a call that has no permit. -/
theorem pc_step {s s' : State} {x : Action} (h : step s x = some s') {i : Nat} {q : PC} (hi : s.pcs[i]? = some q) :
    (s'.pcs[i]? = some q ∧ ¬ (x = .run i ∧ q = .woken ∧ ¬ s.isFull)) ∨ (q = .waiting ∧ s'.pcs[i]? = some .woken) ∨
      (q = .woken ∧ x = .run i ∧ s.isFull ∧ s'.pcs[i]? = some .waiting) ∨
      (q = .woken ∧ x = .run i ∧ ¬ s.isFull ∧ s'.pcs[i]? = some .done) := by
  have hlt : i < s.pcs.length := (List.getElem?_eq_some_iff.mp hi).1
  cases x with
  | acquire =>
    left
    simp only [step] at h
    split at h <;> simp only [Option.some.injEq] at h <;> subst h <;> simp [List.getElem?_append_left hlt, hi]
  | tryAcquire =>
    left
    simp only [step] at h
    split at h <;> simp only [Option.some.injEq] at h <;> subst h <;> simp [hi]
  | release =>
    simp only [step] at h
    split at h <;> simp only [Option.some.injEq] at h <;> subst h
    · left; simp [hi]
    · cases q <;> simp [hi, wake]
  | run k =>
    simp only [step] at h
    split at h
    · rename_i hk
      by_cases e : k = i
      · subst e
        rw [hi] at hk; cases hk
        split at h <;> rename_i hf <;> simp only [Option.some.injEq] at h <;> subst h <;> simp [hf, hlt]
      · left
        split at h <;> simp only [Option.some.injEq] at h <;> subst h <;> simp [hi, e]
    · cases h

end Lock

/-- **C160**, LockSemaphore: an `Acquire` returns, or other calls get permits for ever.  Missing: that it returns in any case. -/
theorem C160_lock_partial (p : Int) (hp : 0 < p) (s : Nat → Lock.State) (a : Nat → Option Lock.Action) (h : IsRun Lock.step s a)
    (h0 : Lock.Reach p (s 0)) (hret : Lock.Returns s a) (hfair : Lock.WeakFair s a) (m i : Nat) (hc : i < (s m).pcs.length) :
    (∃ j, m ≤ j ∧ i ∈ served (s j).log) ∨ ∀ k, ∃ j, k ≤ j ∧ Lock.gets (s (j + 1)).log = Lock.gets (s j).log + 1 := by
  refine Classical.byContradiction fun hno => ?_
  simp only [not_or, not_exists, not_and, Classical.not_forall] at hno
  obtain ⟨hns, k, hk⟩ := hno
  have hinv : ∀ j, Lock.Inv p (s j) := fun j => Lock.reach_inv (h.reach h0 j)
  have honce : ∀ j, Lock.Once (s j) := fun j =>
    Reachable.inv (h.reach h0 j) ⟨by simp [Lock.new, served], by simp [Lock.new, served]⟩ Lock.once_step
  -- the call is there and has no permit
  have hpc : ∀ n, ∃ q, (s (m + n)).pcs[i]? = some q ∧ q ≠ .done := by
    intro n
    have hd : (s (m + n)).pcs[i]? ≠ some .done := fun e => hns (m + n) (by omega) (((honce _).done i).mpr e)
    have : ∃ q, (s (m + n)).pcs[i]? = some q := by
      clear hd
      induction n with
      | zero => exact ⟨_, List.getElem?_eq_getElem hc⟩
      | succ n ih =>
        obtain ⟨q, hq⟩ := ih
        rcases h.next (m + n) with e | ⟨x, -, e⟩
        · exact ⟨q, by rw [← Nat.add_assoc, e]; exact hq⟩
        · rcases Lock.pc_step e hq with ⟨e, -⟩ | ⟨-, e⟩ | ⟨-, -, -, e⟩ | ⟨-, -, -, e⟩ <;> exact ⟨_, e⟩
    obtain ⟨q, hq⟩ := this
    exact ⟨q, hq, fun e => hd (by rw [hq, e])⟩
  -- from `k` on nobody gets a permit
  have hcnt : ∀ j, k ≤ j → (s (j + 1)).count ≤ (s j).count ∧ (a j = some .release → 0 < (s j).count → (s (j + 1)).count = (s j).count - 1) := by
    intro j hj
    have hst := h j
    cases ha : a j with
    | none => rw [ha] at hst; simp only at hst; rw [hst]; simp
    | some x =>
      rw [ha] at hst
      rcases (Lock.step_cases hst).2 with ⟨e, -⟩ | ⟨-, e1, e2⟩
      · exact absurd e (hk j hj)
      · exact ⟨e1, fun ex => by cases ex; exact e2 rfl⟩
  have hmono : ∀ j, k ≤ j → ∀ n, (s (j + n)).count ≤ (s j).count := by
    intro j hj n
    induction n with
    | zero => exact Int.le_refl _
    | succ n ih => have := (hcnt (j + n) (by omega)).1; rw [← Nat.add_assoc]; omega
  have hperm : ∀ j, (s j).permits = p := fun j => (hinv j).permits
  by_cases hfull : ∀ j, max m k ≤ j → (s j).isFull
  · -- all permits stay taken: every `Release` lowers the count
    have : ∀ N : Nat, ∃ j, max m k ≤ j ∧ (s j).count ≤ (s (max m k)).count - N := by
      intro N
      induction N with
      | zero => exact ⟨max m k, Nat.le_refl _, by simp⟩
      | succ N ih =>
        obtain ⟨j, hj, hj2⟩ := ih
        have hkj : k ≤ j := Nat.le_trans (Nat.le_max_right _ _) hj
        obtain ⟨j', hj', ha⟩ := hret j (hfull j hj)
        obtain ⟨n, rfl⟩ := Nat.exists_eq_add_of_le hj'
        have h1 := hmono j hkj n
        have hf := hfull (j + n) (by omega)
        simp only [Lock.State.isFull, hperm] at hf
        have h2 := (hcnt (j + n) (by omega)).2 ha (by omega)
        exact ⟨j + n + 1, by omega, by omega⟩
    obtain ⟨j, hj, hj2⟩ := this ((s (max m k)).count.toNat)
    have hf := hfull j hj
    simp only [Lock.State.isFull, hperm] at hf
    have := (hinv (max m k)).nonneg
    omega
  · simp only [Classical.not_forall] at hfull
    obtain ⟨j, hj, hnf⟩ := hfull
    have hmj : m ≤ j := Nat.le_trans (Nat.le_max_left _ _) hj
    have hkj : k ≤ j := Nat.le_trans (Nat.le_max_right _ _) hj
    have hnf' : ∀ j', j ≤ j' → ¬ (s j').isFull := by
      intro j' hj'
      obtain ⟨n, rfl⟩ := Nat.exists_eq_add_of_le hj'
      have := hmono j hkj n
      simp only [Lock.State.isFull, hperm] at hnf ⊢
      omega
    have hwok : ∀ j', j ≤ j' → (s j').pcs[i]? = some .woken := by
      intro j' hj'
      obtain ⟨n, rfl⟩ := Nat.exists_eq_add_of_le (Nat.le_trans hmj hj')
      obtain ⟨q, hq, hqd⟩ := hpc n
      cases q with
      | woken => exact hq
      | done => exact absurd rfl hqd
      | waiting => exact absurd ((hinv _).asleep i hq) (hnf' _ hj')
    obtain ⟨j', hj', ha⟩ := hfair i j hwok
    have hst := h j'
    rw [ha] at hst
    simp only at hst
    rcases Lock.pc_step hst (hwok j' hj') with ⟨-, e⟩ | ⟨e, -⟩ | ⟨-, -, e, -⟩ | ⟨-, -, -, e⟩
    · exact e ⟨rfl, rfl, hnf' j' hj'⟩
    · cases e
    · exact hnf' j' hj' e
    · exact hns (j' + 1) (by omega) (((honce _).done i).mpr e)

/-- **C160**, LockSemaphore: while somebody waits, somebody gets a permit some time. -/
theorem C160_lock_progress (p : Int) (hp : 0 < p) (s : Nat → Lock.State) (a : Nat → Option Lock.Action) (h : IsRun Lock.step s a)
    (h0 : Lock.Reach p (s 0)) (hret : Lock.Returns s a) (hfair : Lock.WeakFair s a) (m i : Nat) (hc : i < (s m).pcs.length)
    (hw : i ∉ served (s m).log) : ∃ j, m ≤ j ∧ Lock.gets (s (j + 1)).log = Lock.gets (s j).log + 1 := by
  rcases C160_lock_partial p hp s a h h0 hret hfair m i hc with ⟨j, hj, hi⟩ | hall
  · refine Classical.byContradiction fun hno => ?_
    obtain ⟨n, rfl⟩ := Nat.exists_eq_add_of_le hj
    have : served (s (m + n)).log = served (s m).log := by
      clear hi hj
      induction n with
      | zero => rfl
      | succ n ih =>
        rw [← ih]
        rcases h.next (m + n) with e | ⟨x, -, e⟩
        · rw [← Nat.add_assoc, e]
        · have hg := Lock.step_cases e
          have hng : Lock.gets (s (m + n + 1)).log ≠ Lock.gets (s (m + n)).log + 1 := fun e => hno ⟨m + n, by omega, e⟩
          rw [← Nat.add_assoc]
          revert hng
          cases x <;> simp only [Lock.step] at e <;> (repeat' split at e) <;> simp only [Option.some.injEq, reduceCtorEq] at e <;>
            rw [← e] <;> simp [Lock.gets, served_append, served, tries, List.count_append] <;> omega
    exact hw (this ▸ hi)
  · exact hall m

/-! ### The execution in which a call waits for ever -/

/-- `Release` and the next `Acquire` come between each wake-up of the waiting call 1 and its next test. -/
def starve (i : Nat) : Lock.Action :=
  if i < 2 then .acquire else match (i - 2) % 3 with | 0 => .release | 1 => .acquire | _ => .run 1

def starveS : Nat → Lock.State
  | 0 => Lock.new 1
  | i + 1 => (Lock.step (starveS i) (starve i)).getD (starveS i)

theorem starve_at (N : Nat) : ∃ l, starveS (2 + 3 * N) = ⟨1, 1, .done :: .waiting :: List.replicate N .done, l⟩ ∧
    starveS (2 + 3 * N + 1) = ⟨1, 0, .done :: .woken :: List.replicate N .done, l ++ [.released true]⟩ ∧
    starveS (2 + 3 * N + 2) = ⟨1, 1, .done :: .woken :: List.replicate (N + 1) .done, l ++ [.released true, .acquired (N + 2)]⟩ ∧
    starveS (2 + 3 * N + 3) = ⟨1, 1, .done :: .waiting :: List.replicate (N + 1) .done, l ++ [.released true, .acquired (N + 2)]⟩ := by
  have key : ∀ N l, starveS (2 + 3 * N) = ⟨1, 1, .done :: .waiting :: List.replicate N .done, l⟩ →
      starveS (2 + 3 * N + 1) = ⟨1, 0, .done :: .woken :: List.replicate N .done, l ++ [.released true]⟩ ∧
      starveS (2 + 3 * N + 2) = ⟨1, 1, .done :: .woken :: List.replicate (N + 1) .done, l ++ [.released true, .acquired (N + 2)]⟩ ∧
      starveS (2 + 3 * N + 3) = ⟨1, 1, .done :: .waiting :: List.replicate (N + 1) .done, l ++ [.released true, .acquired (N + 2)]⟩ := by
    intro N l hl
    have a0 : starve (2 + 3 * N) = .release := by
      simp [starve, show ¬ 2 + 3 * N < 2 by omega, show (2 + 3 * N - 2) % 3 = 0 by omega]
    have a1 : starve (2 + 3 * N + 1) = .acquire := by
      simp [starve, show ¬ 2 + 3 * N + 1 < 2 by omega, show (2 + 3 * N + 1 - 2) % 3 = 1 by omega]
    have a2 : starve (2 + 3 * N + 2) = .run 1 := by
      simp [starve, show ¬ 2 + 3 * N + 2 < 2 by omega, show (2 + 3 * N + 2 - 2) % 3 = 2 by omega]
    have e1 : starveS (2 + 3 * N + 1) = ⟨1, 0, .done :: .woken :: List.replicate N .done, l ++ [.released true]⟩ := by
      rw [starveS, hl, a0]; simp [Lock.step, Lock.wake]
    have e2 : starveS (2 + 3 * N + 2) = ⟨1, 1, .done :: .woken :: List.replicate (N + 1) .done, l ++ [.released true, .acquired (N + 2)]⟩ := by
      rw [starveS, e1, a1]; simp [Lock.step, Lock.State.isFull, List.replicate_succ']
    refine ⟨e1, e2, ?_⟩
    rw [starveS, e2, a2]; simp [Lock.step, Lock.State.isFull]
  induction N with
  | zero => exact ⟨[.acquired 0, .blocked 1], by decide, key 0 _ (by decide)⟩
  | succ N ih =>
    obtain ⟨l, -, -, -, h4⟩ := ih
    exact ⟨_, h4, key (N + 1) _ h4⟩

theorem starve_phase (i : Nat) : i < 2 ∨ ∃ N, i = 2 + 3 * N ∨ i = 2 + 3 * N + 1 ∨ i = 2 + 3 * N + 2 := by
  by_cases h : i < 2
  · exact .inl h
  · exact .inr ⟨(i - 2) / 3, by omega⟩

theorem starve_run : IsRun Lock.step starveS (fun i => some (starve i)) := by
  intro i
  dsimp only
  have : ∃ s', Lock.step (starveS i) (starve i) = some s' := by
    cases h : starve i with
    | acquire => simp only [Lock.step]; split <;> exact ⟨_, rfl⟩
    | tryAcquire => simp only [Lock.step]; split <;> exact ⟨_, rfl⟩
    | release => simp only [Lock.step]; split <;> exact ⟨_, rfl⟩
    | run k =>
      rcases starve_phase i with hi | ⟨N, rfl | rfl | rfl⟩
      · simp [starve, hi] at h
      · simp [starve, show ¬ 2 + 3 * N < 2 by omega, show (2 + 3 * N - 2) % 3 = 0 by omega] at h
      · simp [starve, show ¬ 2 + 3 * N + 1 < 2 by omega, show (2 + 3 * N + 1 - 2) % 3 = 1 by omega] at h
      · simp [starve, show ¬ 2 + 3 * N + 2 < 2 by omega, show (2 + 3 * N + 2 - 2) % 3 = 2 by omega] at h
        subst h
        obtain ⟨l, -, -, e, -⟩ := starve_at N
        rw [e]
        exact ⟨_, by simp [Lock.step, Lock.State.isFull]; rfl⟩
  obtain ⟨s', hs⟩ := this
  rw [starveS, hs]; rfl

/-- Call 1 never has a permit. -/
theorem starve_pc (i : Nat) (hi : 2 ≤ i) : (starveS i).pcs[1]? = some .waiting ∨ (starveS i).pcs[1]? = some .woken := by
  rcases starve_phase i with h | ⟨N, h⟩
  · omega
  · obtain ⟨l, e0, e1, e2, -⟩ := starve_at N
    rcases h with rfl | rfl | rfl
    · rw [e0]; exact .inl rfl
    · rw [e1]; exact .inr rfl
    · rw [e2]; exact .inr rfl

theorem starve_fair : Lock.StrongFair starveS (fun i => some (starve i)) := by
  intro i hi k
  have : i = 1 := by
    obtain ⟨j, hj, hw⟩ := hi 2
    rcases starve_phase j with h | ⟨N, h⟩
    · omega
    · obtain ⟨l, e0, e1, e2, -⟩ := starve_at N
      have : ∃ (x : Lock.PC) (n : Nat), (starveS j).pcs = .done :: x :: List.replicate n .done := by
        rcases h with rfl | rfl | rfl
        · exact ⟨_, _, by rw [e0]⟩
        · exact ⟨_, _, by rw [e1]⟩
        · exact ⟨_, _, by rw [e2]⟩
      obtain ⟨x, n, e⟩ := this
      rw [e] at hw
      match i, hw with
      | 0, hw => simp at hw
      | 1, _ => rfl
      | i + 2, hw =>
        simp only [List.getElem?_cons_succ, List.getElem?_replicate] at hw
        split at hw <;> simp at hw
  subst this
  refine ⟨2 + 3 * k + 2, by omega, ?_⟩
  simp [starve, show ¬ 2 + 3 * k + 2 < 2 by omega, show (2 + 3 * k + 2 - 2) % 3 = 2 by omega]

theorem starve_returns : Lock.Returns starveS (fun i => some (starve i)) := by
  intro j _
  refine ⟨2 + 3 * j, by omega, ?_⟩
  simp [starve, show ¬ 2 + 3 * j < 2 by omega, show (2 + 3 * j - 2) % 3 = 0 by omega]

/-- The full claim: every `Acquire` returns, if permits are given back and the mutex is fair. -/
def C160Claim : Prop :=
  ∀ (p : Int), 0 < p → ∀ (s : Nat → Lock.State) (a : Nat → Option Lock.Action), IsRun Lock.step s a → Lock.Reach p (s 0) → Lock.Returns s a →
    Lock.StrongFair s a → ∀ m i, i < (s m).pcs.length → ∃ j, m ≤ j ∧ i ∈ served (s j).log

/-- **C160** is violated by LockSemaphore: an infinite execution in which permits are given back again and again, in which every woken call
gets the mutex again and again, and in which one `Acquire` never returns. -/
theorem C160_violated : ¬ C160Claim := by
  intro h
  obtain ⟨j, hj, hs⟩ := h 1 (by decide) starveS _ starve_run ⟨[], rfl⟩ starve_returns starve_fair 2 1 (by decide)
  have ho : Lock.Once (starveS j) :=
    Reachable.inv (starve_run.reach (s0 := Lock.new 1) ⟨[], rfl⟩ j) ⟨by simp [Lock.new, served], by simp [Lock.new, served]⟩ Lock.once_step
  have hd := (ho.done 1).mp hs
  rcases starve_pc j hj with e | e <;> rw [e] at hd <;> cases hd

/-- Non-vacuity of `C160_lock_partial` and `C160_lock_progress`. -/
example : ∃ (s : Nat → Lock.State) (a : Nat → Option Lock.Action), IsRun Lock.step s a ∧ Lock.Reach 1 (s 0) ∧ Lock.Returns s a ∧
    Lock.WeakFair s a ∧ 1 < (s 2).pcs.length ∧ 1 ∉ served (s 2).log :=
  ⟨_, _, starve_run, ⟨[], rfl⟩, starve_returns, starve_fair.weak, by decide, by decide⟩

/-- Non-vacuity: an execution of a ChanSemaphore with a call that waits, and permits that are given back. -/
example : ∃ (s : Nat → Chan.State) (a : Nat → Option Chan.Action), IsRun Chan.step s a ∧ Chan.Reach 1 (s 0) ∧ Chan.Returns s a ∧
    called (s 2).log 1 ∧ 1 ∉ served (s 2).log := by
  have he : exec Chan.step ⟨1, 0, [], 0, []⟩ [.acquire, .acquire, .release, .release] =
      some ⟨1, 0, [], 2, [.acquired 0, .blocked 1, .released true, .acquired 1, .released true]⟩ := by decide
  refine ⟨_, _, moments_run he, ⟨_, rfl, [], rfl⟩, ?_, by unfold called; decide, by decide⟩
  intro j hj
  by_cases h4 : j < 4
  · exact ⟨3, by omega, rfl⟩
  · rw [moments_end he (by simp; omega)] at hj
    exact absurd (by decide) hj

end Gears.Sema
