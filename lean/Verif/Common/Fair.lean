import Verif.Common.Exec

/-
Infinite executions.  At each moment one action takes place or none; what has to happen some time is stated with hypotheses
about the scheduler (fairness), which say that nobody who can go on again and again is passed over for ever.
-/

namespace Gears

/-- An infinite execution: the states and the actions between them. -/
def IsRun {σ α : Type} (step : σ → α → Option σ) (s : Nat → σ) (a : Nat → Option α) : Prop :=
  ∀ i, match a i with
    | none => s (i + 1) = s i
    | some x => step (s i) x = some (s (i + 1))

theorem IsRun.next {σ α : Type} {step : σ → α → Option σ} {s : Nat → σ} {a : Nat → Option α} (h : IsRun step s a) (i : Nat) :
    s (i + 1) = s i ∨ ∃ x, a i = some x ∧ step (s i) x = some (s (i + 1)) := by
  have := h i
  cases ha : a i with
  | none => rw [ha] at this; exact .inl this
  | some x => rw [ha] at this; exact .inr ⟨x, rfl, this⟩

theorem IsRun.inv {σ α : Type} {step : σ → α → Option σ} {s : Nat → σ} {a : Nat → Option α} (h : IsRun step s a) {I : σ → Prop}
    (h0 : I (s 0)) (hs : ∀ s x s', I s → step s x = some s' → I s') : ∀ i, I (s i) := by
  intro i
  induction i with
  | zero => exact h0
  | succ i ih =>
    rcases h.next i with e | ⟨x, -, e⟩
    · rw [e]; exact ih
    · exact hs _ _ _ ih e

theorem IsRun.reach {σ α : Type} {step : σ → α → Option σ} {s : Nat → σ} {a : Nat → Option α} (h : IsRun step s a) {s0 : σ}
    (h0 : Reachable step s0 (s 0)) : ∀ i, Reachable step s0 (s i) :=
  h.inv h0 fun _ x _ hr hx => hr.trans ⟨[x], by simp [exec, hx]⟩

/-- The actions from moment `m` on, for `n` moments. -/
def segment {α : Type} (a : Nat → Option α) (m n : Nat) : List α := (List.range n).filterMap fun x => a (m + x)

theorem segment_succ {α : Type} (a : Nat → Option α) (m n : Nat) : segment a m (n + 1) = segment a m n ++ (a (m + n)).toList := by
  simp only [segment, List.range_succ, List.filterMap_append]
  cases h : a (m + n) <;> simp [h]

theorem IsRun.segment {σ α : Type} {step : σ → α → Option σ} {s : Nat → σ} {a : Nat → Option α} (h : IsRun step s a) (m n : Nat) :
    exec step (s m) (segment a m n) = some (s (m + n)) := by
  induction n with
  | zero => simp [Gears.segment, exec]
  | succ n ih =>
    rw [segment_succ, exec_append, ih]
    have := h (m + n)
    cases ha : a (m + n) with
    | none => rw [ha] at this; simp [exec, ← Nat.add_assoc, this]
    | some x => rw [ha] at this; simp [exec, ← Nat.add_assoc, this]

/-- If a value changes some time, there is a first time. -/
theorem first_change {β : Type} (f : Nat → β) (i : Nat) (h : ∃ j, i ≤ j ∧ f (j + 1) ≠ f j) :
    ∃ j, i ≤ j ∧ (∀ m, i ≤ m → m ≤ j → f m = f i) ∧ f (j + 1) ≠ f i := by
  obtain ⟨j, hij, hj⟩ := h
  obtain ⟨n, rfl⟩ := Nat.exists_eq_add_of_le hij
  clear hij
  induction n generalizing i with
  | zero => exact ⟨i, Nat.le_refl _, fun m h1 h2 => by rw [Nat.le_antisymm h2 h1], hj⟩
  | succ n ih =>
    by_cases he : f (i + 1) = f i
    · obtain ⟨j, h1, h2, h3⟩ := ih (i + 1) (by rw [show i + 1 + n = i + (n + 1) by omega]; exact hj)
      refine ⟨j, by omega, ?_, by rw [← he]; exact h3⟩
      intro m hm1 hm2
      by_cases hmi : m = i
      · rw [hmi]
      · rw [h2 m (by omega) hm2, he]
    · exact ⟨i, Nat.le_refl _, fun m h1 h2 => by rw [Nat.le_antisymm h2 h1], he⟩

/-- What never changes stays. -/
theorem never_change {β : Type} (f : Nat → β) (i : Nat) (h : ¬ ∃ j, i ≤ j ∧ f (j + 1) ≠ f j) : ∀ j, i ≤ j → f j = f i := by
  intro j hij
  obtain ⟨n, rfl⟩ := Nat.exists_eq_add_of_le hij
  clear hij
  induction n with
  | zero => rfl
  | succ n ih =>
    rw [← ih]
    exact Classical.byContradiction fun e => h ⟨i + n, by omega, e⟩

/-- The moments of a finite execution, after which nothing happens. -/
def moments {σ α : Type} (step : σ → α → Option σ) (s0 : σ) (acts : List α) (i : Nat) : σ := (exec step s0 (acts.take i)).getD s0

theorem moments_run {σ α : Type} {step : σ → α → Option σ} {s0 sN : σ} {acts : List α} (h : exec step s0 acts = some sN) :
    IsRun step (moments step s0 acts) (fun i => acts[i]?) := by
  intro i
  dsimp only
  by_cases hi : i < acts.length
  · have e : acts[i]? = some acts[i] := List.getElem?_eq_getElem hi
    have ht : acts.take (i + 1) = acts.take i ++ [acts[i]] := by
      rw [List.take_add_one, e]; rfl
    rw [e]
    dsimp only [moments]
    have h' := h
    rw [← List.take_append_drop (i + 1) acts, exec_append] at h'
    cases h1 : exec step s0 (acts.take (i + 1)) with
    | none => rw [h1] at h'; cases h'
    | some s2 =>
      have h2 := h1
      rw [ht, exec_append] at h2
      cases h3 : exec step s0 (acts.take i) with
      | none => rw [h3] at h2; cases h2
      | some s1 =>
        rw [h3] at h2
        simp only [exec, Option.bind_some] at h2
        cases h4 : step s1 acts[i] with
        | none => rw [h4] at h2; cases h2
        | some s3 => rw [h4] at h2; simpa [h4] using h2
  · have e : acts[i]? = none := List.getElem?_eq_none (by omega)
    rw [e]
    dsimp only [moments]
    rw [List.take_of_length_le (by omega), List.take_of_length_le (by omega)]

theorem moments_end {σ α : Type} {step : σ → α → Option σ} {s0 sN : σ} {acts : List α} (h : exec step s0 acts = some sN) {i : Nat}
    (hi : acts.length ≤ i) : moments step s0 acts i = sN := by
  dsimp only [moments]
  rw [List.take_of_length_le hi, h]; rfl

/-- What holds at all moments of a finite execution. -/
theorem moments_all {σ α : Type} {step : σ → α → Option σ} {s0 : σ} {acts : List α} {P : σ → Prop}
    (h : ∀ i, i ≤ acts.length → P (moments step s0 acts i)) (i : Nat) : P (moments step s0 acts i) := by
  by_cases hi : i ≤ acts.length
  · exact h i hi
  · have := h acts.length (Nat.le_refl _)
    dsimp only [moments] at this ⊢
    rw [List.take_of_length_le (Nat.le_refl _)] at this
    rw [List.take_of_length_le (by omega)]; exact this

/-- Blocks of `L` actions one after the other. -/
def blockS {σ α : Type} (step : σ → α → Option σ) (L : Nat) (b : Nat → σ) (l : Nat → List α) (i : Nat) : σ :=
  (exec step (b (i / L)) ((l (i / L)).take (i % L))).getD (b (i / L))

theorem block_run {σ α : Type} {step : σ → α → Option σ} {L : Nat} (hL : 0 < L) {b : Nat → σ} {l : Nat → List α} (hl : ∀ N, (l N).length = L)
    (h : ∀ N, exec step (b N) (l N) = some (b (N + 1))) : IsRun step (blockS step L b l) (fun i => (l (i / L))[i % L]?) := by
  intro i
  have hm := moments_run (h (i / L)) (i % L)
  have hlt : i % L < (l (i / L)).length := by rw [hl]; exact Nat.mod_lt _ hL
  dsimp only at hm ⊢
  rw [List.getElem?_eq_getElem hlt] at hm ⊢
  have e0 : blockS step L b l i = moments step (b (i / L)) (l (i / L)) (i % L) := rfl
  have e1 : blockS step L b l (i + 1) = moments step (b (i / L)) (l (i / L)) (i % L + 1) := by
    by_cases hw : i % L + 1 < L
    · have h1 : (i + 1) / L = i / L := by
        rw [Nat.div_eq_iff hL, Nat.mul_comm]
        have := Nat.div_add_mod i L
        constructor <;> omega
      have h2 : (i + 1) % L = i % L + 1 := by
        have a := Nat.div_add_mod i L
        have b := Nat.div_add_mod (i + 1) L
        rw [h1] at b
        omega
      simp only [blockS, moments, h1, h2]
    · have hmod : i % L + 1 = L := by have := Nat.mod_lt i hL; omega
      have a := Nat.div_add_mod i L
      have h1 : (i + 1) / L = i / L + 1 := by
        have : i + 1 = L * (i / L + 1) := by rw [Nat.mul_add]; omega
        rw [this]; exact Nat.mul_div_cancel_left _ hL
      have h2 : (i + 1) % L = 0 := by
        have : i + 1 = L * (i / L + 1) := by rw [Nat.mul_add]; omega
        rw [this]; exact Nat.mul_mod_right _ _
      rw [hmod, moments_end (h (i / L)) (by rw [hl]; exact Nat.le_refl _)]
      simp [blockS, h1, h2, exec]
  rw [e0, e1]; exact hm

theorem block_at {σ α : Type} {step : σ → α → Option σ} {L : Nat} (hL : 0 < L) {b : Nat → σ} {l : Nat → List α} (N : Nat) :
    blockS step L b l (L * N) = b N := by
  simp [blockS, Nat.mul_div_cancel_left _ hL, exec]

/-- A number that never rises settles. -/
theorem settles (f : Nat → Nat) (k : Nat) (h : ∀ j, k ≤ j → f (j + 1) ≤ f j) : ∃ K, k ≤ K ∧ ∀ j, K ≤ j → f (j + 1) = f j := by
  generalize hn : f k = n
  induction n using Nat.strongRecOn generalizing k with
  | ind n ih =>
    by_cases hc : ∃ j, k ≤ j ∧ f (j + 1) ≠ f k
    · obtain ⟨j, hj, hne⟩ := hc
      have hmono : ∀ m, f (k + m) ≤ f k := by
        intro m
        induction m with
        | zero => exact Nat.le_refl _
        | succ m ihm => exact Nat.le_trans (h (k + m) (by omega)) ihm
      have := hmono (j + 1 - k)
      rw [show k + (j + 1 - k) = j + 1 by omega] at this
      obtain ⟨K, hK, hs⟩ := ih (f (j + 1)) (by omega) (j + 1) (fun i hi => h i (by omega)) rfl
      exact ⟨K, by omega, hs⟩
    · have hall : ∀ j, k ≤ j → f (j + 1) = f k := fun j hj => Classical.byContradiction fun hne => hc ⟨j, hj, hne⟩
      refine ⟨k, Nat.le_refl _, fun j hj => ?_⟩
      rw [hall j hj]
      by_cases he : j = k
      · rw [he]
      · have := hall (j - 1) (by omega)
        rw [show j - 1 + 1 = j by omega] at this
        exact this.symm

end Gears
