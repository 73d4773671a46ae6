import Verif.AtomicBucket.Progress
import Verif.Common.Fair

/-
Property C162: a call of `AtomicTokenBucket.Acquire` on infinite executions.

C118 counts the atomic operations of finitely many calls.  Here the other goroutines go on calling for ever.  A call returns if time
is bounded (or tokens are issued only finitely often), however many other calls there are; some call returns in any case.  A single
call can fail for ever, when somebody issues tokens and takes them, again and again.
-/

namespace Gears.AtomicBucket.Live

open Gears.AtomicBucket

/-! ## Specification -/

/-- An infinite execution of `n` goroutines with a clock that does not go back, from some moment on. -/
structure Execution (c r t0 : Int) (n : Nat) (s : Nat → State) (a : Nat → Option Action) : Prop where
  run     : IsRun step s a
  init    : ∃ as, (∀ x ∈ as, x.Forward) ∧ exec step (init c r t0 n) as = some (s 0)
  forward : ∀ j x, a j = some x → x.Forward

/-- Goroutine `i` is inside a call. -/
def Inside (i : Nat) (st : State) : Prop := ∃ p, st.pcs[i]? = some p ∧ p ≠ .idle

/-- Goroutine `i` executes operations as long as it is inside a call. -/
def GoesOn (i : Nat) (s : Nat → State) (a : Nat → Option Action) : Prop := ∀ k, Inside i (s k) → ∃ j, k ≤ j ∧ a j = some (.run i)

/-- Goroutine `i` is not inside a call. -/
def Out (i : Nat) (st : State) : Prop := st.pcs[i]? = some .idle

/-! ## Steps -/

section

variable {c r t0 : Int} {n : Nat} {s : Nat → State} {a : Nat → Option Action}

theorem Execution.inv (h : Execution c r t0 n s a) (hc : 0 ≤ c) (hr : 0 ≤ r) (j : Nat) : Inv c r t0 (s j) := by
  induction j with
  | zero =>
    obtain ⟨as, hf, he⟩ := h.init
    exact exec_inv_on (I := Inv c r t0) (fun a b c' hp hi hs => step_inv c r t0 hr a b c' hp hi hs) as _ _ hf (init_inv c r t0 hc n) he
  | succ j ih =>
    rcases h.run.next j with e | ⟨x, hx, e⟩
    · rw [e]; exact ih
    · exact step_inv c r t0 hr _ x _ (h.forward j x hx) ih e

theorem Execution.mono (h : Execution c r t0 n s a) (k m : Nat) : (s k).clock ≤ (s (k + m)).clock := by
  induction m with
  | zero => exact Int.le_refl _
  | succ m ih =>
    rw [← Nat.add_assoc]
    rcases h.run.next (k + m) with e | ⟨x, hx, e⟩
    · rw [e]; exact ih
    · refine Int.le_trans ih ?_
      have hf := h.forward _ x hx
      cases x with
      | tick d => simp only [Action.Forward] at hf; simp [step] at e; rw [← e]; simp only; omega
      | call i =>
        simp only [step] at e
        split at e
        · simp at e; rw [← e]; exact Int.le_refl _
        · simp at e
      | run i =>
        simp only [step] at e
        split at e
        · rename_i p _
          cases p <;> simp only [runPc] at e <;> (try split at e) <;> simp at e <;> rw [← e] <;> exact Int.le_refl _
        · simp at e

end

/-- A commit moves the timestamp by a second at least. -/
theorem commit_later {c r t0 k lit now d : Int} (hr : 0 ≤ r) (h : PCok c r t0 k (.issCas2 lit now d)) : lit < now := by
  obtain ⟨h1, h3, h4, h5, h6⟩ := h
  apply Classical.byContradiction
  intro hn
  have e : now = lit := by omega
  subst e
  simp at h6
  omega

theorem lit_step {c r t0 : Int} (hr : 0 ≤ r) {st st' : State} {x : Action} (hi : Inv c r t0 st) (h : step st x = some st') : st.lit ≤ st'.lit := by
  cases x with
  | tick d => simp [step] at h; subst h; exact Int.le_refl _
  | call i =>
    simp only [step] at h
    split at h
    · simp at h; subst h; exact Int.le_refl _
    · simp at h
  | run i =>
    simp only [step] at h
    split at h
    · rename_i p hp
      have hpi := hi.hpc i p hp
      cases p <;> simp only [runPc] at h <;> (try split at h) <;> simp at h <;> subst h <;> simp only [State.setPc] <;> try exact Int.le_refl _
      rename_i hl
      have := commit_later hr hpi
      omega
    · simp at h

/-! ### Sums over goroutines -/

def total (f : PC → Nat) (ps : List PC) : Nat := (ps.map f).sum

theorem total_set (f : PC → Nat) {ps : List PC} {i : Nat} {p : PC} (q : PC) (h : ps[i]? = some p) : total f (ps.set i q) + f p = total f ps + f q := by
  unfold total
  induction ps generalizing i with
  | nil => simp at h
  | cons a ps ih =>
    cases i with
    | zero => simp at h; subst h; simp; omega
    | succ i =>
      simp at h
      have := ih h
      simp only [List.set, List.map_cons, List.sum_cons]; omega

/-- How often a goroutine can still issue tokens or take them back while the timestamp is `L`. -/
def load (L : Int) : PC → Nat
  | .issNow _ lit => if lit = L then 1 else 3
  | .issCas1 _ lit _ _ => if lit = L then 1 else 3
  | .issCas2 lit _ _ => if lit = L then 0 else 2
  | .issRollback _ => 2
  | _ => 1

theorem load_step {c r t0 : Int} (hr : 0 ≤ r) {st st' : State} {x : Action} (hi : Inv c r t0 st) (h : step st x = some st') (hl : st'.lit = st.lit) :
    total (load st.lit) st'.pcs ≤ total (load st.lit) st.pcs ∧
    (total (load st.lit) st'.pcs = total (load st.lit) st.pcs → st'.tokens ≠ st.tokens → 0 < st.tokens ∧ st'.tokens = st.tokens - 1) := by
  cases x with
  | tick d => simp [step] at h; subst h; exact ⟨Nat.le_refl _, fun _ hne => absurd rfl hne⟩
  | call i =>
    simp only [step] at h
    split at h
    · rename_i hp
      simp at h; subst h
      have := total_set (load st.lit) .issLoadTok hp
      simp only [load, State.setPc] at this ⊢
      exact ⟨by omega, fun _ hne => absurd rfl hne⟩
    · simp at h
  | run i =>
    simp only [step] at h
    split at h
    · rename_i p hp
      have hpi := hi.hpc i p hp
      have hset := fun q => total_set (load st.lit) q hp
      cases p with
      | idle => simp [runPc] at h
      | issLoadTok =>
        simp only [runPc] at h
        split at h <;> simp at h <;> subst h <;> simp only [State.setPc]
        · have := hset .acqLoad; simp only [load] at this; exact ⟨by omega, fun _ hne => absurd rfl hne⟩
        · have := hset (.issLoadLit st.tokens); simp only [load] at this; exact ⟨by omega, fun _ hne => absurd rfl hne⟩
      | issLoadLit old =>
        simp [runPc] at h; subst h
        have := hset (.issNow old st.lit); simp only [load, if_true] at this
        exact ⟨by simp only [State.setPc]; omega, fun _ hne => absurd rfl hne⟩
      | issNow old lit =>
        simp only [runPc] at h
        split at h <;> simp at h <;> subst h <;> simp only [State.setPc]
        · have := hset .acqLoad; simp only [load] at this
          refine ⟨?_, fun _ hne => absurd rfl hne⟩
          split at this <;> omega
        · refine ⟨?_, fun _ hne => absurd rfl hne⟩
          have := hset (.issCas1 old lit st.clock (if old + Int.tdiv (st.clock - lit) 1000000000 * st.rate > st.capacity then st.capacity - old
            else Int.tdiv (st.clock - lit) 1000000000 * st.rate))
          simp only [load] at this
          exact Nat.le_of_eq (by simpa using this)
      | issCas1 old lit now d =>
        simp only [runPc] at h
        split at h <;> simp at h <;> subst h <;> simp only [State.setPc]
        · have := hset (.issCas2 lit now d); simp only [load] at this
          split at this <;> exact ⟨by omega, fun he => by omega⟩
        · have := hset .issLoadTok; simp only [load] at this
          refine ⟨?_, fun _ hne => absurd rfl hne⟩
          split at this <;> omega
      | issCas2 lit now d =>
        have hlt := commit_later hr hpi
        simp only [runPc] at h
        split at h <;> simp at h <;> subst h <;> simp only [State.setPc] at hl ⊢
        · omega
        · rename_i hne
          have := hset (.issRollback d); simp only [load, if_neg (fun e => hne (Eq.symm e))] at this
          exact ⟨by omega, fun _ hne => absurd rfl hne⟩
      | issRollback d =>
        simp [runPc] at h; subst h
        have := hset .issLoadTok; simp only [load] at this
        exact ⟨by simp only [State.setPc]; omega, fun he => by simp only [State.setPc] at he; omega⟩
      | acqLoad =>
        simp only [runPc] at h
        split at h <;> simp at h <;> subst h <;> simp only [State.setPc]
        · have := hset (.acqCas st.tokens); simp only [load] at this; exact ⟨by omega, fun _ hne => absurd rfl hne⟩
        · have := hset .idle; simp only [load] at this; exact ⟨by omega, fun _ hne => absurd rfl hne⟩
      | acqCas old =>
        simp only [PCok] at hpi
        simp only [runPc] at h
        split at h <;> simp at h <;> subst h <;> simp only [State.setPc]
        · have := hset .idle; simp only [load] at this
          refine ⟨by omega, fun _ _ => ⟨by omega, by omega⟩⟩
        · have := hset .acqLoad; simp only [load] at this; exact ⟨by omega, fun _ hne => absurd rfl hne⟩
    · simp at h

/-- A goroutine that runs while others leave the counter and the timestamp alone gets on. -/
theorem own_step {c r t0 : Int} (hr : 0 ≤ r) {st st' : State} {i : Nat} {p : PC} (hi : Inv c r t0 st) (hp : st.pcs[i]? = some p)
    (h : step st (.run i) = some st') (ht : st'.tokens = st.tokens) (hl : st'.lit = st.lit) :
    ∃ q, st'.pcs[i]? = some q ∧ rank 0 st.tokens st.lit q < rank 0 st.tokens st.lit p := by
  have hpi := hi.hpc i p hp
  have hlt : i < st.pcs.length := (List.getElem?_eq_some_iff.1 hp).1
  have hget : ∀ q, (st.pcs.set i q)[i]? = some q := fun q => by simp [hlt]
  simp only [step, hp] at h
  cases p with
  | idle => simp [runPc] at h
  | issLoadTok =>
    simp only [runPc] at h
    split at h <;> simp at h <;> subst h <;> exact ⟨_, hget _, by simp [rank, late]⟩
  | issLoadLit old =>
    simp [runPc] at h; subst h
    exact ⟨_, hget _, by simp only [rank, behind]; simp⟩
  | issNow old lit =>
    simp only [runPc] at h
    split at h <;> simp at h <;> subst h <;> refine ⟨_, hget _, ?_⟩ <;> simp only [rank, late, behind] <;> (repeat' split) <;> omega
  | issCas1 old lit now d =>
    obtain ⟨hd, -⟩ := hpi
    simp only [runPc] at h
    split at h <;> simp at h <;> subst h
    · simp only [State.setPc] at ht; omega
    · rename_i hne
      refine ⟨_, hget _, ?_⟩
      simp only [rank, late, if_neg (fun e => hne (Eq.symm e)), behind]; split <;> omega
  | issCas2 lit now d =>
    have := commit_later hr hpi
    simp only [runPc] at h
    split at h <;> simp at h <;> subst h
    · simp only [State.setPc] at hl; omega
    · rename_i hne
      refine ⟨_, hget _, ?_⟩
      simp only [rank, behind, if_neg (fun e => hne (Eq.symm e))]; omega
  | issRollback d =>
    simp only [PCok] at hpi
    simp [runPc] at h; subst h
    simp only [State.setPc] at ht; omega
  | acqLoad =>
    simp only [runPc] at h
    split at h <;> simp at h <;> subst h <;> exact ⟨_, hget _, by simp [rank, late]⟩
  | acqCas old =>
    simp only [runPc] at h
    split at h <;> simp at h <;> subst h
    · simp only [State.setPc] at ht; omega
    · rename_i hne
      refine ⟨_, hget _, ?_⟩
      simp only [rank, late, if_neg (fun e => hne (Eq.symm e))]; omega

theorem other_step {st st' : State} {x : Action} {i : Nat} {p : PC} (hp : st.pcs[i]? = some p) (hne : p ≠ .idle) (hx : x ≠ .run i) (h : step st x = some st') :
    st'.pcs[i]? = some p := by
  have hset : ∀ (m : Nat) (q : PC), m ≠ i → (st.pcs.set m q)[i]? = some p := fun m q hm => by rw [List.getElem?_set_ne hm]; exact hp
  cases x with
  | tick d => simp [step] at h; subst h; exact hp
  | call m =>
    simp only [step] at h
    split at h
    · rename_i hm
      simp at h; subst h
      refine hset m _ (fun e => ?_)
      subst e; rw [hp] at hm; exact hne (by simpa using hm)
    · simp at h
  | run m =>
    have hmi : m ≠ i := fun e => hx (by rw [e])
    simp only [step] at h
    split at h
    · rename_i q _
      cases q <;> simp only [runPc] at h <;> (try split at h) <;> simp at h <;> subst h <;> exact hset m _ hmi
    · simp at h

/-! ## C162 -/

section

variable {c r t0 : Int} {n : Nat} {s : Nat → State} {a : Nat → Option Action}

/-- Nobody changes the counter or the timestamp any more. -/
theorem quiet_returns (h : Execution c r t0 n s a) (hc : 0 ≤ c) (hr : 0 ≤ r) {i K : Nat} (hg : GoesOn i s a)
    (hq : ∀ j, K ≤ j → (s (j + 1)).tokens = (s j).tokens ∧ (s (j + 1)).lit = (s j).lit) (k : Nat) (hk : K ≤ k) (hin : Inside i (s k)) :
    ∃ j, k ≤ j ∧ Out i (s j) := by
  obtain ⟨p, hp, hne⟩ := hin
  generalize hn : (rank 0 (s k).tokens (s k).lit p).toNat = m
  induction m using Nat.strongRecOn generalizing k p with
  | ind m ih =>
    obtain ⟨j, hj, hj'⟩ := hg k ⟨p, hp, hne⟩
    have hstay : ∀ d, (∀ e, e < d → a (k + e) ≠ some (.run i)) → (s (k + d)).pcs[i]? = some p ∧ (s (k + d)).tokens = (s k).tokens ∧ (s (k + d)).lit = (s k).lit := by
      intro d
      induction d with
      | zero => intro _; exact ⟨hp, rfl, rfl⟩
      | succ d ihd =>
        intro hno
        obtain ⟨h1, h2, h3⟩ := ihd fun e he => hno e (by omega)
        have h4 := hq (k + d) (by omega)
        rw [← Nat.add_assoc]
        refine ⟨?_, by rw [h4.1, h2], by rw [h4.2, h3]⟩
        rcases h.run.next (k + d) with e | ⟨x, hx, e⟩
        · rw [e]; exact h1
        · exact other_step h1 hne (fun e' => hno d (by omega) (by rw [hx, e'])) e
    -- the first operation of the goroutine
    have hfirst : ∃ d, a (k + d) = some (.run i) ∧ ∀ e, e < d → a (k + e) ≠ some (.run i) := by
      have : ∃ d, a (k + d) = some (.run i) := ⟨j - k, by rw [show k + (j - k) = j by omega]; exact hj'⟩
      obtain ⟨d, hd⟩ := this
      clear hstay
      induction d using Nat.strongRecOn with
      | ind d ihd =>
        by_cases hx : ∃ e, e < d ∧ a (k + e) = some (.run i)
        · obtain ⟨e, he, he'⟩ := hx
          exact ihd e he he'
        · exact ⟨d, hd, fun e he he' => hx ⟨e, he, he'⟩⟩
    obtain ⟨d, hd, hbef⟩ := hfirst
    obtain ⟨h1, h2, h3⟩ := hstay d hbef
    have h4 := hq (k + d) (by omega)
    have hstep : step (s (k + d)) (.run i) = some (s (k + d + 1)) := by have := h.run (k + d); rw [hd] at this; exact this
    obtain ⟨q, hq', hlt⟩ := own_step hr (h.inv hc hr _) h1 hstep h4.1 h4.2
    by_cases hqi : q = .idle
    · exact ⟨k + d + 1, by omega, by rw [Out, hq', hqi]⟩
    · have hn0 := rank_nonneg 0 (s k).tokens (s k).lit q
      rw [h2, h3] at hlt
      obtain ⟨j', hj1, hj2⟩ := ih (rank 0 (s k).tokens (s k).lit q).toNat (by omega) (k + d + 1) (by omega) q hq' hqi (by rw [h4.1, h4.2, h2, h3])
      exact ⟨j', by omega, hj2⟩

/-- No more tokens are issued. -/
theorem still_returns (h : Execution c r t0 n s a) (hc : 0 ≤ c) (hr : 0 ≤ r) {i K : Nat} (hg : GoesOn i s a)
    (hq : ∀ j, K ≤ j → (s (j + 1)).lit = (s j).lit) (k : Nat) (hin : Inside i (s k)) : ∃ j, k ≤ j ∧ Out i (s j) := by
  have hL : ∀ d, (s (K + d)).lit = (s K).lit := by
    intro d
    induction d with
    | zero => rfl
    | succ d ih => rw [← Nat.add_assoc, hq _ (by omega), ih]
  have hL' : ∀ j, K ≤ j → (s j).lit = (s K).lit := fun j hj => by have := hL (j - K); rwa [show K + (j - K) = j by omega] at this
  -- tokens are not issued or taken back any more
  have hload : ∀ j, K ≤ j → total (load (s K).lit) (s (j + 1)).pcs ≤ total (load (s K).lit) (s j).pcs ∧
      (total (load (s K).lit) (s (j + 1)).pcs = total (load (s K).lit) (s j).pcs → (s (j + 1)).tokens ≠ (s j).tokens → 0 < (s j).tokens ∧ (s (j + 1)).tokens = (s j).tokens - 1) := by
    intro j hj
    rcases h.run.next j with e | ⟨x, hx, e⟩
    · rw [e]; exact ⟨Nat.le_refl _, fun _ hne => absurd rfl hne⟩
    · have := load_step hr (h.inv hc hr j) e (hq j hj)
      rwa [hL' j hj] at this
  obtain ⟨K1, hK1, hs1⟩ := settles (fun j => total (load (s K).lit) (s j).pcs) K fun j hj => (hload j hj).1
  have htok : ∀ j, K1 ≤ j → (s (j + 1)).tokens ≠ (s j).tokens → 0 < (s j).tokens ∧ (s (j + 1)).tokens = (s j).tokens - 1 :=
    fun j hj => (hload j (by omega)).2 (hs1 j hj)
  obtain ⟨K2, hK2, hs2⟩ := settles (fun j => (s j).tokens.toNat) K1 fun j hj => by
    by_cases he : (s (j + 1)).tokens = (s j).tokens
    · rw [he]
    · have := htok j hj he; omega
  have hfin : ∀ j, K2 ≤ j → (s (j + 1)).tokens = (s j).tokens ∧ (s (j + 1)).lit = (s j).lit := by
    intro j hj
    refine ⟨Classical.byContradiction fun he => ?_, hq j (by omega)⟩
    have := htok j (by omega) he
    have := hs2 j hj
    omega
  -- the goroutine is inside the call at that time, or has returned before
  by_cases hout : ∃ j, k ≤ j ∧ Out i (s j)
  · exact hout
  · have hins : ∀ d, Inside i (s (k + d)) := by
      intro d
      induction d with
      | zero => exact hin
      | succ d ih =>
        obtain ⟨p, hp, hne⟩ := ih
        rcases h.run.next (k + d) with e | ⟨x, hx, e⟩
        · rw [← Nat.add_assoc, e]; exact ⟨p, hp, hne⟩
        · have hlen : (s (k + d + 1)).pcs.length = (s (k + d)).pcs.length := step_length e
          have hlt : i < (s (k + d + 1)).pcs.length := by rw [hlen]; exact (List.getElem?_eq_some_iff.1 hp).1
          refine ⟨(s (k + d + 1)).pcs[i], List.getElem?_eq_getElem hlt, fun e' => hout ⟨k + d + 1, by omega, ?_⟩⟩
          rw [Out, List.getElem?_eq_getElem hlt, e']
    obtain ⟨j, hj, hj'⟩ := quiet_returns h hc hr hg hfin (k + K2) (by omega) (hins K2)
    exact ⟨j, by omega, hj'⟩

/-- **C162**: whatever others do, and however often they call, a call returns unless tokens are issued again and again for ever. -/
theorem C162_partial (h : Execution c r t0 n s a) (hc : 0 ≤ c) (hr : 0 ≤ r) (i : Nat) (hg : GoesOn i s a) (k : Nat) (hin : Inside i (s k)) :
    (∃ j, k ≤ j ∧ Out i (s j)) ∨ ∀ K, ∃ j, K ≤ j ∧ (s j).lit < (s (j + 1)).lit := by
  by_cases hq : ∃ K, ∀ j, K ≤ j → (s (j + 1)).lit = (s j).lit
  · obtain ⟨K, hq⟩ := hq
    exact .inl (still_returns h hc hr hg hq k hin)
  · refine .inr fun K => Classical.byContradiction fun hno => hq ⟨K, fun j hj => ?_⟩
    have hle : (s j).lit ≤ (s (j + 1)).lit := by
      rcases h.run.next j with e | ⟨x, -, e⟩
      · rw [e]
      · exact lit_step hr (h.inv hc hr j) e
    have : ¬ (s j).lit < (s (j + 1)).lit := fun hlt => hno ⟨j, hj, hlt⟩
    omega

/-- **C162**: a call returns if time does not go beyond some bound, although others may call without end. -/
theorem C162_bounded (h : Execution c r t0 n s a) (hc : 0 ≤ c) (hr : 0 ≤ r) (T : Int) (hT : ∀ j, (s j).clock ≤ T) (i : Nat) (hg : GoesOn i s a) (k : Nat)
    (hin : Inside i (s k)) : ∃ j, k ≤ j ∧ Out i (s j) := by
  have hle : ∀ j, (s j).lit ≤ (s (j + 1)).lit := fun j => by
    rcases h.run.next j with e | ⟨x, -, e⟩
    · rw [e]
    · exact lit_step hr (h.inv hc hr j) e
  obtain ⟨K, -, hs⟩ := settles (fun j => (T - (s j).lit).toNat) 0 fun j _ => by have := hle j; omega
  refine still_returns h hc hr hg (K := K) (fun j hj => ?_) k hin
  have h1 := hs j hj
  have h2 := hle j
  have h3 := (h.inv hc hr (j + 1)).hlit
  have h4 := hT (j + 1)
  omega

/-- The goroutine has not issued tokens in its call. -/
def early : PC → Nat
  | .acqLoad => 0
  | .acqCas _ => 0
  | _ => 1

theorem early_step {c r t0 : Int} {st st' : State} {x : Action} (hi : Inv c r t0 st) (h : step st x = some st') (hl : st'.log = st.log) :
    total early st'.pcs ≤ total early st.pcs ∧ (total early st'.pcs = total early st.pcs → st'.lit = st.lit) := by
  cases x with
  | tick d => simp [step] at h; subst h; exact ⟨Nat.le_refl _, fun _ => rfl⟩
  | call i =>
    simp only [step] at h
    split at h
    · rename_i hp
      simp at h; subst h
      have := total_set early .issLoadTok hp
      simp only [early, State.setPc] at this ⊢
      exact ⟨by omega, fun _ => by simp⟩
    · simp at h
  | run i =>
    simp only [step] at h
    split at h
    · rename_i p hp
      have hset := fun q => total_set early q hp
      have hle : ∀ q, early q ≤ early p → total early (st.pcs.set i q) ≤ total early st.pcs := fun q hq => by have := hset q; omega
      cases p <;> simp only [runPc] at h <;> (try split at h) <;> simp at h <;> subst h <;>
        first
        | (simp [State.setPc] at hl; done)
        | exact ⟨hle _ (by simp [early]), fun _ => rfl⟩
        | (have := hset .acqLoad; simp only [early] at this; exact ⟨by simp only [State.setPc]; omega, fun he => by simp only [State.setPc] at he; omega⟩)
    · simp at h

/-- **C162**: in any case some call returns, as long as there are calls. -/
theorem C162_progress (h : Execution c r t0 n s a) (hc : 0 ≤ c) (hr : 0 ≤ r) (i : Nat) (hg : GoesOn i s a) (k : Nat) (hin : Inside i (s k)) :
    ∃ j, k ≤ j ∧ (s j).log.length < (s (j + 1)).log.length := by
  apply Classical.byContradiction
  intro hno
  have hlog : ∀ j, k ≤ j → (s (j + 1)).log = (s j).log := by
    intro j hj
    rcases h.run.next j with e | ⟨x, -, e⟩
    · rw [e]
    · have hn : ¬ (s j).log.length < (s (j + 1)).log.length := fun hlt => hno ⟨j, hj, hlt⟩
      cases x with
      | tick d => simp [step] at e; rw [← e]
      | call i =>
        simp only [step] at e
        split at e
        · simp at e; rw [← e]; rfl
        · simp at e
      | run i =>
        simp only [step] at e
        split at e
        · rename_i p _
          cases p <;> simp only [runPc] at e <;> (try split at e) <;> simp at e <;> rw [← e] at hn ⊢ <;> simp [State.setPc] at hn ⊢
        · simp at e
  have hstep : ∀ j, k ≤ j → total early (s (j + 1)).pcs ≤ total early (s j).pcs ∧ (total early (s (j + 1)).pcs = total early (s j).pcs → (s (j + 1)).lit = (s j).lit) := by
    intro j hj
    rcases h.run.next j with e | ⟨x, -, e⟩
    · rw [e]; exact ⟨Nat.le_refl _, fun _ => rfl⟩
    · exact early_step (h.inv hc hr j) e (hlog j hj)
  obtain ⟨K, hK, hs⟩ := settles (fun j => total early (s j).pcs) k fun j hj => (hstep j hj).1
  obtain ⟨j, hj, hout⟩ := still_returns h hc hr hg (K := K) (fun j hj => (hstep j (by omega)).2 (hs j hj)) k hin
  -- but the goroutine has returned
  have hin' : ∀ d, Inside i (s (k + d)) := by
    intro d
    induction d with
    | zero => exact hin
    | succ d ih =>
      obtain ⟨p, hp, hne⟩ := ih
      rcases h.run.next (k + d) with e | ⟨x, hx, e⟩
      · rw [← Nat.add_assoc, e]; exact ⟨p, hp, hne⟩
      · have hl := hlog (k + d) (by omega)
        rw [← Nat.add_assoc]
        by_cases hxi : x = .run i
        · subst hxi
          have hlt : i < (s (k + d)).pcs.length := (List.getElem?_eq_some_iff.1 hp).1
          have hget : ∀ q, ((s (k + d)).pcs.set i q)[i]? = some q := fun q => by simp [hlt]
          simp only [step, hp] at e
          cases p <;> simp only [runPc] at e <;> (try split at e) <;> simp at e <;> rw [← e] at hl ⊢ <;>
            first
            | (simp [State.setPc] at hl; done)
            | exact ⟨_, hget _, by simp⟩
        · exact ⟨p, other_step hp hne hxi e, hne⟩
  obtain ⟨p, hp, hne⟩ := hin' (j - k)
  rw [show k + (j - k) = j by omega, hout] at hp
  exact hne (by simpa using hp.symm)

end

/-! ### A call that never returns -/

/-- One second: goroutine 1 issues a token; goroutine 0 sees it; goroutine 1 takes it, and the CAS of goroutine 0 fails. -/
def lap : List Action := [.tick 1000000000, .call 1, .run 1, .run 1, .run 1, .run 1, .run 1, .run 0, .run 1, .run 1, .run 0]

structure Loses (st : State) : Prop where
  cap  : st.capacity = 1
  rate : st.rate = 1
  tok  : st.tokens = 0
  lit  : st.lit = st.clock
  pcs  : st.pcs = [.acqLoad, .idle]

theorem lap_step {st : State} (h : Loses st) : ∃ st', exec step st lap = some st' ∧ Loses st' ∧ st'.admitted = st.admitted + 1 ∧
    (∀ m, m ≤ 11 → Inside 0 (moments step st lap m)) := by
  obtain ⟨cap, rate, tok, lit, clock, pcs, log, iss, rol⟩ := st
  obtain ⟨h1, h2, h3, h4, h5⟩ := h
  simp only at h1 h2 h3 h4 h5
  subst h1 h2 h3 h4 h5
  have e1 : lit + 1000000000 - lit = 1000000000 := by omega
  refine ⟨_, by simp [lap, exec, step, runPc, State.setPc, e1]; rfl, ⟨rfl, rfl, rfl, rfl, rfl⟩, by simp [State.admitted], ?_⟩
  intro m hm
  have : m = 0 ∨ m = 1 ∨ m = 2 ∨ m = 3 ∨ m = 4 ∨ m = 5 ∨ m = 6 ∨ m = 7 ∨ m = 8 ∨ m = 9 ∨ m = 10 ∨ m = 11 := by omega
  rcases this with h | h | h | h | h | h | h | h | h | h | h | h <;> subst h <;>
    simp [Inside, moments, lap, exec, step, runPc, State.setPc, e1]

/-- Goroutine 0 comes too late once. -/
def opening : List Action := [.call 0, .run 0, .call 1, .run 1, .run 1, .run 0, .run 1, .run 0]

def lost : State := (exec step (init 1 1 0 2) opening).getD (init 1 1 0 2)

theorem lost_exec : exec step (init 1 1 0 2) opening = some lost := by decide

theorem lost_loses : Loses lost := by constructor <;> decide

def laps : Nat → State
  | 0 => lost
  | N + 1 => (exec step (laps N) lap).getD lost

theorem laps_loses (N : Nat) : Loses (laps N) := by
  induction N with
  | zero => exact lost_loses
  | succ N ih =>
    obtain ⟨st', e, hb, -⟩ := lap_step ih
    rw [laps, e]; exact hb

theorem laps_exec (N : Nat) : exec step (laps N) lap = some (laps (N + 1)) := by
  obtain ⟨st', e, -⟩ := lap_step (laps_loses N)
  rw [laps, e]; rfl

theorem forward_lap : ∀ x ∈ lap, x.Forward := by
  intro x hx
  simp only [lap, List.mem_cons, List.not_mem_nil, or_false] at hx
  rcases hx with h | h | h | h | h | h | h | h | h | h | h <;> subst h <;> simp [Action.Forward]

theorem lap_at (N m : Nat) (hm : m < 11) : lap[(11 * N + m) % 11]? = lap[m]? := by
  rw [Nat.mul_add_mod, Nat.mod_eq_of_lt hm]

/-- **C162** (violated): there is an execution in which both goroutines go on, one call is made every second and returns true, and the
other call never returns. -/
theorem C162_violated : ∃ (s : Nat → State) (a : Nat → Option Action), Execution 1 1 0 2 s a ∧ (∀ i k, i < 2 → ∃ j, k ≤ j ∧ a j = some (.run i)) ∧ (∀ j, Inside 0 (s j)) ∧
    ∀ N, ∃ j, N ≤ (s j).admitted := by
  have hrun : IsRun step (blockS step 11 laps fun _ => lap) (fun i => lap[i % 11]?) := block_run (by decide) (fun _ => rfl) laps_exec
  refine ⟨_, _, ⟨hrun, ⟨opening, ?_, lost_exec⟩, ?_⟩, ?_, ?_, ?_⟩
  · intro x hx
    simp only [opening, List.mem_cons, List.not_mem_nil, or_false] at hx
    rcases hx with h | h | h | h | h | h | h | h <;> subst h <;> simp [Action.Forward]
  · intro j x hx
    exact forward_lap x (List.mem_of_getElem? hx)
  · intro i k hi
    have : i = 0 ∨ i = 1 := by omega
    rcases this with h | h <;> subst h
    · exact ⟨11 * k + 7, by omega, by rw [lap_at k 7 (by decide)]; rfl⟩
    · exact ⟨11 * k + 2, by omega, by rw [lap_at k 2 (by decide)]; rfl⟩
  · intro j
    obtain ⟨-, -, -, -, h⟩ := lap_step (laps_loses (j / 11))
    exact h (j % 11) (by omega)
  · intro N
    refine ⟨11 * N, ?_⟩
    rw [block_at (by decide)]
    induction N with
    | zero => exact Nat.zero_le _
    | succ N ih =>
      obtain ⟨st', e, -, ha, -⟩ := lap_step (laps_loses N)
      rw [laps, e]
      show N + 1 ≤ st'.admitted
      omega

/-- Non-vacuity of C162_bounded: goroutine 0 is inside a call, and goes on. -/
example : ∃ (s : Nat → State) (a : Nat → Option Action), Execution 1 1 0 2 s a ∧ (∀ j, (s j).clock ≤ 0) ∧ GoesOn 0 s a ∧ Inside 0 (s 1) := by
  have he : exec step (init 1 1 0 2) [.call 0, .run 0, .run 0, .run 0] = some ⟨1, 1, 0, 0, 0, [.idle, .idle], [true], 0, 0⟩ := by decide
  have hend : ∀ j, 4 ≤ j → moments step (init 1 1 0 2) [.call 0, .run 0, .run 0, .run 0] j = ⟨1, 1, 0, 0, 0, [.idle, .idle], [true], 0, 0⟩ :=
    fun j hj => moments_end he hj
  refine ⟨_, _, ⟨moments_run he, ⟨[], by simp, rfl⟩, ?_⟩, ?_, ?_, ⟨.issLoadTok, by decide, by simp⟩⟩
  · intro j x hx
    have := List.mem_of_getElem? hx
    simp at this
    rcases this with h | h <;> subst h <;> trivial
  · intro j
    by_cases hj : 4 ≤ j
    · rw [hend j hj]
    · have : j = 0 ∨ j = 1 ∨ j = 2 ∨ j = 3 := by omega
      rcases this with h | h | h | h <;> subst h <;> decide
  · rintro k ⟨p, hp, hne⟩
    by_cases hj : 4 ≤ k
    · rw [hend k hj] at hp; simp at hp; exact absurd hp.symm hne
    · exact ⟨3, by omega, rfl⟩

end Gears.AtomicBucket.Live
