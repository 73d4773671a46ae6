import Verif.AtomicBucket.Lemmas

/-
Property theorems for AtomicTokenBucket (C05-C07).  `exec step (init c r t0 n) as = some s` says that the schedule
`as` (clock ticks, calls and single atomic memory operations of `n` goroutines, in any order) is executable on a fresh
bucket and leads to `s`; `s.log` is the list of values returned so far, `s.admitted` the number of `true`s in it.
-/

namespace Gears.AtomicBucket

/-! ### C05: sequential use -/

/-- `SeqExec s cs s'`: from `s`, the calls `cs` — pairs (delay since the previous call, goroutine) — are executed one
after the other, each without interference until it has returned, leading to `s'`. -/
inductive SeqExec : State → List (Int × Nat) → State → Prop
  | nil (s : State) : SeqExec s [] s
  | cons (s s1 s' : State) (d : Int) (i k : Nat) (cs : List (Int × Nat))
      (hrun : exec step s ([.tick d, .call i] ++ List.replicate k (.run i)) = some s1)
      (hret : s1.pcs[i]? = some .idle)
      (hrest : SeqExec s1 cs s') : SeqExec s ((d, i) :: cs) s'

/-- The clock readings at which the calls happen. -/
def readings (t : Int) : List (Int × Nat) → List Int
  | [] => []
  | (d, _) :: cs => (t + d) :: readings (t + d) cs

theorem seq_step (s s1 : State) (d : Int) (i k : Nat)
    (hrun : exec step s ([.tick d, .call i] ++ List.replicate k (.run i)) = some s1)
    (hret : s1.pcs[i]? = some .idle) :
    s1.clock = s.clock + d ∧ s1.pcs = s.pcs ∧
    toSync s1 = (TokenBucket.acquire (toSync s) (s.clock + d)).1 ∧
    s1.log = s.log ++ [(TokenBucket.acquire (toSync s) (s.clock + d)).2] := by
  simp only [List.cons_append, List.nil_append, exec, step] at hrun
  by_cases hidle : s.pcs[i]? = some .idle
  · obtain ⟨k', s', hx, hp, hc, hy, hl⟩ := solo_call { s with clock := s.clock + d } i hidle
    simp only [exec, step, hidle] at hx hrun
    have : s' = s1 := solo_unique i k' k _ s' s1 hx (by rw [hp]; exact hidle) hrun hret
    subst this
    exact ⟨hc, hp, hy, hl⟩
  · split at hrun
    · rename_i s2 hs2
      split at hs2
      · rename_i h; exact absurd h hidle
      · simp at hs2
    · simp at hrun

/-- **C05.** Used sequentially, AtomicTokenBucket makes exactly the decisions of a SyncTokenBucket with the same
parameters, for every sequence of calls and every sequence of clock readings (even one that goes backwards). -/
theorem C05_sequential_equals_sync (c r t0 : Int) (n : Nat) (cs : List (Int × Nat)) (s' : State)
    (h : SeqExec (init c r t0 n) cs s') :
    s'.log = (TokenBucket.run (TokenBucket.new c r t0) (readings t0 cs)).2.map (·.2) := by
  have gen : ∀ (s : State), SeqExec s cs s' →
      s'.log = s.log ++ (TokenBucket.run (toSync s) (readings s.clock cs)).2.map (·.2) := by
    intro s hs
    clear h
    induction hs with
    | nil s => simp [readings, TokenBucket.run]
    | cons s s1 s' d i k cs hrun hret hrest ih =>
      obtain ⟨hc, hp, hy, hl⟩ := seq_step s s1 d i k hrun hret
      rw [ih, hl, hc, hy]
      simp [readings, TokenBucket.run]
  simpa [init, toSync, TokenBucket.new] using gen _ h

/-- **C05**, existence part: every sequence of calls by existing goroutines can be executed to completion (no call
ever spins for ever when it runs alone). -/
theorem C05_sequential_terminates (c r t0 : Int) (n : Nat) (cs : List (Int × Nat)) (hn : ∀ x ∈ cs, x.2 < n) :
    ∃ s', SeqExec (init c r t0 n) cs s' := by
  have gen : ∀ (s : State), s.pcs = List.replicate n PC.idle → ∃ s', SeqExec s cs s' := by
    induction cs with
    | nil => intro s _; exact ⟨s, .nil s⟩
    | cons x cs ih =>
      intro s hs
      obtain ⟨d, i⟩ := x
      have hi : i < n := hn (d, i) (by simp)
      have hidle : ({ s with clock := s.clock + d } : State).pcs[i]? = some .idle := by
        simp [hs, List.getElem?_replicate, hi]
      obtain ⟨k, s1, hx, hp, hc, _, _⟩ := solo_call { s with clock := s.clock + d } i hidle
      obtain ⟨s', hs'⟩ := ih (fun y hy => hn y (by simp [hy])) s1 (by rw [hp]; exact hs)
      refine ⟨s', .cons s s1 s' d i k cs ?_ (by rw [hp]; exact hidle) hs'⟩
      rw [List.cons_append, exec]
      simpa [step] using hx
  exact gen _ rfl

/-- Non-vacuity of C05: with capacity 1 and rate 1 the calls at 0 s, 0 s, 1 s return true, false, true. -/
example : (TokenBucket.run (TokenBucket.new 1 1 0) (readings 0 [(0, 0), (0, 1), (1000000000, 0)])).2.map (·.2)
    = [true, false, true] := by decide

/-! ### C06: the counter never exceeds the capacity -/

/-- **C06.** Under every interleaving the bucket never holds more than `capacity` tokens. -/
theorem C06_tokens_le_capacity (c r t0 : Int) (hc : 0 ≤ c) (hr : 0 ≤ r) (n : Nat) (as : List Action)
    (hf : ∀ a ∈ as, a.Forward) (s : State)
    (h : exec step (init c r t0 n) as = some s) : s.tokens ≤ c :=
  (exec_inv_on (I := Inv c r t0) (fun a b c' hp hi hs => step_inv c r t0 hr a b c' hp hi hs) as _ _ hf
    (init_inv c r t0 hc n) h).htok

/-- **C06**, observable form: at most `capacity` `Acquire` calls can succeed between two consecutive issuing events
(successful token-adding CASes), under every interleaving. -/
theorem C06_admissions_between_issues (c r t0 : Int) (hc : 0 ≤ c) (hr : 0 ≤ r) (n : Nat) (as bs : List Action)
    (hf : ∀ a ∈ as, a.Forward) (hf' : ∀ a ∈ bs, a.Forward) (s s' : State) (h : exec step (init c r t0 n) as = some s) (h' : exec step s bs = some s')
    (hno : s'.issues = s.issues) : (s'.admitted : Int) - s.admitted ≤ c := by
  have hinv := exec_inv_on (I := Inv c r t0) (fun a b c' hp hi hs => step_inv c r t0 hr a b c' hp hi hs) as _ _ hf
    (init_inv c r t0 hc n) h
  have hsp := exec_inv_on (I := fun x => Inv c r t0 x ∧ Spend s x)
    (fun a b c' hp hi hs => ⟨step_inv c r t0 hr a b c' hp hi.1 hs, step_spend c r t0 s a b c' hi.1 hi.2 hs⟩) bs _ _
    hf'
    ⟨hinv, ⟨Nat.le_refl _, fun _ => Int.le_refl _⟩⟩ h'
  have h1 := hsp.2.hsp hno
  have h2 := hinv.htok
  omega

/-! ### C07: the total admission bound -/

/-- The bound one expects (that of C01): after a schedule that ends at clock reading `s.clock`, at most
`c + r * ⌊elapsed seconds⌋` calls have been admitted. -/
def AdmissionBound (c r t0 : Int) (s : State) : Prop :=
  (s.admitted : Int) ≤ c + r * ((s.clock - t0) / 1000000000)

/-- The schedule used in `C07_admission_bound_violated`. -/
def overAdmit : List Action :=
  [.call 0, .run 0, .run 0, .run 0,                    -- goroutine 0 takes the initial token
   .tick 1000000000,
   .call 0, .run 0, .run 0, .run 0,                    -- goroutine 0 is about to add 1 token (line 161)
   .call 1, .run 1, .run 1, .run 1,                    -- goroutine 1 as well
   .run 0,                                             -- goroutine 0 adds the token
   .call 2, .run 2, .run 2, .run 2,                    -- goroutine 2 takes it
   .run 1, .run 1,                                     -- goroutine 1 adds the same token again and commits
   .run 1, .run 1]                                     -- and takes it

/-- **C07 is violated.** A concrete schedule of three goroutines on a bucket of capacity 1 and rate 1 that admits 3
calls within 1 second (bound: 2): two goroutines add the token of the same second because the first of them has not
yet advanced `lastIssueTimestamp`, and the token added first has been consumed before the second CAS fails. -/
theorem C07_admission_bound_violated :
    ∃ (as : List Action) (s : State), (∀ a ∈ as, a.Forward) ∧ exec step (init 1 1 0 3) as = some s ∧
      ¬ AdmissionBound 1 1 0 s := by
  refine ⟨overAdmit, (exec step (init 1 1 0 3) overAdmit).get (by decide), ?_, by simp, by
    unfold AdmissionBound; decide⟩
  simp [Action.Forward, overAdmit]

/-- **C07, partial.** What does hold under every interleaving: the expected bound, exceeded at most by the tokens whose
issue is still uncommitted (goroutines between their first and second CAS, or about to roll back) plus the tokens that
have been rolled back.  Missing with respect to the full claim: the term `pending s.pcs + s.rolled`, which
`C07_admission_bound_violated` shows cannot be dropped. -/
theorem C07_admission_bound_partial (c r t0 : Int) (hc : 0 ≤ c) (hr : 0 ≤ r) (n : Nat) (as : List Action)
    (hf : ∀ a ∈ as, a.Forward) (s : State)
    (h : exec step (init c r t0 n) as = some s) :
    (s.admitted : Int) ≤ c + r * ((s.clock - t0) / 1000000000) + pending s.pcs + s.rolled := by
  obtain ⟨hcap, hrate, htok, hlit0, hlit, hpc, hcons, hroll, hlow⟩ :=
    exec_inv_on (I := Inv c r t0) (fun a b c' hp hi hs => step_inv c r t0 hr a b c' hp hi hs) as _ _ hf
      (init_inv c r t0 hc n) h
  have hle : (s.lit - t0) / 1000000000 ≤ (s.clock - t0) / 1000000000 := by omega
  have := Int.mul_le_mul_of_nonneg_left hle hr
  omega

theorem pending_zero (ps : List PC) (h : ∀ p ∈ ps, p = PC.idle) : pending ps = 0 := by
  unfold pending
  induction ps with
  | nil => rfl
  | cons p ps ih =>
    have := h p (by simp)
    subst this
    simp only [List.map_cons, List.sum_cons, pend, ih (fun q hq => h q (by simp [hq]))]
    rfl

/-- **C07, partial.** If no issue was ever rolled back, then whenever all goroutines are outside `Acquire` the exact
bound holds. -/
theorem C07_quiescent_bound_partial (c r t0 : Int) (hc : 0 ≤ c) (hr : 0 ≤ r) (n : Nat) (as : List Action)
    (hf : ∀ a ∈ as, a.Forward) (s : State)
    (h : exec step (init c r t0 n) as = some s) (hq : ∀ p ∈ s.pcs, p = PC.idle) (hroll : s.rolled = 0) :
    AdmissionBound c r t0 s := by
  have := C07_admission_bound_partial c r t0 hc hr n as hf s h
  rw [pending_zero _ hq, hroll] at this
  unfold AdmissionBound; omega

/-- **C07, partial.** When all goroutines are outside `Acquire` and the counter is not negative, the exact bound holds
too: every over-admission is visible afterwards as a negative counter, i.e. it is repaid out of later issues. -/
theorem C07_overadmission_is_debt_partial (c r t0 : Int) (hc : 0 ≤ c) (hr : 0 ≤ r) (n : Nat) (as : List Action)
    (hf : ∀ a ∈ as, a.Forward) (s : State) (h : exec step (init c r t0 n) as = some s) (hq : ∀ p ∈ s.pcs, p = PC.idle) :
    (s.admitted : Int) + s.tokens ≤ c + r * ((s.clock - t0) / 1000000000) := by
  obtain ⟨hcap, hrate, htok, hlit0, hlit, hpc, hcons, hroll, hlow⟩ :=
    exec_inv_on (I := Inv c r t0) (fun a b c' hp hi hs => step_inv c r t0 hr a b c' hp hi hs) as _ _ hf
      (init_inv c r t0 hc n) h
  have hle : (s.lit - t0) / 1000000000 ≤ (s.clock - t0) / 1000000000 := by omega
  have := Int.mul_le_mul_of_nonneg_left hle hr
  rw [pending_zero _ hq] at hcons
  omega

/-- Non-vacuity: an interleaved schedule of two goroutines, with a failed CAS, that admits two calls and ends
quiescent. -/
example : ∃ s, exec step (init 2 1 0 2)
    [.call 0, .call 1, .run 0, .run 1, .run 0, .run 1, .run 0, .run 1, .run 1, .run 1] = some s ∧
    s.admitted = 2 ∧ s.tokens = 0 ∧ (∀ p ∈ s.pcs, p = PC.idle) := ⟨_, rfl, by decide⟩

end Gears.AtomicBucket
