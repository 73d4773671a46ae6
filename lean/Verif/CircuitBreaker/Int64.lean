import Verif.CircuitBreaker.Model
import Verif.Procs.Props

/-
C133: the circuit breaker in the arithmetic of int64 (and of int on 64-bit machines).
-/

namespace Gears.CircuitBreaker

open Gears.Procs (wrap wrap_of)

/-- `state` (99-111) in 64-bit arithmetic. -/
def Breaker.modeW (b : Breaker) (now : Int) : Mode :=
  if b.failures ≥ b.threshold ∧ wrap (now - b.lastTs) > b.timeout then .halfOpen
  else if b.failures ≥ b.threshold then .opened
  else .closed

/-- `recordFailure` (91-97) in 64-bit arithmetic. -/
def Breaker.recordFailureW (b : Breaker) (now : Int) : Breaker := { b with failures := wrap (b.failures + 1), lastTs := now }

/-- `Do` (75-89) with `modeW` and `recordFailureW`. -/
def stepW (s : State) : Action → Option State
  | .decide i =>
    match s.pcs[i]? with
    | some (.deciding now) =>
      match s.b.modeW now with
      | .opened => some (s.upd s.b i .openCb [.refuse i now])
      | .closed | .halfOpen => some (s.upd s.b i .running [.start i now])
    | _ => none
  | .record i now =>
    match s.pcs[i]? with
    | some (.failed e) => some (s.upd (s.b.recordFailureW now) i (.errCb e) [.recFail i now])
    | _ => none
  | a => step s a

/-- The readings of the clock in an action are in `[lo, hi]`. -/
def Action.within (lo hi : Int) : Action → Bool
  | .call now | .record _ now => Decidable.decide (lo ≤ now) && Decidable.decide (now ≤ hi)
  | _ => true

/-- What the clock and the number of calls guarantee. -/
structure Fits (lo hi : Int) (k : Nat) (s : State) : Prop where
  pcs  : ∀ (i : Nat) now, s.pcs[i]? = some (PC.deciding now) → lo ≤ now ∧ now ≤ hi
  last : lo ≤ s.b.lastTs ∧ s.b.lastTs ≤ hi
  fail : 0 ≤ s.b.failures ∧ s.b.failures ≤ k

theorem fits_step {lo hi : Int} (h0 : lo ≤ 0 ∧ 0 ≤ hi) {k : Nat} {s s' : State} (f : Fits lo hi k s) {a : Action} (ha : a.within lo hi = true)
    (h : step s a = some s') : Fits lo hi (k + 1) s' := by
  obtain ⟨f1, f2, f3⟩ := f
  have hset : ∀ (i : Nat) (p : PC), (∀ now, p ≠ .deciding now) → ∀ (j : Nat) now, (s.pcs.set i p)[j]? = some (PC.deciding now) → lo ≤ now ∧ now ≤ hi := by
    intro i p hp j now hj
    rw [List.getElem?_set] at hj
    split at hj
    · split at hj
      · simp at hj; exact absurd hj (hp now)
      · cases hj
    · exact f1 j now hj
  cases a with
  | call now =>
    simp only [step, Option.some.injEq] at h
    subst h
    simp only [Action.within, Bool.and_eq_true, decide_eq_true_eq] at ha
    refine ⟨fun i now' hi' => ?_, f2, by simp only; omega⟩
    simp only [List.getElem?_append] at hi'
    split at hi'
    · exact f1 i now' hi'
    · rw [List.getElem?_singleton] at hi'
      split at hi'
      · simp at hi'; subst hi'; exact ha
      · cases hi'
  | record i now =>
    simp only [step] at h
    split at h
    · cases h
      simp only [Action.within, Bool.and_eq_true, decide_eq_true_eq] at ha
      refine ⟨hset _ _ (by simp), ha, ?_⟩
      simp only [State.upd, Breaker.recordFailure]
      omega
    · cases h
  | reset i =>
    simp only [step] at h
    split at h
    · cases h
      refine ⟨hset _ _ (by simp), h0, ?_⟩
      simp only [State.upd, Breaker.reset]
      omega
    · cases h
  | decide i => simp only [step] at h; (repeat' split at h) <;> cases h <;> exact ⟨hset _ _ (by simp), f2, by simp only [State.upd]; omega⟩
  | openCb i => simp only [step] at h; (repeat' split at h) <;> cases h <;> exact ⟨hset _ _ (by simp), f2, by simp only [State.upd]; omega⟩
  | taskEnd i o => simp only [step] at h; (repeat' split at h) <;> cases h <;> exact ⟨hset _ _ (by simp), f2, by simp only [State.upd]; omega⟩
  | errCb i => simp only [step] at h; (repeat' split at h) <;> cases h <;> exact ⟨hset _ _ (by simp), f2, by simp only [State.upd]; omega⟩

theorem stepW_eq {lo hi : Int} (hspan : hi - lo < 2 ^ 63) {k : Nat} (hk : (k : Int) + 1 < 2 ^ 63) {s : State} (f : Fits lo hi k s) (a : Action) : stepW s a = step s a := by
  obtain ⟨f1, f2, f3⟩ := f
  cases a with
  | decide i =>
    simp only [stepW, step]
    cases h : s.pcs[i]? with
    | none => rfl
    | some p =>
      cases p with
      | deciding now =>
        have := f1 i now h
        have : s.b.modeW now = s.b.mode now := by
          unfold Breaker.modeW Breaker.mode
          rw [wrap_of (by omega) (by omega)]
        simp only [this]
        cases s.b.mode now <;> rfl
      | _ => rfl
  | record i now =>
    have : s.b.recordFailureW now = s.b.recordFailure now := by
      unfold Breaker.recordFailureW Breaker.recordFailure
      rw [wrap_of (by omega) (by omega)]
    simp only [stepW, step, this]
    rcases s.pcs[i]? with _ | p
    · rfl
    · cases p <;> rfl
  | _ => rfl

/-- C133: for all thresholds and timeouts, if the readings of the clock span less than 292 years around 1970 (say, if they are not negative) and fewer than 2^63 steps
happen, the breaker does in 64-bit arithmetic exactly what it does with unbounded integers. -/
theorem C133_breaker (th to lo hi : Int) (h0 : lo ≤ 0 ∧ 0 ≤ hi) (hspan : hi - lo < 2 ^ 63) (as : List Action) (has : ∀ a ∈ as, a.within lo hi = true)
    (hlen : (as.length : Int) < 2 ^ 63) : exec stepW (init th to) as = exec step (init th to) as := by
  have key : ∀ (as : List Action) (s : State) (k : Nat), Fits lo hi k s → (∀ a ∈ as, a.within lo hi = true) → (k : Int) + as.length < 2 ^ 63 →
      exec stepW s as = exec step s as := by
    intro as
    induction as with
    | nil => intros; rfl
    | cons a as ih =>
      intro s k f ha hl
      simp only [List.length_cons] at hl
      simp only [exec]
      rw [stepW_eq hspan (by omega) f a]
      cases h : step s a with
      | none => rfl
      | some s' => exact ih s' (k + 1) (fits_step h0 f (ha a (by simp)) h) (fun b hb => ha b (by simp [hb])) (by omega)
  exact key as _ 0 ⟨by simp [init], by simpa [init, new] using h0, by simp [init, new]⟩ has (by omega)

/-- The limit of C133: when the clock jumps by 292 years the difference overflows, and the breaker stays open though the timeout is over. -/
theorem C133_breaker_tight :
    let as : List Action := [.call (-2 ^ 62), .decide 0, .taskEnd 0 (.err 7), .record 0 (-2 ^ 62), .call (2 ^ 62), .decide 1]
    (exec step (init 1 1000) as).map (·.log.getLast?) = some (some (.start 1 (2 ^ 62))) ∧
      (exec stepW (init 1 1000) as).map (·.log.getLast?) = some (some (.refuse 1 (2 ^ 62))) := by
  decide

-- readings of today
example : ∀ a ∈ [Action.call 1700000000000000000, .decide 0, .taskEnd 0 (.err 7), .record 0 1700000000000000005], a.within 0 (2 ^ 63 - 1) = true := by decide

end Gears.CircuitBreaker
