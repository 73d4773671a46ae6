import Verif.Common.Atomic
import Verif.CircuitBreaker.Model

/-
The methods of SyncCircuitBreaker that use its fields (/repo/circuitbreaker/circuitbreaker.go:91-119) instruction by instruction:
every access to a field is a step of its own, and goroutines may be preempted between any two.  `state` takes the lock for
reading, so any number of calls of it may be under way at once.
-/

namespace Gears.CircuitBreaker

open Atomic (Prog Mem Event Sys Guarded TwoPhase Refines Linear)

/-- The fields (circuitbreaker.go:66-73). -/
inductive Field where
  | threshold | timeout | failures | lastTs
deriving DecidableEq, Repr

/-- The fields that are never assigned. -/
def Field.const : Field → Bool
  | .threshold => true
  | .timeout => true
  | _ => false

/-- The calls. -/
inductive Method where
  | state
  | recordFailure
  | reset
deriving DecidableEq, Repr

inductive Ret where
  | mode (m : Mode)
  | unit
deriving DecidableEq, Repr

abbrev P := Prog Field (fun _ => Int) Ret

/-- `defer s.lock.RUnlock()` and the return. -/
def rdone (m : Mode) : P := .rel 0 .R (.ret (.mode m))

/-- Lines 106-110. -/
def second : P := .load .failures fun f => .load .threshold fun h => if f ≥ h then rdone .opened else rdone .closed

/-- The bodies (circuitbreaker.go:91-119). -/
def body : Method → P
  | .state =>
    .now fun now =>                                                           -- 100
    .acq 0 .R <|                                                              -- 101
    .load .failures fun f => .load .threshold fun h =>                        -- 104
    if f ≥ h then
      .load .lastTs fun l => .load .timeout fun o =>
      if now - l > o then rdone .halfOpen else second
    else second
  | .recordFailure =>
    .acq 0 .W <|                                                              -- 92
    .load .failures fun f => .store .failures (f + 1) <|                      -- 95
    .now fun now => .store .lastTs now <|                                     -- 96
    .rel 0 .W <| .ret .unit
  | .reset =>
    .acq 0 .W <|                                                              -- 114
    .store .failures 0 <| .store .lastTs 0 <|                                 -- 117, 118
    .rel 0 .W <| .ret .unit

@[reducible] def memOf (b : Breaker) : Mem (fun _ : Field => Int)
  | .threshold => b.threshold
  | .timeout => b.timeout
  | .failures => b.failures
  | .lastTs => b.lastTs

/-- The model of Model.lean, as a reference. -/
def ref : Method → List Int → Breaker → Option (Breaker × Ret)
  | .state, [t], b => some (b, .mode (b.mode t))
  | .recordFailure, [t], b => some (b.recordFailure t, .unit)
  | .reset, [], b => some (b.reset, .unit)
  | _, _, _ => none

theorem guarded (c : Method) : Guarded (fun _ => 0) Field.const (fun _ => none) (body c) := by
  have hW : Atomic.upd (fun _ => none) 0 (some Atomic.Mode.W) 0 = some Atomic.Mode.W := rfl
  have hR : Atomic.upd (fun _ => none) 0 (some Atomic.Mode.R) 0 = some Atomic.Mode.R := rfl
  have hn : Atomic.upd (fun _ => none) 0 (some Atomic.Mode.W) 0 ≠ none := by simp [hW]
  have hm : Atomic.upd (fun _ => none) 0 (some Atomic.Mode.R) 0 ≠ none := by simp [hR]
  have hu : ∀ (m : Atomic.Mode) l, Atomic.upd (Atomic.upd (fun _ => none) 0 (some m)) 0 none l = none := by
    intro m l; simp only [Atomic.upd]; split <;> rfl
  have hd : ∀ m, Guarded (ν := fun _ : Field => Int) (fun _ => 0) Field.const (Atomic.upd (fun _ => none) 0 (some Atomic.Mode.R)) (rdone m) :=
    fun m => ⟨hR, hu _⟩
  have hs : Guarded (ν := fun _ : Field => Int) (fun _ => 0) Field.const (Atomic.upd (fun _ => none) 0 (some Atomic.Mode.R)) second := by
    refine ⟨.inr hm, fun f => ⟨.inl rfl, fun h => ?_⟩⟩
    dsimp only; split <;> exact hd _
  cases c with
  | state =>
    refine fun now => ⟨rfl, .inr hm, fun f => ⟨.inl rfl, fun h => ?_⟩⟩
    dsimp only; split
    · refine ⟨.inr hm, fun l => ⟨.inl rfl, fun o => ?_⟩⟩
      dsimp only; split
      · exact hd _
      · exact hs
    · exact hs
  | recordFailure => exact ⟨rfl, .inr hn, fun f => ⟨rfl, hW, fun now => ⟨rfl, hW, hW, hu _⟩⟩⟩
  | reset => exact ⟨rfl, rfl, hW, rfl, hW, hW, hu _⟩

theorem twoPhase (c : Method) : TwoPhase false (body c) := by
  have hs : TwoPhase false second := by
    refine ⟨rfl, fun f => ⟨rfl, fun h => ?_⟩⟩
    dsimp only; split <;> exact trivial
  cases c with
  | state =>
    refine ⟨rfl, fun now => ⟨rfl, rfl, fun f => ⟨rfl, fun h => ?_⟩⟩⟩
    dsimp only; split
    · refine ⟨rfl, fun l => ⟨rfl, fun o => ?_⟩⟩
      dsimp only; split
      · exact trivial
      · exact hs
    · exact hs
  | recordFailure => exact ⟨rfl, rfl, fun f => ⟨rfl, rfl, fun now => ⟨rfl, trivial⟩⟩⟩
  | reset => exact ⟨rfl, rfl, rfl, trivial⟩

theorem put_failures (b : Breaker) (n : Int) : Atomic.put (memOf b) .failures n = memOf { b with failures := n } := by
  funext x; cases x <;> simp [Atomic.put, memOf]

theorem put_lastTs (b : Breaker) (t : Int) : Atomic.put (memOf b) .lastTs t = memOf { b with lastTs := t } := by
  funext x; cases x <;> simp [Atomic.put, memOf]

theorem seq_second (rs : List Int) (b : Breaker) : Atomic.seq second rs (memOf b) =
    if rs = [] then some (memOf b, .mode (if b.failures ≥ b.threshold then .opened else .closed)) else none := by
  simp only [second, Atomic.seq]
  by_cases h : b.failures ≥ b.threshold
  · rw [if_pos (show memOf b .failures ≥ memOf b .threshold from h)]; simp [rdone, Atomic.seq, h]
  · rw [if_neg (show ¬ memOf b .failures ≥ memOf b .threshold from h)]; simp [rdone, Atomic.seq, h]

theorem refines : Refines body ref memOf := by
  intro call rs b
  cases call with
  | state =>
    cases rs with
    | nil => rfl
    | cons t rs =>
      have h1 : Atomic.seq (body .state) (t :: rs) (memOf b) = if rs = [] then some (memOf b, .mode (b.mode t)) else none := by
        simp only [body, Atomic.seq, Breaker.mode]
        by_cases h : b.failures ≥ b.threshold
        · rw [if_pos (show memOf b .failures ≥ memOf b .threshold from h)]
          simp only [Atomic.seq]
          by_cases ho : t - b.lastTs > b.timeout
          · rw [if_pos (show t - memOf b .lastTs > memOf b .timeout from ho)]
            have hb : b.failures ≥ b.threshold ∧ t - b.lastTs > b.timeout := ⟨h, ho⟩
            simp only [rdone, Atomic.seq, if_pos hb]
          · rw [if_neg (show ¬ t - memOf b .lastTs > memOf b .timeout from ho), seq_second]
            have hb : ¬ (b.failures ≥ b.threshold ∧ t - b.lastTs > b.timeout) := fun hh => ho hh.2
            simp only [if_neg hb]
        · rw [if_neg (show ¬ memOf b .failures ≥ memOf b .threshold from h), seq_second]
          have hb : ¬ (b.failures ≥ b.threshold ∧ t - b.lastTs > b.timeout) := fun hh => h hh.1
          simp only [if_neg hb]
      rw [h1]
      cases rs <;> simp [ref]
  | recordFailure =>
    cases rs with
    | nil => rfl
    | cons t rs =>
      simp only [body, Atomic.seq, put_failures, put_lastTs]
      cases rs <;> simp [ref, Breaker.recordFailure]
  | reset =>
    simp only [body, Atomic.seq, put_failures, put_lastTs]
    cases rs <;> simp [ref, Breaker.reset]

/-- **C139.**  The circuit breaker at the level of instructions: any number of goroutines, any schedule. -/
theorem C139_breaker (b0 : Breaker) (c0 : Int) (as : List (Atomic.Action Method)) (s : Sys Field (fun _ => Int) Ret Method)
    (h : exec (Atomic.step body) (Atomic.start (memOf b0) c0) as = some s) : Linear ref memOf b0 s :=
  Atomic.linear guarded twoPhase refines b0 c0 as s h

/-- Non-vacuity: two calls of `state` hold the lock together; a failure is recorded when both have given it back. -/
example : ∃ s, exec (Atomic.step body) (Atomic.start (memOf (new 1 10)) 5)
      [.call 0 .state, .call 1 .state, .call 2 .recordFailure, .step 0, .step 1, .tick 3, .step 0, .step 1, .step 0, .step 1, .step 0, .step 1,
       .step 0, .step 1, .step 0, .step 1, .step 0, .step 1, .step 2, .step 2, .step 2, .step 2, .step 0, .step 1, .step 2, .step 2, .step 2] = some s ∧
    s.hist = [.inv 0 .state 5, .inv 1 .state 5, .inv 2 .recordFailure 5, .eff 0 .state [5] 8, .eff 1 .state [5] 8, .res 0 (.mode .closed) 8,
      .res 1 (.mode .closed) 8, .eff 2 .recordFailure [8] 8, .res 2 .unit 8] ∧ s.mem .failures = 1 := ⟨_, rfl, rfl, rfl⟩

end Gears.CircuitBreaker
