/-
Model of /repo/testutil/panic.go: helpers for tests which expect a panic (C100).

`panic(nil)` is a panic for which `recover` returns nil (go.mod says go 1.14).  `runtime.Goexit` (as in `t.FailNow`, `t.Skip`) runs the
deferred functions, `recover` returns nil in them, and the goroutine ends.
-/

namespace Gears.Testutil

variable {V : Type}

/-- How a call of a function ends; the value of a panic is an interface, which may be nil. -/
inductive End (V : Type) where
  | returns
  | panics (v : Option V)
  | exits
deriving DecidableEq, Repr

/-- The calls of `t.Errorf` (panic.go:11, 18, 22, 27). -/
inductive Report where
  | didNotPanic
  | otherPanic
  | panicked
deriving DecidableEq, Repr

/-- What `recover` gives in a deferred function (nil if there is no panic). -/
def recovered : End V → Option V
  | .panics v => v
  | _ => none

/-- How a function ends whose deferred function calls `recover`: a panic is over, an exit goes on. -/
def afterRecover : End V → End V
  | .panics _ => .returns
  | e => e

/-- `ShouldPanic` (panic.go:8-12). -/
def shouldPanic (f : End V) : List Report × End V :=
  match f with
  | .returns => ([.didNotPanic], afterRecover .returns)
  | e => ([], afterRecover e)

/-- `ExpectPanic` (panic.go:14-23); `deq` is `reflect.DeepEqual`. -/
def expectPanic (deq : Option V → Option V → Bool) (expected : Option V) (f : End V) : List Report × End V :=
  let deferred (e : End V) : List Report := if !deq (recovered e) expected then [.otherPanic] else []
  match f with
  | .returns => (.didNotPanic :: deferred .returns, afterRecover .returns)
  | e => (deferred e, afterRecover e)

/-- `ShouldNotPanic` (panic.go:24-31). -/
def shouldNotPanic (f : End V) : List Report × End V :=
  ((match recovered f with
    | none => []
    | some _ => [.panicked]), afterRecover f)

/-! ## C100 -/

/-- What a sensible `reflect.DeepEqual` does with nil. -/
structure NilLaws (deq : Option V → Option V → Bool) : Prop where
  nil_nil : deq none none = true
  nil_some : ∀ v, deq none (some v) = false

/-- The full statement of C100: a helper fails the test exactly if the function does not behave as the helper says, and does not panic. -/
structure C100Claim (V : Type) : Prop where
  should : ∀ f : End V, (shouldPanic f).1 ≠ [] ↔ ∀ v, f ≠ .panics v
  shouldNot : ∀ f : End V, (shouldNotPanic f).1 ≠ [] ↔ ∃ v, f = .panics v
  expect : ∀ deq, NilLaws deq → ∀ (x : Option V) (f : End V), (expectPanic deq x f).1 ≠ [] ↔ ∀ v, f = .panics v → deq v x = false

/-- The helpers never panic, and end the goroutine only if the function does. -/
theorem C100_no_panic (deq : Option V → Option V → Bool) (x : Option V) (f : End V) :
    ∀ e, e = (shouldPanic f).2 ∨ e = (shouldNotPanic f).2 ∨ e = (expectPanic deq x f).2 → e = if f matches .exits then .exits else .returns := by
  rintro e (rfl | rfl | rfl) <;> cases f <;> rfl

/-- **C100** (partial): for functions that return or panic, but with a value other than nil.  Missing: functions that end the goroutine
    and `panic(nil)`. -/
theorem C100_partial (f : End V) (hf : f = .returns ∨ ∃ v, f = .panics (some v)) :
    ((shouldPanic f).1 ≠ [] ↔ ∀ v, f ≠ .panics v) ∧ ((shouldNotPanic f).1 ≠ [] ↔ ∃ v, f = .panics v) ∧
    ∀ (deq : Option V → Option V → Bool) (x : Option V), (expectPanic deq x f).1 ≠ [] ↔ ∀ v, f = .panics v → deq v x = false := by
  rcases hf with rfl | ⟨v, rfl⟩
  · simp [shouldPanic, shouldNotPanic, expectPanic, recovered]
  · refine ⟨by simp [shouldPanic], by simp [shouldNotPanic, recovered], fun deq x => ?_⟩
    cases h : deq (some v) x <;> simp [expectPanic, recovered, h]

/-- **C100** (what is reported in the other cases): a nil panic satisfies ShouldPanic, ShouldNotPanic and ExpectPanic of nil at the same
    time; a function that ends the goroutine satisfies all three as well. -/
theorem C100_nil_exit_violated (deq : Option V → Option V → Bool) (hd : NilLaws deq) (f : End V) (hf : f = .panics none ∨ f = .exits) :
    (shouldPanic f).1 = [] ∧ (shouldNotPanic f).1 = [] ∧ (expectPanic deq none f).1 = [] ∧ ∀ v, (expectPanic deq (some v) f).1 = [.otherPanic] := by
  rcases hf with rfl | rfl <;> simp [shouldPanic, shouldNotPanic, expectPanic, recovered, hd.nil_nil, hd.nil_some]

/-- **C100** (violated): whatever the type of the values. -/
theorem C100_violated : ¬ C100Claim V := by
  intro h
  have := (h.shouldNot (.panics none)).2 ⟨none, rfl⟩
  exact this rfl

example : (shouldPanic (V := Nat) .returns).1 = [.didNotPanic] ∧ (shouldNotPanic (.panics (some 1))).1 = [.panicked] ∧
    (expectPanic (fun a b => a == b) (some 2) (.panics (some 1))).1 = [.otherPanic] ∧ NilLaws (fun a b : Option Nat => a == b) :=
  ⟨rfl, rfl, rfl, ⟨rfl, fun _ => rfl⟩⟩

end Gears.Testutil
