import Verif.Conform.Starve

/-
Somebody gets through (C180): C179 shows that one caller may be refused for ever; here that not all of them are.  The models are
those of TokenBucket/Model.lean (tokenbucket.go:71-104), SlidingWindow/Model.lean (slidingwindow.go:62-87) and
FixedWindow/Model.lean (fixedwindow.go:66-104), with an infinite sequence of calls.  No new model of the code.
-/

namespace Gears.Conform.Somebody

open Gears Thin Starve

/-! ### Specification -/

/-- The clock does not go back, and there are calls for ever. -/
def Runs (time : Nat → Int) : Prop := (∀ k, time k ≤ time (k + 1)) ∧ (∀ T, ∃ k, T ≤ time k)

/-- The answers to the first `n` calls, at the times `time`. -/
def answersOf {σ : Type} (f : σ → Int → σ × Bool) (s : σ) (time : Nat → Int) (n : Nat) : List Bool :=
  (List.range n).map (fun k => answer f s (fun i => (true, time i)) k)

/-- Any number of calls is let through, if one waits long enough. -/
def GoesOn {σ : Type} (f : σ → Int → σ × Bool) (s : σ) (time : Nat → Int) : Prop :=
  ∀ n : Nat, ∃ k : Nat, n ≤ (answersOf f s time k).count true

/-! ### Proof -/

theorem before_congr {σ : Type} (f : σ → Int → σ × Bool) (s : σ) (a b : Calls) (h : ∀ k, (a k).2 = (b k).2) :
    ∀ k, before f s a k = before f s b k
  | 0 => rfl
  | k + 1 => by simp only [before, before_congr f s a b h k, h k]

theorem answer_congr {σ : Type} (f : σ → Int → σ × Bool) (s : σ) (a b : Calls) (h : ∀ k, (a k).2 = (b k).2) (k : Nat) :
    answer f s a k = answer f s b k := by
  simp only [answer, before_congr f s a b h k, h k]

theorem mono {time : Nat → Int} (h : ∀ k, time k ≤ time (k + 1)) (m : Nat) : ∀ n, time m ≤ time (m + n)
  | 0 => Int.le_refl _
  | n + 1 => Int.le_trans (mono h m n) (h (m + n))

/-- After call `m` only our caller calls. -/
def after (time : Nat → Int) (m : Nat) : Calls := fun k => (decide (m ≤ k), time k)

theorem after_keeps {time : Nat → Int} (h : Runs time) (m : Nat) : Keeps (after time m) := by
  refine ⟨h.1, fun T m' => ?_⟩
  obtain ⟨k, hk⟩ := h.2 T
  have h1 := mono h.1 k (m + m')
  exact ⟨k + (m + m'), by omega, by simp only [after, decide_eq_true_eq]; omega, by simp only [after]; omega⟩

theorem after_stop (time : Nat → Int) (m : Nat) : OthersStop (after time m) :=
  ⟨m, fun k hk => by simp only [after, decide_eq_true_eq]; exact hk⟩

theorem goesOn_of {σ : Type} (f : σ → Int → σ × Bool) (s : σ) (time : Nat → Int)
    (h : ∀ m, GetsThrough f s (after time m)) : GoesOn f s time := by
  intro n
  induction n with
  | zero => exact ⟨0, Nat.zero_le _⟩
  | succ n ih =>
    obtain ⟨m, hm⟩ := ih
    obtain ⟨k, hk, ha⟩ := h m
    have hmk : m ≤ k := by simpa [after] using hk
    rw [answer_congr f s (after time m) (fun i => (true, time i)) (fun _ => rfl) k] at ha
    refine ⟨k + 1, ?_⟩
    have h1 : (answersOf f s time m).count true ≤ (answersOf f s time k).count true :=
      ((List.range_sublist.2 hmk).map _).count_le _
    have h2 : answersOf f s time (k + 1) = answersOf f s time k ++ [true] := by
      simp only [answersOf, List.range_succ, List.map_append, List.map_cons, List.map_nil, ha]
    rw [h2, List.count_append]
    simp only [List.count_singleton_self]
    omega

/-- **C180**: sliding window, every capacity and window. -/
theorem C180_sliding (c W : Int) (time : Nat → Int) (h : Runs time) : GoesOn sliding (SlidingWindow.new c W) time :=
  goesOn_of _ _ _ fun m => C179_sliding_partial c W _ (after_keeps h m) (after_stop time m)

/-- **C180**: fixed window. -/
theorem C180_fixed (c W : Int) (hc : 1 ≤ c) (time : Nat → Int) (h : Runs time) :
    GoesOn FixedWindow.acquire (FixedWindow.new c W) time :=
  goesOn_of _ _ _ fun m => C179_fixed_partial c W hc _ (after_keeps h m) (after_stop time m)

/-- **C180**: token bucket. -/
theorem C180_bucket (c r t0 : Int) (hc : 1 ≤ c) (hr : 1 ≤ r) (time : Nat → Int) (h0 : t0 ≤ time 0) (h : Runs time) :
    GoesOn TokenBucket.acquire (TokenBucket.new c r t0) time :=
  goesOn_of _ _ _ fun m => C179_bucket_partial c r t0 hc hr _ h0 (after_keeps h m) (after_stop time m)

/-- **C180**: the rate has to be positive; a bucket of rate 0 lets `c` calls through and no more. -/
theorem C180_rate_zero (c t0 : Int) (hc : 0 ≤ c) (time : Nat → Int) :
    ¬ GoesOn TokenBucket.acquire (TokenBucket.new c 0 t0) time := by
  intro h
  obtain ⟨k, hk⟩ := h (c.toNat + 1)
  have key : ∀ k, ((answersOf TokenBucket.acquire (TokenBucket.new c 0 t0) time k).count true : Int) +
        (before TokenBucket.acquire (TokenBucket.new c 0 t0) (fun i => (true, time i)) k).tokens = c ∧
      0 ≤ (before TokenBucket.acquire (TokenBucket.new c 0 t0) (fun i => (true, time i)) k).tokens ∧
      (before TokenBucket.acquire (TokenBucket.new c 0 t0) (fun i => (true, time i)) k).rate = 0 := by
    intro k
    induction k with
    | zero => simp [answersOf, before, TokenBucket.new, hc]
    | succ k ih =>
      obtain ⟨i1, i2, i3⟩ := ih
      have h2 : answersOf TokenBucket.acquire (TokenBucket.new c 0 t0) time (k + 1) =
          answersOf TokenBucket.acquire (TokenBucket.new c 0 t0) time k ++
            [answer TokenBucket.acquire (TokenBucket.new c 0 t0) (fun i => (true, time i)) k] := by
        simp only [answersOf, List.range_succ, List.map_append, List.map_cons, List.map_nil]
      rw [h2, List.count_append]
      simp only [answer, before]
      revert i1 i2 i3
      generalize before TokenBucket.acquire (TokenBucket.new c 0 t0) (fun i => (true, time i)) k = s
      intro i1 i2 i3
      have e : TokenBucket.issueIfNecessary s (time k) = s := by
        simp only [TokenBucket.issueIfNecessary, i3, Int.mul_zero, if_true]
        split <;> rfl
      simp only [TokenBucket.acquire, e]
      split
      · simp only [List.count_singleton_self]
        push_cast
        exact ⟨by omega, by omega, i3⟩
      · simp only [List.count_singleton]
        exact ⟨by simpa using i1, i2, i3⟩
  obtain ⟨h1, h2, _⟩ := key k
  omega

/-- Non-vacuity: a call at every nanosecond. -/
example : Runs (fun k => (k : Int)) := ⟨fun k => by dsimp only; omega, fun T => ⟨T.toNat, by dsimp only; omega⟩⟩

/-- Non-vacuity: capacity 1 and a window of 2. -/
example : answersOf sliding (SlidingWindow.new 1 2) (fun k => (k : Int)) 8 =
    [true, false, false, true, false, false, true, false] := by decide

end Gears.Conform.Somebody
