import Verif.Conform.Thin

/-
A caller that keeps trying (C179): /repo/ratelimiter/interface.go:22-24 has only an `Acquire` that answers at once, so a caller
that is refused has to try again.  Two callers share a limiter; the models are those of TokenBucket/Model.lean
(tokenbucket.go:71-104), SlidingWindow/Model.lean (slidingwindow.go:62-87) and FixedWindow/Model.lean (fixedwindow.go:66-104),
with an infinite sequence of calls.  No new model of the code.
-/

namespace Gears.Conform.Starve

open Gears Thin

/-! ### Specification -/

/-- The calls one after the other: who calls (`true`: the caller that we look at), and the clock. -/
abbrev Calls := Nat → Bool × Int

/-- The limiter before call `k`. -/
def before {σ : Type} (f : σ → Int → σ × Bool) (s : σ) (call : Calls) : Nat → σ
  | 0 => s
  | k + 1 => (f (before f s call k) (call k).2).1

/-- The answer to call `k`. -/
def answer {σ : Type} (f : σ → Int → σ × Bool) (s : σ) (call : Calls) (k : Nat) : Bool :=
  (f (before f s call k) (call k).2).2

/-- The clock does not go back and goes on for ever, and the caller tries again and again. -/
def Keeps (call : Calls) : Prop :=
  (∀ k, (call k).2 ≤ (call (k + 1)).2) ∧ (∀ T m, ∃ k, m ≤ k ∧ (call k).1 = true ∧ T ≤ (call k).2)

/-- The caller gets through some time. -/
def GetsThrough {σ : Type} (f : σ → Int → σ × Bool) (s : σ) (call : Calls) : Prop :=
  ∃ k, (call k).1 = true ∧ answer f s call k = true

/-- The claim: who keeps trying gets through. -/
def C179Claim {σ : Type} (f : σ → Int → σ × Bool) (s : σ) : Prop := ∀ call, Keeps call → GetsThrough f s call

/-! ### Rounds -/

/-- Round `q` has `len q` calls of the other caller and then one of ours. -/
def ph (len : Nat → Nat) : Nat → Nat × Nat
  | 0 => (0, 0)
  | k + 1 => if (ph len k).2 = len (ph len k).1 then ((ph len k).1 + 1, 0) else ((ph len k).1, (ph len k).2 + 1)

/-- The other calls at `at_ q`, ours at `at_ q + d`. -/
def sched (len : Nat → Nat) (at_ : Nat → Int) (d : Int) : Calls := fun k =>
  if (ph len k).2 = len (ph len k).1 then (true, at_ (ph len k).1 + d) else (false, at_ (ph len k).1)

theorem ph_le (len : Nat → Nat) : ∀ k, (ph len k).2 ≤ len (ph len k).1
  | 0 => Nat.zero_le _
  | k + 1 => by
    have := ph_le len k
    simp only [ph]
    split
    · exact Nat.zero_le _
    · dsimp only; omega

theorem ph_end (len : Nat → Nat) : ∀ (n k : Nat), (ph len k).2 + n = len (ph len k).1 →
    ph len (k + n) = ((ph len k).1, len (ph len k).1)
  | 0, k, h => Prod.ext rfl (by simpa using h)
  | n + 1, k, h => by
    have h1 : ph len (k + 1) = ((ph len k).1, (ph len k).2 + 1) := by
      simp only [ph]
      rw [if_neg (by omega)]
    have := ph_end len n (k + 1) (by rw [h1]; dsimp only; omega)
    rw [show k + (n + 1) = k + 1 + n by omega, this, h1]

/-- Every round comes, and our call in it. -/
theorem ph_round (len : Nat → Nat) : ∀ q, ∃ k, q ≤ k ∧ ph len k = (q, len q)
  | 0 => ⟨0 + len 0, Nat.zero_le _, by rw [ph_end len (len 0) 0 (by simp [ph])]; rfl⟩
  | q + 1 => by
    obtain ⟨k, hk, h⟩ := ph_round len q
    have h1 : ph len (k + 1) = (q + 1, 0) := by simp only [ph, h, if_true]
    refine ⟨k + 1 + len (q + 1), by omega, ?_⟩
    rw [ph_end len (len (q + 1)) (k + 1) (by rw [h1]; dsimp only; omega), h1]

theorem sched_keeps (len : Nat → Nat) (at_ : Nat → Int) (d : Int) (hd : 0 ≤ d) (ha : ∀ q, at_ q + d ≤ at_ (q + 1))
    (hu : ∀ q : Nat, (q : Int) ≤ at_ q) : Keeps (sched len at_ d) := by
  refine ⟨fun k => ?_, fun T m => ?_⟩
  · have h0 := ha (ph len k).1
    simp only [sched]
    by_cases h : (ph len k).2 = len (ph len k).1
    · have h1 : ph len (k + 1) = ((ph len k).1 + 1, 0) := by simp only [ph, h, if_true]
      rw [if_pos h, h1]
      split <;> dsimp only <;> omega
    · have h1 : ph len (k + 1) = ((ph len k).1, (ph len k).2 + 1) := by simp only [ph]; rw [if_neg h]
      rw [if_neg h, h1]
      split <;> dsimp only <;> omega
  · obtain ⟨k, hk, h⟩ := ph_round len (max m T.toNat)
    refine ⟨k, by omega, by simp [sched, h], ?_⟩
    simp only [sched, h, if_true]
    have := hu (max m T.toNat)
    omega

/-- If the states are `inv` at every phase and ours are refused, we never get through. -/
theorem never {σ : Type} (f : σ → Int → σ × Bool) (s : σ) (len : Nat → Nat) (at_ : Nat → Int) (d : Int) (inv : Nat → Nat → σ)
    (h0 : inv 0 0 = s)
    (hb : ∀ q i, i < len q → (f (inv q i) (at_ q)).1 = inv q (i + 1))
    (ha : ∀ q, f (inv q (len q)) (at_ q + d) = (inv (q + 1) 0, false)) : ¬ GetsThrough f s (sched len at_ d) := by
  have hs : ∀ k, before f s (sched len at_ d) k = inv (ph len k).1 (ph len k).2 := by
    intro k
    induction k with
    | zero => exact h0.symm
    | succ k ih =>
      simp only [before, ih]
      by_cases h : (ph len k).2 = len (ph len k).1
      · have h1 : ph len (k + 1) = ((ph len k).1 + 1, 0) := by simp only [ph, h, if_true]
        rw [h1]
        simp only [sched, h, if_true, ha]
      · have h1 : ph len (k + 1) = ((ph len k).1, (ph len k).2 + 1) := by simp only [ph]; rw [if_neg h]
        rw [h1]
        simp only [sched, h, if_false]
        exact hb _ _ (by have := ph_le len k; omega)
  rintro ⟨k, hk, h⟩
  have hp : (ph len k).2 = len (ph len k).1 := by
    by_cases hp : (ph len k).2 = len (ph len k).1
    · exact hp
    · simp [sched, hp] at hk
  simp only [answer, hs, sched, hp, if_true, ha] at h
  cases h

/-! ### Violations -/

theorem slid_part (c : Nat) (W B : Int) (i : Nat) (hi : i < c) :
    sliding ⟨c, W, List.replicate i B⟩ B = (⟨c, W, List.replicate (i + 1) B⟩, true) := by
  have h0 : ¬ c = 0 := by omega
  have h1 : (i : Int) < c := by omega
  simp [sliding, SlidingWindow.acquire, h0, h1, List.replicate_succ']

theorem slid_move (c : Nat) (W A B : Int) (i : Nat) (hi : i < c) (hd : B - A > W) :
    sliding ⟨c, W, List.replicate (c - i) A ++ List.replicate i B⟩ B =
      (⟨c, W, List.replicate (c - (i + 1)) A ++ List.replicate (i + 1) B⟩, true) := by
  obtain ⟨n, hn⟩ : ∃ n, c - i = n + 1 := ⟨c - i - 1, by omega⟩
  have h0 : ¬ (c : Int) = 0 := by omega
  have h1 : ¬ (((List.replicate (n + 1) A ++ List.replicate i B).length : Nat) : Int) < (c : Int) := by
    simp only [List.length_append, List.length_replicate]; omega
  rw [hn, show c - (i + 1) = n by omega]
  simp only [sliding, SlidingWindow.acquire, h0, h1, if_false]
  simp only [List.replicate_succ, List.cons_append, hd, if_true]
  rw [← List.replicate_succ, List.replicate_succ', List.append_assoc]

theorem slid_ref (c : Nat) (W B t : Int) (hc : 1 ≤ c) (hd : t - B ≤ W) :
    sliding ⟨c, W, List.replicate c B⟩ t = (⟨c, W, List.replicate c B⟩, false) := by
  obtain ⟨n, rfl⟩ : ∃ n, c = n + 1 := ⟨c - 1, by omega⟩
  have h0 : ¬ ((n + 1 : Nat) : Int) = 0 := by omega
  have h1 : ¬ (((List.replicate (n + 1) B).length : Nat) : Int) < ((n + 1 : Nat) : Int) := by simp
  have h2 : ¬ t - B > W := by omega
  simp only [sliding, SlidingWindow.acquire, h0, h1, if_false]
  simp only [List.replicate_succ, h2, if_false]

/-- **C179**, violated for every sliding window: the other caller takes the `c` places whenever they are free. -/
theorem C179_sliding_violated (c : Nat) (hc : 1 ≤ c) (W : Int) (hW : 1 ≤ W) : ¬ C179Claim sliding (SlidingWindow.new c W) := by
  intro h
  refine never sliding (SlidingWindow.new c W) (fun _ => c) (fun q => q * (W + 1)) 1
    (fun q i => ⟨c, W, (if q = 0 then [] else List.replicate (c - i) (((q : Int) - 1) * (W + 1))) ++ List.replicate i ((q : Int) * (W + 1))⟩)
    ?_ ?_ ?_ (h _ (sched_keeps _ _ 1 (by omega) ?_ ?_))
  · have : ¬ (c : Int) < 0 := by omega
    simp [SlidingWindow.new, this]
  · intro q i hi
    cases q with
    | zero => simp only [if_true, List.nil_append]; rw [slid_part c W _ i hi]
    | succ q =>
      simp only [Nat.succ_ne_zero, if_false]
      rw [slid_move c W _ _ i hi]
      push_cast
      have : ((q : Int) + 1) * (W + 1) - ((q : Int) + 1 - 1) * (W + 1) = W + 1 := by ring
      omega
  · intro q
    have e1 : (if q = 0 then [] else List.replicate (c - c) (((q : Int) - 1) * (W + 1))) ++ List.replicate c ((q : Int) * (W + 1)) =
        List.replicate c ((q : Int) * (W + 1)) := by split <;> simp
    have e2 : (if q + 1 = 0 then [] else List.replicate (c - 0) ((((q + 1 : Nat) : Int) - 1) * (W + 1))) ++
        List.replicate 0 (((q + 1 : Nat) : Int) * (W + 1)) = List.replicate c ((q : Int) * (W + 1)) := by
      simp
    rw [e1, e2, slid_ref c W _ _ hc (by omega)]
  · intro q
    push_cast
    have : ((q : Int) + 1) * (W + 1) = q * (W + 1) + (W + 1) := by ring
    omega
  · intro q
    have h1 : (q : Int) * (W + 1) = q * W + q := by ring
    have h2 : 0 ≤ (q : Int) * W := Int.mul_nonneg (by omega) (by omega)
    omega

theorem bk_same (s : TokenBucket.State) (t : Int) (h0 : 0 ≤ t - s.last) (h1 : t - s.last < 1000000000) :
    TokenBucket.acquire s t = if s.tokens > 0 then ({ s with tokens := s.tokens - 1 }, true) else (s, false) := by
  have hd : Int.tdiv (t - s.last) TokenBucket.second * s.rate = 0 := by
    show Int.tdiv (t - s.last) 1000000000 * s.rate = 0
    rw [Int.tdiv_eq_zero_of_lt h0 h1, Int.zero_mul]
  have : TokenBucket.issueIfNecessary s t = s := by
    simp only [TokenBucket.issueIfNecessary, hd, if_true]
    split <;> rfl
  simp only [TokenBucket.acquire, this]

theorem bk_fill (c r : Nat) (hc : 1 ≤ c) (hr : 1 ≤ r) (l : Int) :
    TokenBucket.acquire ⟨c, 0, r, l⟩ (l + 1000000000) = (⟨c, (min c r : Nat) - 1, r, l + 1000000000⟩, true) := by
  have hd : Int.tdiv (l + 1000000000 - l) TokenBucket.second * (r : Int) = r := by
    rw [show l + 1000000000 - l = 1000000000 by omega]
    have : Int.tdiv 1000000000 TokenBucket.second = 1 := by decide
    rw [this, Int.one_mul]
  have h0 : ¬ (0 : Int) ≥ c := by omega
  have h1 : ¬ (r : Int) = 0 := by omega
  have hi : TokenBucket.issueIfNecessary ⟨c, 0, r, l⟩ (l + 1000000000) = ⟨c, (min c r : Nat), r, l + 1000000000⟩ := by
    simp only [TokenBucket.issueIfNecessary, hd, h0, h1, if_false]
    congr 1
    split <;> omega
  have h2 : ((min c r : Nat) : Int) > 0 := by omega
  simp only [TokenBucket.acquire, hi, h2, if_true]

/-- **C179**, violated for every token bucket: the other caller takes the tokens whenever there are some. -/
theorem C179_bucket_violated (c r : Nat) (hc : 1 ≤ c) (hr : 1 ≤ r) : ¬ C179Claim TokenBucket.acquire (TokenBucket.new c r 0) := by
  intro h
  refine never TokenBucket.acquire (TokenBucket.new c r 0) (fun q => if q = 0 then c else min c r) (fun q => q * 1000000000) 1
    (fun q i => if q = 0 then ⟨c, c - i, r, 0⟩ else if i = 0 then ⟨c, 0, r, ((q : Int) - 1) * 1000000000⟩
      else ⟨c, (min c r : Nat) - i, r, q * 1000000000⟩)
    ?_ ?_ ?_ (h _ (sched_keeps _ _ 1 (by omega) ?_ ?_))
  · simp [TokenBucket.new]
  · intro q i hi
    cases q with
    | zero =>
      simp only [if_true] at hi ⊢
      rw [bk_same _ _ (by simp) (by simp)]
      have : (c : Int) - i > 0 := by omega
      simp only [this, if_true]
      congr 1
      push_cast
      omega
    | succ q =>
      simp only [Nat.succ_ne_zero, if_false] at hi ⊢
      by_cases h0 : i = 0
      · subst h0
        simp only [if_true]
        have e : ((q + 1 : Nat) : Int) * 1000000000 = (((q + 1 : Nat) : Int) - 1) * 1000000000 + 1000000000 := by push_cast; ring
        rw [e, bk_fill c r hc hr]
        simp
      · simp only [h0, if_false]
        rw [bk_same _ _ (by simp) (by simp)]
        have : ((min c r : Nat) : Int) - i > 0 := by omega
        simp only [this, if_true]
        congr 1
        push_cast
        omega
  · intro q
    cases q with
    | zero =>
      simp only [if_true]
      rw [bk_same _ _ (by simp) (by simp)]
      have : ¬ (c : Int) - c > 0 := by omega
      simp
    | succ q =>
      have hm : ¬ min c r = 0 := by omega
      simp only [Nat.succ_ne_zero, if_false, hm]
      rw [bk_same _ _ (by simp) (by simp)]
      simp
  · intro q
    push_cast
    omega
  · intro q
    omega

/-- **C179**, violated for every fixed window of less than `2 ^ 53` ns (104 days). -/
theorem C179_fixed_violated (c : Nat) (hc : 1 ≤ c) (W : Int) (hW : 1 ≤ W) (hW2 : W < 2 ^ 53) :
    ¬ C179Claim FixedWindow.acquire (FixedWindow.new c W) := by
  intro h
  refine never FixedWindow.acquire (FixedWindow.new c W) (fun _ => c) (fun q => q * W + 1) 0
    (fun q i => if i = 0 then ⟨c, W, q * W, if q = 0 then 0 else c⟩ else ⟨c, W, ((q : Int) + 1) * W, i⟩)
    ?_ ?_ ?_ (h _ (sched_keeps _ _ 0 (by omega) ?_ ?_))
  · simp [FixedWindow.new]
  · intro q i hi
    by_cases h0 : i = 0
    · subst h0
      have hn : ¬ FixedWindow.contains ⟨c, W, q * W, if q = 0 then 0 else c⟩ ((q : Int) * W + 1) := by
        simp only [FixedWindow.contains]; omega
      have hg : FixedWindow.goCeilDiv ((q : Int) * W + 1 - q * W) W = 1 := by
        rw [show (q : Int) * W + 1 - q * W = 1 by omega]
        exact FixedWindow.goCeilDiv_small 1 W 1 (by omega) (by norm_num) (by omega) hW2 (by omega) (by omega)
      have hp : (0 : Int) < c := by omega
      simp only [if_true, FixedWindow.acquire, hn, not_false_eq_true, FixedWindow.reset, if_false, hg, hp]
      simp only [Nat.add_eq_zero_iff, Nat.one_ne_zero, and_false, if_false]
      congr 1
      ring
    · have hn : FixedWindow.contains ⟨c, W, ((q : Int) + 1) * W, i⟩ ((q : Int) * W + 1) := by
        simp only [FixedWindow.contains]
        have : ((q : Int) + 1) * W = q * W + W := by ring
        omega
      have hp : (i : Int) < c := by omega
      simp only [h0, if_false, FixedWindow.acquire, hn, not_true_eq_false, hp, if_true]
      simp
  · intro q
    have h0 : ¬ c = 0 := by omega
    have hn : FixedWindow.contains ⟨c, W, ((q : Int) + 1) * W, c⟩ ((q : Int) * W + 1 + 0) := by
      simp only [FixedWindow.contains]
      have : ((q : Int) + 1) * W = q * W + W := by ring
      omega
    simp only [h0, if_false, FixedWindow.acquire, hn, not_true_eq_false, Int.lt_irrefl]
    simp
  · intro q
    push_cast
    have : ((q : Int) + 1) * W = q * W + W := by ring
    omega
  · intro q
    have h1 : (q : Int) * 1 ≤ q * W := Int.mul_le_mul_of_nonneg_left hW (by omega)
    omega

/-! ### When the others stop -/

/-- From some call on only our caller calls. -/
def OthersStop (call : Calls) : Prop := ∃ m, ∀ k, m ≤ k → (call k).1 = true

theorem still {σ : Type} (f : σ → Int → σ × Bool) (s : σ) (call : Calls) (m : Nat)
    (hd : ∀ k, m ≤ k → answer f s call k = false → before f s call (k + 1) = before f s call k)
    (hn : ∀ k, m ≤ k → answer f s call k = false) : ∀ n, before f s call (m + n) = before f s call m
  | 0 => rfl
  | n + 1 => by
    rw [← still f s call m hd hn n]
    exact hd (m + n) (by omega) (hn _ (by omega))

theorem sliding_refused (s : SlidingWindow.State) (t : Int) (h : (sliding s t).2 = false) : (sliding s t).1 = s := by
  revert h
  simp only [sliding, SlidingWindow.acquire]
  split
  · next x hx =>
    intro h'
    split at hx
    · cases hx; cases h'
    · split at hx
      · cases hx; cases h'
      · split at hx
        · cases hx
        · split at hx
          · cases hx; cases h'
          · cases hx; rfl
  · intro h'; cases h'

/-- **C179**, partial: when the others stop, the caller gets through; sliding window. -/
theorem C179_sliding_partial (c W : Int) (call : Calls) (hk : Keeps call) (ho : OthersStop call) :
    GetsThrough sliding (SlidingWindow.new c W) call := by
  apply Classical.byContradiction
  intro hno
  obtain ⟨m, hm⟩ := ho
  have hn : ∀ k, m ≤ k → answer sliding (SlidingWindow.new c W) call k = false := by
    intro k hmk
    cases ha : answer sliding (SlidingWindow.new c W) call k with
    | false => rfl
    | true => exact absurd ⟨k, hm k hmk, ha⟩ hno
  have hst := still sliding (SlidingWindow.new c W) call m (fun k _ h => sliding_refused _ _ h) hn
  generalize before sliding (SlidingWindow.new c W) call m = s at hst
  obtain ⟨k, hk1, _, hk3⟩ := hk.2 (s.records.headD 0 + s.windowSize + 1) m
  have h1 := hn k hk1
  have h2 := hst (k - m)
  rw [show m + (k - m) = k by omega] at h2
  simp only [answer, h2, sliding, SlidingWindow.acquire] at h1
  split at h1
  · next x hx =>
    split at hx
    · cases hx; cases h1
    · split at hx
      · cases hx; cases h1
      · split at hx
        · cases hx
        · next o rest hr =>
          rw [hr] at hk3
          simp only [List.headD_cons] at hk3
          rw [if_pos (by omega)] at hx
          cases hx; cases h1
  · cases h1

/-- **C179**, partial: fixed window. -/
theorem C179_fixed_partial (c W : Int) (hc : 1 ≤ c) (call : Calls) (hk : Keeps call) (ho : OthersStop call) :
    GetsThrough FixedWindow.acquire (FixedWindow.new c W) call := by
  apply Classical.byContradiction
  intro hno
  obtain ⟨m, hm⟩ := ho
  have hn : ∀ k, m ≤ k → answer FixedWindow.acquire (FixedWindow.new c W) call k = false := by
    intro k hmk
    cases ha : answer FixedWindow.acquire (FixedWindow.new c W) call k with
    | false => rfl
    | true => exact absurd ⟨k, hm k hmk, ha⟩ hno
  have hcap : ∀ k, (before FixedWindow.acquire (FixedWindow.new c W) call k).capacity = c := by
    intro k
    induction k with
    | zero => rfl
    | succ k ih =>
      have : ∀ (s : FixedWindow.State) t, (FixedWindow.acquire s t).1.capacity = s.capacity := by
        intro s t
        simp only [FixedWindow.acquire, FixedWindow.reset]
        repeat' split
        all_goals rfl
      simp only [before, this, ih]
  have key : ∀ k, m ≤ k → (call k).2 ≤ (before FixedWindow.acquire (FixedWindow.new c W) call k).till ∧
      before FixedWindow.acquire (FixedWindow.new c W) call (k + 1) = before FixedWindow.acquire (FixedWindow.new c W) call k := by
    intro k hmk
    have ha := hn k hmk
    have hck := hcap k
    simp only [answer] at ha
    simp only [before]
    revert ha hck
    generalize before FixedWindow.acquire (FixedWindow.new c W) call k = s
    intro ha hck
    by_cases hct : FixedWindow.contains s (call k).2
    · refine ⟨hct, ?_⟩
      revert ha
      simp only [FixedWindow.acquire, hct, not_true_eq_false, if_false]
      split
      · intro h; cases h
      · intro _; rfl
    · exfalso
      have h0 : (0 : Int) < s.capacity := by omega
      simp only [FixedWindow.acquire, FixedWindow.reset, hct, not_false_eq_true, if_true, if_false, h0] at ha
      cases ha
  have hst := still FixedWindow.acquire (FixedWindow.new c W) call m (fun k h _ => (key k h).2) hn
  obtain ⟨k, hk1, _, hk3⟩ := hk.2 ((before FixedWindow.acquire (FixedWindow.new c W) call m).till + 1) m
  have h1 := (key k hk1).1
  have h2 := hst (k - m)
  rw [show m + (k - m) = k by omega] at h2
  rw [h2] at h1
  omega

/-- **C179**, partial: token bucket. -/
theorem C179_bucket_partial (c r t0 : Int) (hc : 1 ≤ c) (hr : 1 ≤ r) (call : Calls) (h0 : t0 ≤ (call 0).2) (hk : Keeps call)
    (ho : OthersStop call) : GetsThrough TokenBucket.acquire (TokenBucket.new c r t0) call := by
  apply Classical.byContradiction
  intro hno
  obtain ⟨m, hm⟩ := ho
  have hn : ∀ k, m ≤ k → answer TokenBucket.acquire (TokenBucket.new c r t0) call k = false := by
    intro k hmk
    cases ha : answer TokenBucket.acquire (TokenBucket.new c r t0) call k with
    | false => rfl
    | true => exact absurd ⟨k, hm k hmk, ha⟩ hno
  have inv : ∀ k, (before TokenBucket.acquire (TokenBucket.new c r t0) call k).capacity = c ∧
      (before TokenBucket.acquire (TokenBucket.new c r t0) call k).rate = r ∧
      (before TokenBucket.acquire (TokenBucket.new c r t0) call k).last ≤ (call k).2 ∧
      0 ≤ (before TokenBucket.acquire (TokenBucket.new c r t0) call k).tokens := by
    intro k
    induction k with
    | zero => exact ⟨rfl, rfl, h0, by simp only [before, TokenBucket.new]; omega⟩
    | succ k ih =>
      obtain ⟨i1, i2, i3, i4⟩ := ih
      have hmono := hk.1 k
      obtain ⟨e1, e2, e3, e4, _⟩ := bucket_issue _ _ i3 (by omega) (.inl i4)
      simp only [before]
      revert e1 e2 e3 e4 i1 i2 i3 i4
      generalize before TokenBucket.acquire (TokenBucket.new c r t0) call k = s
      intro i1 i2 i3 i4 e1 e2 e3 e4
      simp only [TokenBucket.acquire]
      split
      · next hp => exact ⟨by dsimp only; omega, by dsimp only; omega, by dsimp only; omega, by dsimp only; omega⟩
      · exact ⟨by dsimp only; omega, by dsimp only; omega, by dsimp only; omega, by dsimp only; omega⟩
  have hd : ∀ k, m ≤ k → answer TokenBucket.acquire (TokenBucket.new c r t0) call k = false →
      before TokenBucket.acquire (TokenBucket.new c r t0) call (k + 1) = before TokenBucket.acquire (TokenBucket.new c r t0) call k := by
    intro k _ ha
    obtain ⟨i1, i2, i3, i4⟩ := inv k
    obtain ⟨_, _, _, _, e5⟩ := bucket_issue _ _ i3 (by omega) (.inl i4)
    simp only [answer, TokenBucket.acquire] at ha
    simp only [before, TokenBucket.acquire]
    split
    · next hp => rw [if_pos hp] at ha; cases ha
    · exact e5 (by omega)
  have hst := still TokenBucket.acquire (TokenBucket.new c r t0) call m hd hn
  obtain ⟨k, hk1, _, hk3⟩ := hk.2 ((before TokenBucket.acquire (TokenBucket.new c r t0) call m).last + 1000000000) m
  have h2 := hst (k - m)
  rw [show m + (k - m) = k by omega] at h2
  have ha := hn k hk1
  obtain ⟨i1, i2, i3, i4⟩ := inv k
  simp only [answer] at ha
  rw [← h2] at hk3
  revert ha i1 i2 i3 i4 hk3
  generalize before TokenBucket.acquire (TokenBucket.new c r t0) call k = s
  intro hk3 ha i1 i2 i3 i4
  have hq : 1 ≤ Int.tdiv ((call k).2 - s.last) TokenBucket.second := by
    rw [Int.tdiv_eq_ediv_of_nonneg (by omega)]
    exact (Int.le_ediv_iff_mul_le (by decide)).2 (by simp only [TokenBucket.second]; omega)
  have hdelta : 1 ≤ Int.tdiv ((call k).2 - s.last) TokenBucket.second * s.rate := by
    have := Int.mul_le_mul hq (show (1 : Int) ≤ s.rate by omega) (by omega) (by omega)
    omega
  have hpos : (TokenBucket.issueIfNecessary s (call k).2).tokens > 0 := by
    simp only [TokenBucket.issueIfNecessary]
    split
    · omega
    · rw [if_neg (by omega)]
      dsimp only
      split <;> omega
  have : (TokenBucket.acquire s (call k).2).2 = true := by simp only [TokenBucket.acquire, hpos, if_true]
  rw [this] at ha
  cases ha

/-- Non-vacuity: a caller alone that tries at every nanosecond. -/
example : Keeps (fun k => (true, (k : Int))) ∧ OthersStop (fun k => (true, (k : Int))) :=
  ⟨⟨fun k => by dsimp only; omega, fun T m => ⟨m + T.toNat, by omega, rfl, by dsimp only; omega⟩⟩, 0, fun _ _ => rfl⟩

/-- Non-vacuity: two refused tries of ours in the schedule of C179_sliding_violated, for capacity 1 and a window of 10. -/
example : (List.range 4).map (fun k => (sched (fun _ => 1) (fun q => q * 11) 1 k,
      answer sliding (SlidingWindow.new 1 10) (sched (fun _ => 1) (fun q => q * 11) 1) k)) =
    [((false, 0), true), ((true, 1), false), ((false, 11), true), ((true, 12), false)] := by decide

end Gears.Conform.Starve
