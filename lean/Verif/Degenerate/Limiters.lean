import Verif.TokenBucket.Props
import Verif.AtomicBucket.Model
import Verif.FixedWindow.Lemmas
import Verif.SlidingWindow.Lemmas

/-
The rate limiters (ratelimiter/tokenbucket.go:34-177, fixedwindow.go:49-104, slidingwindow.go:42-87) with parameters that
are zero or negative: the constructors take every int.
-/

namespace Gears.Degenerate

open TokenBucket (second)

/-- **C148**, the claim for the limiters: with a capacity of zero or less no limiter admits a call. -/
def C148Claim : Prop :=
  ∀ (c : Int), c ≤ 0 →
    (∀ (r t0 : Int) (ts : List Int), admitted (TokenBucket.run (TokenBucket.new c r t0) ts).2 = 0) ∧
    (∀ (r t0 : Int) (n : Nat) (as : List AtomicBucket.Action) (s : AtomicBucket.State),
      exec AtomicBucket.step (AtomicBucket.init c r t0 n) as = some s → s.admitted = 0) ∧
    (∀ (W : Int) (ts : List Int), admitted (FixedWindow.run (FixedWindow.new c W) ts).2 = 0) ∧
    (∀ (W : Int) (ts : List Int) (s : SlidingWindow.State) (h : History),
      SlidingWindow.run (SlidingWindow.new c W) (SlidingWindow.acquires ts) = some (s, h) → admitted h = 0)

/-! ### Capacity -/

/-- **C148, partial**: a sync bucket of capacity zero or less refuses every call, whatever the rate and the clock. -/
theorem C148_bucket_capacity_partial (c r t0 : Int) (hc : c ≤ 0) (ts : List Int) :
    TokenBucket.run (TokenBucket.new c r t0) ts = (TokenBucket.new c r t0, ts.map (·, false)) := by
  induction ts with
  | nil => rfl
  | cons t ts ih =>
    have : TokenBucket.acquire (TokenBucket.new c r t0) t = (TokenBucket.new c r t0, false) := by
      simp [TokenBucket.acquire, TokenBucket.issueIfNecessary, TokenBucket.new, hc]
    simp only [TokenBucket.run, this, ih, List.map_cons]

/-- **C148, partial**: so does an atomic bucket, with any number of goroutines. -/
theorem C148_atomic_capacity_partial (c r t0 : Int) (hc : c ≤ 0) (n : Nat) (as : List AtomicBucket.Action) (s : AtomicBucket.State)
    (h : exec AtomicBucket.step (AtomicBucket.init c r t0 n) as = some s) : ∀ b ∈ s.log, b = false := by
  let I : AtomicBucket.State → Prop := fun s => s.capacity = c ∧ s.tokens = c ∧ (∀ b ∈ s.log, b = false) ∧
    ∀ p ∈ s.pcs, p = .idle ∨ p = .issLoadTok ∨ p = .acqLoad
  have inv : I s := by
    refine exec_inv (I := I) ?_ as _ s ?_ h
    · rintro s a s' ⟨h1, h2, h3, h4⟩ hs
      have hset : ∀ (i : Nat) (q : AtomicBucket.PC), (q = .idle ∨ q = .issLoadTok ∨ q = .acqLoad) →
          ∀ p ∈ s.pcs.set i q, p = .idle ∨ p = .issLoadTok ∨ p = .acqLoad := by
        intro i q hq p hp
        rcases List.mem_or_eq_of_mem_set hp with hp | rfl
        · exact h4 p hp
        · exact hq
      cases a with
      | tick d =>
        simp only [AtomicBucket.step, Option.some.injEq] at hs
        subst hs
        exact ⟨h1, h2, h3, h4⟩
      | call i =>
        simp only [AtomicBucket.step] at hs
        split at hs
        · simp only [Option.some.injEq] at hs
          subst hs
          exact ⟨h1, h2, h3, hset i _ (Or.inr (Or.inl rfl))⟩
        · simp at hs
      | run i =>
        simp only [AtomicBucket.step] at hs
        split at hs
        · rename_i p hp
          rcases h4 p (List.mem_of_getElem? hp) with rfl | rfl | rfl
          · simp [AtomicBucket.runPc] at hs
          · rw [AtomicBucket.runPc, if_pos (by omega), Option.some.injEq] at hs
            subst hs
            exact ⟨h1, h2, h3, hset i _ (Or.inr (Or.inr rfl))⟩
          · rw [AtomicBucket.runPc, if_neg (by omega), Option.some.injEq] at hs
            subst hs
            refine ⟨h1, h2, ?_, hset i _ (Or.inl rfl)⟩
            intro b hb
            simp only [AtomicBucket.State.setPc, List.mem_append, List.mem_singleton] at hb
            rcases hb with hb | hb
            · exact h3 b hb
            · exact hb
        · simp at hs
    · refine ⟨rfl, rfl, by simp [AtomicBucket.init], ?_⟩
      intro p hp
      simp only [AtomicBucket.init, List.mem_replicate] at hp
      exact Or.inl hp.2
  exact inv.2.2.1

/-- **C148, partial**: a fixed window of capacity zero or less refuses every call, whatever its size. -/
theorem C148_fixed_capacity_partial (c : Int) (hc : c ≤ 0) (ts : List Int) : ∀ (s : FixedWindow.State), s.capacity = c → s.count = 0 →
    (FixedWindow.run s ts).2 = ts.map (·, false) := by
  induction ts with
  | nil => intros; rfl
  | cons t ts ih =>
    intro s h1 h2
    have : (FixedWindow.acquire s t).2 = false ∧ (FixedWindow.acquire s t).1.capacity = c ∧ (FixedWindow.acquire s t).1.count = 0 := by
      unfold FixedWindow.acquire
      by_cases hk : FixedWindow.contains s t
      · simp only [hk, not_true_eq_false, if_false]
        rw [if_neg (by omega)]
        exact ⟨rfl, h1, h2⟩
      · simp only [hk, not_false_eq_true, if_true, FixedWindow.reset, if_false]
        rw [if_neg (by omega)]
        exact ⟨rfl, h1, rfl⟩
    simp only [FixedWindow.run, List.map_cons, this.1, ih _ this.2.1 this.2.2]

/-- **C148 is violated**: a sliding window of capacity zero or less admits every call. -/
theorem C148_sliding_capacity_violated (c W : Int) (hc : c ≤ 0) (ts : List Int) :
    SlidingWindow.run (SlidingWindow.new c W) (SlidingWindow.acquires ts) = some (SlidingWindow.new c W, ts.map (·, true)) := by
  have hcap : (SlidingWindow.new c W).capacity = 0 := by simp only [SlidingWindow.new]; split <;> omega
  induction ts with
  | nil => rfl
  | cons t ts ih =>
    have : SlidingWindow.acquire (SlidingWindow.new c W) t = some (SlidingWindow.new c W, true) := by
      unfold SlidingWindow.acquire
      rw [if_pos hcap]
    simp only [SlidingWindow.acquires, List.map_cons, SlidingWindow.run, this] at ih ⊢
    rw [ih]

/-- The claim does not hold. -/
theorem C148_violated : ¬ C148Claim := by
  intro h
  have := (h 0 (Int.le_refl _)).2.2.2 0 [0] _ _ (C148_sliding_capacity_violated 0 0 (Int.le_refl _) [0])
  simp [admitted] at this

/-! ### Rate -/

/-- A bucket with rate zero admits its first `c` calls and no others, whatever the clock. -/
theorem C148_rate_zero (c t0 : Int) (ts : List Int) : ∀ (k : Int),
    (TokenBucket.run ⟨c, k, 0, t0⟩ ts).2 = ts.mapIdx (fun i t => (t, decide ((i : Int) < k))) := by
  induction ts with
  | nil => intro k; rfl
  | cons t ts ih =>
    intro k
    have hi : TokenBucket.issueIfNecessary ⟨c, k, 0, t0⟩ t = ⟨c, k, 0, t0⟩ := by
      simp [TokenBucket.issueIfNecessary]
    by_cases hk : 0 < k
    · have : TokenBucket.acquire ⟨c, k, 0, t0⟩ t = (⟨c, k - 1, 0, t0⟩, true) := by
        simp [TokenBucket.acquire, hi, hk]
      simp only [TokenBucket.run, this, ih, List.mapIdx_cons, hk, decide_true, Int.natCast_zero]
      congr 1
      apply List.mapIdx_eq_mapIdx_iff.2
      intro i _
      congr 1
      rw [decide_eq_decide]
      push_cast
      omega
    · have : TokenBucket.acquire ⟨c, k, 0, t0⟩ t = (⟨c, k, 0, t0⟩, false) := by
        simp [TokenBucket.acquire, hi, hk]
      simp only [TokenBucket.run, this, ih, List.mapIdx_cons, hk, decide_false, Int.natCast_zero]
      congr 1
      apply List.mapIdx_eq_mapIdx_iff.2
      intro i _
      congr 1
      rw [decide_eq_decide]
      push_cast
      omega

theorem no_more (r : Int) (hr : r ≤ 0) (ts : List Int) : ∀ (s : TokenBucket.State), s.rate = r → NonDecreasing (s.last :: ts) →
    (admitted (TokenBucket.run s ts).2 : Int) ≤ max s.tokens 0 := by
  induction ts with
  | nil => intro s _ _; simp [TokenBucket.run, admitted]
  | cons t ts ih =>
    intro s h1 h2
    have ho := List.pairwise_cons.1 h2
    have ho2 := List.pairwise_cons.1 ho.2
    have hl := ho.1 t List.mem_cons_self
    have hi : (TokenBucket.issueIfNecessary s t).tokens ≤ s.tokens ∧ (TokenBucket.issueIfNecessary s t).rate = r ∧
        ((TokenBucket.issueIfNecessary s t).last = s.last ∨ (TokenBucket.issueIfNecessary s t).last = t) := by
      have hq : 0 ≤ Int.tdiv (t - s.last) second := Int.tdiv_nonneg (by omega) (by decide)
      have hd : Int.tdiv (t - s.last) second * s.rate ≤ 0 := Int.mul_nonpos_of_nonneg_of_nonpos hq (by omega)
      unfold TokenBucket.issueIfNecessary
      dsimp only
      split
      · exact ⟨Int.le_refl _, h1, Or.inl rfl⟩
      · split
        · exact ⟨Int.le_refl _, h1, Or.inl rfl⟩
        · refine ⟨?_, h1, Or.inr rfl⟩
          simp only
          split <;> omega
    have hord : NonDecreasing ((TokenBucket.issueIfNecessary s t).last :: ts) := by
      refine List.pairwise_cons.2 ⟨fun x hx => ?_, ho2.2⟩
      have := ho2.1 x hx
      rcases hi.2.2 with e | e <;> omega
    by_cases hp : (TokenBucket.issueIfNecessary s t).tokens > 0
    · have ha : TokenBucket.acquire s t =
          ({ TokenBucket.issueIfNecessary s t with tokens := (TokenBucket.issueIfNecessary s t).tokens - 1 }, true) := by
        unfold TokenBucket.acquire
        dsimp only
        rw [if_pos hp]
      have := ih { TokenBucket.issueIfNecessary s t with tokens := (TokenBucket.issueIfNecessary s t).tokens - 1 } hi.2.1 hord
      simp only at this
      simp only [TokenBucket.run, ha]
      rw [TokenBucket.admitted_cons]
      simp only [if_true]
      push_cast
      omega
    · have ha : TokenBucket.acquire s t = (TokenBucket.issueIfNecessary s t, false) := by
        unfold TokenBucket.acquire
        dsimp only
        rw [if_neg hp]
      have := ih _ hi.2.1 hord
      simp only [TokenBucket.run, ha]
      rw [TokenBucket.admitted_cons]
      simp only [Bool.false_eq_true, if_false]
      push_cast
      omega

/-- A bucket with a rate of zero or less admits at most its capacity in all, on a clock that does not go back. -/
theorem C148_rate_bound (c r t0 : Int) (hr : r ≤ 0) (ts : List Int) (hm : NonDecreasing (t0 :: ts)) :
    (admitted (TokenBucket.run (TokenBucket.new c r t0) ts).2 : Int) ≤ max c 0 :=
  no_more r hr ts _ rfl hm

/-- With a negative rate it may let fewer pass: what it has not given yet is lost as time passes. -/
theorem C148_rate_negative (c r t0 t : Int) (hc : 1 ≤ c) (ht : c - 1 + r * ((t - t0) / second) ≤ 0) (h0 : t0 ≤ t) :
    (TokenBucket.run (TokenBucket.new c r t0) [t0, t]).2 = [(t0, true), (t, false)] := by
  have hd : Int.tdiv (t - t0) second = (t - t0) / second := Int.tdiv_eq_ediv_of_nonneg (by omega)
  have a0 : TokenBucket.acquire (TokenBucket.new c r t0) t0 = (⟨c, c - 1, r, t0⟩, true) := by
    have : TokenBucket.issueIfNecessary (TokenBucket.new c r t0) t0 = TokenBucket.new c r t0 := by
      simp [TokenBucket.issueIfNecessary, TokenBucket.new]
    unfold TokenBucket.acquire
    rw [this]
    dsimp only [TokenBucket.new]
    rw [if_pos (by omega)]
  have e1 : (TokenBucket.acquire ⟨c, c - 1, r, t0⟩ t).2 = false := by
    unfold TokenBucket.acquire TokenBucket.issueIfNecessary
    dsimp only
    rw [hd, Int.mul_comm _ r]
    simp only [show ¬ (c - 1 ≥ c) by omega, if_false]
    by_cases hz : r * ((t - t0) / second) = 0
    · simp only [hz, if_true]
      rw [if_neg (by omega)]
    · simp only [hz, if_false]
      rw [if_neg (by split <;> omega)]
  simp only [TokenBucket.run, a0, e1]

/-! ### Windows -/

/-- A fixed window of size zero admits every call when its capacity is at least one: the division by zero in line 102 makes an
infinity, whose conversion to int64 is some number, which is multiplied by the size, zero. -/
theorem C148_fixed_window_zero (c : Int) (hc : 1 ≤ c) (ts : List Int) (hp : ∀ t ∈ ts, 0 < t) : ∀ (s : FixedWindow.State),
    s.capacity = c → s.windowSize = 0 → s.till = 0 → (FixedWindow.run s ts).2 = ts.map (·, true) := by
  induction ts with
  | nil => intros; rfl
  | cons t ts ih =>
    intro s h1 h2 h3
    have ht := hp t List.mem_cons_self
    have ha : FixedWindow.acquire s t = (⟨c, 0, 0, 1⟩, true) := by
      have hk : ¬ FixedWindow.contains s t := by unfold FixedWindow.contains; omega
      unfold FixedWindow.acquire FixedWindow.reset
      obtain ⟨c', W', u, k⟩ := s
      simp only at h1 h2 h3
      subst h1 h2 h3
      simp only [hk, not_false_eq_true, if_true, if_false, Int.mul_zero, Int.add_zero]
      rw [if_pos (by omega)]
      rfl
    simp only [FixedWindow.run, ha, List.map_cons]
    rw [ih (fun x hx => hp x (List.mem_cons_of_mem _ hx)) _ rfl rfl rfl]

open Float64 FixedWindow in
/-- The expression of line 102 with a negative divisor. -/
theorem goCeilDiv_neg (d w k : ℤ) (hd : 0 < d) (hd2 : d < 2 ^ 53) (hw : 0 < w) (hw2 : w < 2 ^ 53) (h1 : k * w ≤ d) (h2 : d < (k + 1) * w) :
    goCeilDiv d (-w) = -k := by
  have hwq : (0 : ℚ) < w := by exact_mod_cast hw
  have hdq : (0 : ℚ) < d := by exact_mod_cast hd
  have hd2q : (d : ℚ) < 2 ^ 53 := by exact_mod_cast hd2
  have hk0 : 0 ≤ k := by nlinarith
  have hkd : k ≤ d := by nlinarith
  unfold goCeilDiv ceilInt Float64.div ofInt
  rw [rnd_int_exact d (by rw [abs_of_pos hd]; exact hd2), rnd_int_exact (-w) (by rw [abs_neg, abs_of_pos hw]; exact hw2)]
  rcases eq_or_lt_of_le h1 with heq | hlt
  · have : (d : ℚ) / ((-w : ℤ) : ℚ) = ((-k : ℤ) : ℚ) := by rw [← heq]; push_cast; field_simp
    rw [this, rnd_int_exact (-k) (by rw [abs_neg, abs_of_nonneg hk0]; omega), Int.ceil_intCast]
  · have herr := rnd_err ((d : ℚ) / ((-w : ℤ) : ℚ))
    have e : (d : ℚ) / ((-w : ℤ) : ℚ) = -((d : ℚ) / w) := by push_cast; rw [div_neg]
    have hq : (0 : ℚ) < (d : ℚ) / w := div_pos hdq hwq
    rw [e, abs_neg, abs_of_pos hq, abs_le] at herr
    rw [e]
    have h3 : (d : ℚ) / w / 2 ^ 53 < 1 / w := by
      rw [div_div, div_lt_div_iff₀ (by positivity) hwq]
      nlinarith
    have h1' : (k * w + 1 : ℚ) ≤ d := by exact_mod_cast hlt
    have h2' : (d + 1 : ℚ) ≤ (k + 1) * w := by exact_mod_cast h2
    have b1 : (k : ℚ) + 1 / w ≤ d / w := by rw [le_div_iff₀ hwq]; field_simp; linarith
    have b2 : (d : ℚ) / w + 1 / w ≤ k + 1 := by rw [← add_div, div_le_iff₀ hwq]; linarith
    rw [Int.ceil_eq_iff]
    push_cast
    constructor <;> linarith

/-- A fixed window of negative size: `till` is the last multiple of the size that is not after the reading. -/
theorem reset_neg (c w k n : Int) (hw : 0 < w) (hw2 : w < 2 ^ 53) (hk : 0 ≤ k) (t : Int) (ht : k * w < t) (ht2 : t < 2 ^ 53) :
    FixedWindow.reset ⟨c, -w, k * w, n⟩ t = ⟨c, -w, t / w * w, 0⟩ := by
  have hkw : 0 ≤ k * w := Int.mul_nonneg hk (by omega)
  have h1 := Int.mul_ediv_add_emod t w
  have h2 := Int.emod_nonneg t (show w ≠ 0 by omega)
  have h3 := Int.emod_lt_of_pos t hw
  rw [Int.mul_comm] at h1
  have hg := goCeilDiv_neg (t - k * w) w (t / w - k) (by omega) (by omega) hw hw2 (by rw [Int.sub_mul]; omega)
    (by rw [show t / w - k + 1 = t / w + 1 - k by omega, Int.sub_mul, Int.add_mul]; omega)
  unfold FixedWindow.reset
  rw [if_neg (by unfold FixedWindow.contains; simp only; omega)]
  simp only [hg, FixedWindow.State.mk.injEq, true_and, and_true]
  rw [Int.neg_mul_neg, Int.sub_mul]
  omega

/-- A fixed window of negative size admits every call whose reading is not a multiple of its size. -/
theorem C148_fixed_window_negative (c w : Int) (hc : 1 ≤ c) (hw : 0 < w) (hw2 : w < 2 ^ 53) (ts : List Int) : ∀ (k n : Int), 0 ≤ k →
    NonDecreasing (k * w :: ts) → (∀ t ∈ ts, t < 2 ^ 53 ∧ t % w ≠ 0) → (FixedWindow.run ⟨c, -w, k * w, n⟩ ts).2 = ts.map (·, true) := by
  induction ts with
  | nil => intros; rfl
  | cons t ts ih =>
    intro k n hk hm hb
    have ho := List.pairwise_cons.1 hm
    have ho2 := List.pairwise_cons.1 ho.2
    have hl := ho.1 t List.mem_cons_self
    have ht := hb t List.mem_cons_self
    have h1 := Int.mul_ediv_add_emod t w
    rw [Int.mul_comm] at h1
    have h2 := Int.emod_nonneg t (show w ≠ 0 by omega)
    have hlt : k * w < t := by
      rcases Int.lt_or_eq_of_le hl with h | h
      · exact h
      · exfalso
        apply ht.2
        rw [← h, Int.mul_emod_left]
    have hkw : 0 ≤ k * w := Int.mul_nonneg hk (by omega)
    have ha : FixedWindow.acquire ⟨c, -w, k * w, n⟩ t = (⟨c, -w, t / w * w, 1⟩, true) := by
      have hnc : ¬ FixedWindow.contains ⟨c, -w, k * w, n⟩ t := by unfold FixedWindow.contains; simp only; omega
      unfold FixedWindow.acquire
      simp only [hnc, not_false_eq_true, if_true]
      rw [reset_neg c w k n hw hw2 hk t hlt ht.1]
      simp only
      rw [if_pos (by omega)]
      rfl
    simp only [FixedWindow.run, ha, List.map_cons]
    rw [ih (t / w) 1 (Int.ediv_nonneg (by omega) (by omega)) ?_ (fun x hx => hb x (List.mem_cons_of_mem _ hx))]
    refine List.pairwise_cons.2 ⟨fun x hx => ?_, ho2.2⟩
    have := ho2.1 x hx
    omega

/-- A sliding window of negative size admits every call, on a clock that does not go back. -/
theorem C148_sliding_window_negative (W : Int) (hW : W < 0) (ts : List Int) : ∀ (s : SlidingWindow.State), s.windowSize = W → 0 ≤ s.capacity →
    ((s.records.length : Int) ≤ s.capacity) → NonDecreasing (s.records ++ ts) → ∃ s', SlidingWindow.run s (SlidingWindow.acquires ts) = some (s', ts.map (·, true)) := by
  induction ts with
  | nil => intro s _ _ _ _; exact ⟨s, rfl⟩
  | cons t ts ih =>
    intro s h1 h2 h3 h4
    have hp := List.pairwise_append.1 h4
    have hgo : ∀ s1, SlidingWindow.acquire s t = some (s1, true) → s1.windowSize = W → 0 ≤ s1.capacity →
        ((s1.records.length : Int) ≤ s1.capacity) → NonDecreasing (s1.records ++ ts) →
        ∃ s', SlidingWindow.run s (SlidingWindow.acquires (t :: ts)) = some (s', (t :: ts).map (·, true)) := by
      intro s1 e a1 a2 a3 a4
      obtain ⟨s', hs'⟩ := ih s1 a1 a2 a3 a4
      refine ⟨s', ?_⟩
      simp only [SlidingWindow.acquires, List.map_cons, SlidingWindow.run, e] at hs' ⊢
      rw [hs']
    by_cases hc0 : s.capacity = 0
    · refine hgo s (by unfold SlidingWindow.acquire; rw [if_pos hc0]) h1 h2 h3 ?_
      exact List.pairwise_append.2 ⟨hp.1, (List.pairwise_cons.1 hp.2.1).2, fun x hx y hy => hp.2.2 x hx y (List.mem_cons_of_mem _ hy)⟩
    · by_cases hlt : (s.records.length : Int) < s.capacity
      · refine hgo { s with records := s.records ++ [t] } (by unfold SlidingWindow.acquire; rw [if_neg hc0, if_pos hlt]) h1 h2 ?_ ?_
        · simp only [List.length_append, List.length_singleton]; push_cast; omega
        · simpa using h4
      · cases hr : s.records with
        | nil => rw [hr] at hlt; simp only [List.length_nil] at hlt; omega
        | cons o rest =>
          have hot : o ≤ t := hp.2.2 o (by rw [hr]; exact List.mem_cons_self) t List.mem_cons_self
          refine hgo { s with records := rest ++ [t] } ?_ h1 h2 ?_ ?_
          · unfold SlidingWindow.acquire
            rw [if_neg hc0, if_neg hlt, hr]
            simp only
            rw [if_pos (by omega)]
          · rw [hr] at h3
            simp only [List.length_append, List.length_nil, List.length_cons] at h3 ⊢
            push_cast at h3 ⊢
            omega
          · rw [hr] at h4
            simp only [List.append_assoc, List.singleton_append]
            exact (List.pairwise_cons.1 h4).2

-- Capacity zero: the bucket and the fixed window refuse, the sliding window does not.
example : (TokenBucket.run (TokenBucket.new 0 5 0) [0, 3000000000]).2 = [(0, false), (3000000000, false)] ∧
    (SlidingWindow.run (SlidingWindow.new (-3) 10) (SlidingWindow.acquires [0, 0])).map (·.2) = some [(0, true), (0, true)] := by decide

-- A negative rate: of capacity 3, one token was taken and two are lost.
example : (TokenBucket.run (TokenBucket.new 3 (-1) 0) [0, 2000000000]).2 = [(0, true), (2000000000, false)] ∧
    (TokenBucket.run (TokenBucket.new 3 0 0) [0, 2000000000, 3000000000, 4000000000]).2.map (·.2) = [true, true, true, false] := by decide

end Gears.Degenerate
