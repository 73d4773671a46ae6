import Verif.Conform.Starve
import Verif.TokenBucket.Throughput

/-
C116 again, for the token bucket of TokenBucket/Model.lean (tokenbucket.go:71-104): a bucket that rejects at least every `δ` lets its
rate pass in every second and `δ` (C116_rate_partial); here that it may be no more than this, up to a nanosecond.  No new model of the
code.
-/

namespace Gears.TokenBucket.Saturated

open Gears TokenBucket Conform

/-- Rejections at `x + 1`, …, `x + n`. -/
def rej : Int → Nat → History
  | _, 0 => []
  | x, n + 1 => (x + 1, false) :: rej (x + 1) n

/-- From a rejection at `x`: rejections for `n` nanoseconds, and `r` calls let through `δ` later. -/
def mid (r n : Nat) (δ x : Int) : History := rej x n ++ List.replicate r (x + n + δ, true)

/-- `k` such rounds, each with a rejection at its end. -/
def rounds (r n : Nat) (δ : Int) : Nat → History
  | 0 => []
  | k + 1 => rounds r n δ k ++ (mid r n δ (k * (n + δ)) ++ [((k + 1) * (n + δ), false)])

/-- A bucket answers the calls of `h` as `h` says, and goes from `s` to `s'`. -/
def Plays (s : State) (h : History) (s' : State) : Prop := run s (h.map (·.1)) = (s', h)

theorem Plays.append {s s' s'' : State} {h h' : History} (a : Plays s h s') (b : Plays s' h' s'') : Plays s (h ++ h') s'' := by
  unfold Plays at *
  rw [List.map_append, run_append, a, b]

theorem plays_reject (c r l t : Int) (h0 : 0 ≤ t - l) (h1 : t - l < 1000000000) : Plays ⟨c, 0, r, l⟩ [(t, false)] ⟨c, 0, r, l⟩ := by
  have h := Starve.bk_same ⟨c, 0, r, l⟩ t h0 h1
  rw [if_neg (by dsimp only; omega)] at h
  simp only [Plays, List.map_cons, List.map_nil, run, h]

theorem plays_rej (c r l : Int) : ∀ (n : Nat) (x : Int), l ≤ x → x + n - l < 1000000000 → Plays ⟨c, 0, r, l⟩ (rej x n) ⟨c, 0, r, l⟩
  | 0, _, _, _ => rfl
  | n + 1, x, h0, h1 => by
    push_cast at h1
    exact (plays_reject c r l (x + 1) (by omega) (by omega)).append (plays_rej c r l n (x + 1) (by omega) (by omega))

theorem plays_take (c r l t : Int) (h0 : 0 ≤ t - l) (h1 : t - l < 1000000000) : ∀ n : Nat,
    Plays ⟨c, n, r, l⟩ (List.replicate n (t, true)) ⟨c, 0, r, l⟩
  | 0 => rfl
  | n + 1 => by
    have h := Starve.bk_same ⟨c, (n + 1 : Nat), r, l⟩ t h0 h1
    rw [if_pos (by dsimp only; omega)] at h
    have h2 : Plays ⟨c, (n + 1 : Nat), r, l⟩ [(t, true)] ⟨c, n, r, l⟩ := by
      simp only [Plays, List.map_cons, List.map_nil, run, h]
      rw [show ((n + 1 : Nat) : Int) - 1 = n by omega]
    exact h2.append (plays_take c r l t h0 h1 n)

theorem plays_fill (c r : Nat) (hr : 1 ≤ r) (hc : r ≤ c) (l t : Int) (h0 : 1000000000 ≤ t - l) (h1 : t - l < 2000000000) :
    Plays ⟨c, 0, r, l⟩ [(t, true)] ⟨c, (r - 1 : Nat), r, t⟩ := by
  have hd : Int.tdiv (t - l) second * (r : Int) = r := by
    have : Int.tdiv (t - l) second = 1 := by
      rw [Int.tdiv_eq_ediv_of_nonneg (by omega)]
      show (t - l) / 1000000000 = 1
      omega
    rw [this, Int.one_mul]
  have e1 : ¬ (0 : Int) ≥ c := by omega
  have e2 : ¬ (r : Int) = 0 := by omega
  have e3 : ¬ (r : Int) > c := by omega
  have e4 : (r : Int) > 0 := by omega
  have e5 : ((r - 1 : Nat) : Int) = r - 1 := by omega
  simp only [Plays, List.map_cons, List.map_nil, run, acquire, issueIfNecessary, hd, e1, e2, e3, e4, if_false, if_true, Int.zero_add, e5]

theorem plays_mid (c r n : Nat) (hn : n + 1 = 1000000000) (hr : 1 ≤ r) (hc : r ≤ c) (δ x : Int) (hd : 1 ≤ δ) (hd2 : δ ≤ 1000000000) :
    Plays ⟨c, 0, r, x⟩ (mid r n δ x) ⟨c, 0, r, x + n + δ⟩ := by
  refine (plays_rej c r x n x (by omega) (by omega)).append ?_
  obtain ⟨k, rfl⟩ : ∃ k, r = k + 1 := ⟨r - 1, by omega⟩
  exact (plays_fill c (k + 1) hr hc x (x + n + δ) (by omega) (by omega)).append (plays_take c _ _ _ (by omega) (by omega) k)

theorem next_time (k n : Nat) (δ : Int) : (k : Int) * (n + δ) + n + δ = (k + 1) * (n + δ) := by ring

theorem plays_rounds (c r n : Nat) (hn : n + 1 = 1000000000) (hr : 1 ≤ r) (hc : r ≤ c) (δ : Int) (hd : 1 ≤ δ) (hd2 : δ ≤ 1000000000) :
    ∀ k : Nat, Plays ⟨c, 0, r, 0⟩ (rounds r n δ k) ⟨c, 0, r, k * (n + δ)⟩
  | 0 => by simp [Plays, rounds, run]
  | k + 1 => by
    refine (plays_rounds c r n hn hr hc δ hd hd2 k).append ?_
    have h := plays_mid c r n hn hr hc δ (k * (n + δ)) hd hd2
    rw [next_time] at h
    rw [show ((k + 1 : Nat) : Int) * (n + δ) = (k + 1) * (n + δ) by push_cast; rfl]
    exact h.append (plays_reject c r _ _ (by omega) (by omega))

/-! ### The times -/

theorem rej_in : ∀ (n : Nat) (x : Int), ∀ e ∈ rej x n, x ≤ e.1 ∧ e.1 ≤ x + n
  | n + 1, x, e, he => by
    rcases List.mem_cons.1 he with rfl | h
    · dsimp only; push_cast; omega
    · have := rej_in n (x + 1) e h
      push_cast
      omega

/-- The times of a history do not go back. -/
def Sorted (h : History) : Prop := h.Pairwise fun e e' => e.1 ≤ e'.1

theorem sorted_append {h h' : History} {m : Int} (a : Sorted h) (b : Sorted h') (ha : ∀ e ∈ h, e.1 ≤ m) (hb : ∀ e ∈ h', m ≤ e.1) :
    Sorted (h ++ h') :=
  List.pairwise_append.2 ⟨a, b, fun e he e' he' => Int.le_trans (ha e he) (hb e' he')⟩

theorem sorted_replicate (n : Nat) (e : Int × Bool) : Sorted (List.replicate n e) :=
  List.pairwise_replicate.2 (.inr (Int.le_refl _))

theorem rej_sorted : ∀ (n : Nat) (x : Int), Sorted (rej x n)
  | 0, _ => List.Pairwise.nil
  | n + 1, x => List.pairwise_cons.2 ⟨fun e he => (rej_in n (x + 1) e he).1, rej_sorted n (x + 1)⟩

theorem mid_in (r n : Nat) (δ x : Int) (hd : 1 ≤ δ) : ∀ e ∈ mid r n δ x, x ≤ e.1 ∧ e.1 ≤ x + n + δ := by
  intro e he
  rcases List.mem_append.1 he with h | h
  · have := rej_in n x e h
    omega
  · rw [(List.mem_replicate.1 h).2]
    dsimp only
    omega

theorem mid_sorted (r n : Nat) (δ x : Int) (hd : 1 ≤ δ) : Sorted (mid r n δ x) :=
  sorted_append (m := x + n) (rej_sorted n x) (sorted_replicate _ _) (fun e he => (rej_in n x e he).2) (fun e he => by
    rw [(List.mem_replicate.1 he).2]
    dsimp only
    omega)

theorem rounds_ok (r n : Nat) (δ : Int) (hd : 1 ≤ δ) : ∀ k : Nat,
    Sorted (rounds r n δ k) ∧ ∀ e ∈ rounds r n δ k, 0 ≤ e.1 ∧ e.1 ≤ k * (n + δ)
  | 0 => ⟨List.Pairwise.nil, fun e he => by cases he⟩
  | k + 1 => by
    obtain ⟨i1, i2⟩ := rounds_ok r n δ hd k
    have hm := mid_in r n δ (k * (n + δ)) hd
    rw [next_time] at hm
    have h0 : 0 ≤ (k : Int) * (n + δ) := Int.mul_nonneg (by omega) (by omega)
    have hk := next_time k n δ
    have hl : ∀ e ∈ mid r n δ (k * (n + δ)) ++ [(((k : Int) + 1) * (n + δ), false)],
        (k : Int) * (n + δ) ≤ e.1 ∧ e.1 ≤ (k + 1) * (n + δ) := by
      intro e he
      rcases List.mem_append.1 he with h | h
      · exact hm e h
      · rw [List.mem_singleton.1 h]
        dsimp only
        omega
    refine ⟨sorted_append i1 (sorted_append (mid_sorted r n δ _ hd) (List.pairwise_singleton _ _) (fun e he => (hm e he).2) ?_)
      (fun e he => (i2 e he).2) (fun e he => (hl e he).1), fun e he => ?_⟩
    · intro e he
      rw [List.mem_singleton.1 he]
    · push_cast
      rcases List.mem_append.1 he with h | h
      · have := i2 e h
        omega
      · have := hl e h
        omega

/-! ### The gaps -/

theorem gaps_append (δ : Int) (y : Int) (b : History) : ∀ (a : History) (p : Option Int), gapsOk δ p (a ++ [(y, false)]) = true →
    gapsOk δ (some y) b = true → gapsOk δ p (a ++ (y, false) :: b) = true
  | [], p, h, hb => by
    simp only [List.nil_append, gapsOk, Bool.and_true] at h ⊢
    rw [h, hb]; rfl
  | (t, true) :: a, p, h, hb => by
    simp only [List.cons_append, gapsOk] at h ⊢
    exact gaps_append δ y b a p h hb
  | (t, false) :: a, p, h, hb => by
    simp only [List.cons_append, gapsOk, Bool.and_eq_true] at h ⊢
    exact ⟨h.1, gaps_append δ y b a (some t) h.2 hb⟩

theorem gaps_rej (δ : Int) (hd : 1 ≤ δ) (b : History) : ∀ (n : Nat) (x : Int), gapsOk δ (some (x + n)) b = true →
    gapsOk δ (some x) (rej x n ++ b) = true
  | 0, x, h => by simpa [rej] using h
  | n + 1, x, h => by
    simp only [rej, List.cons_append, gapsOk, Bool.and_eq_true, decide_eq_true_eq]
    refine ⟨by omega, gaps_rej δ hd b n (x + 1) ?_⟩
    rw [show x + 1 + (n : Int) = x + (n + 1 : Nat) by push_cast; omega]
    exact h

theorem gaps_replicate (δ : Int) (p : Option Int) (t : Int) (b : History) : ∀ n : Nat,
    gapsOk δ p (List.replicate n (t, true) ++ b) = gapsOk δ p b
  | 0 => rfl
  | n + 1 => by simp only [List.replicate_succ, List.cons_append, gapsOk, gaps_replicate δ p t b n]

theorem gaps_mid (r n : Nat) (δ x : Int) (hd : 1 ≤ δ) : gapsOk δ (some x) (mid r n δ x ++ [(x + n + δ, false)]) = true := by
  rw [mid, List.append_assoc]
  refine gaps_rej δ hd _ n x ?_
  rw [gaps_replicate]
  simp [gapsOk]

theorem gaps_rounds (r n : Nat) (δ : Int) (hd : 1 ≤ δ) : ∀ (k : Nat) (b : History), gapsOk δ (some (k * (n + δ))) b = true →
    gapsOk δ (some 0) (rounds r n δ k ++ b) = true
  | 0, b, h => by simpa [rounds] using h
  | k + 1, b, h => by
    rw [rounds, List.append_assoc]
    apply gaps_rounds r n δ hd k
    rw [List.append_assoc]
    have := gaps_mid r n δ (k * (n + δ)) hd
    rw [next_time] at this
    refine gaps_append δ _ b _ _ this ?_
    push_cast at h
    exact h

/-! ### The counts -/

theorem admitted_app (a b : History) : admitted (a ++ b) = admitted a + admitted b := by
  simp [admitted]

theorem admitted_rej : ∀ (n : Nat) (x : Int), admitted (rej x n) = 0
  | 0, _ => rfl
  | n + 1, x => by
    have := admitted_rej n (x + 1)
    simpa [admitted, rej] using this

theorem admitted_mid (r n : Nat) (δ x : Int) : admitted (mid r n δ x) = r := by
  rw [mid, admitted_app, admitted_rej]
  simp [admitted, List.countP_replicate]

theorem admitted_rounds (r n : Nat) (δ : Int) : ∀ k, admitted (rounds r n δ k) = r * k
  | 0 => rfl
  | k + 1 => by
    rw [rounds, admitted_app, admitted_app, admitted_rounds r n δ k, admitted_mid]
    have : admitted [(((k : Int) + 1) * (n + δ), false)] = 0 := rfl
    rw [this]
    ring

/-- **C116**: C116_rate_partial is sharp up to a nanosecond.  For every rate `r`, capacity of at least `r`, and `δ` of up to a second, there are
calls such that the bucket rejects at least every `δ`, and lets only `r` calls pass in every second and `δ` less a nanosecond, for any
number of rounds. -/
theorem C116_rate_sharp (c r : Nat) (hr : 1 ≤ r) (hc : r ≤ c) (δ : Int) (hd : 1 ≤ δ) (hd2 : δ ≤ 1000000000) (k : Nat) :
    ∃ ts h1 s h2 s', NonDecreasing (0 :: ts) ∧ (run (new c r 0) ts).2 = h1 ++ (s, false) :: h2 ++ (s', false) :: [] ∧
      RejectsEvery δ ((s, false) :: h2 ++ [(s', false)]) ∧ s' - s = (k + 1) * (1000000000 + δ - 1) ∧ admitted h2 = r * (k + 1) := by
  obtain ⟨n, hn⟩ : ∃ n : Nat, n + 1 = 1000000000 := ⟨999999999, by norm_num⟩
  have hn' : (n : Int) = 1000000000 - 1 := by omega
  obtain ⟨g1, g2⟩ := rounds_ok r n δ hd (k + 1)
  refine ⟨(List.replicate c ((0 : Int), true) ++ ((0, false) :: rounds r n δ (k + 1))).map (·.1), List.replicate c (0, true), 0,
    rounds r n δ k ++ mid r n δ (k * (n + δ)), (k + 1) * (n + δ), ?_, ?_, ?_, ?_, ?_⟩
  · have h1 : Sorted ((0, true) :: (List.replicate c ((0 : Int), true) ++ ((0, false) :: rounds r n δ (k + 1)))) := by
      have h2 : Sorted ((0, false) :: rounds r n δ (k + 1)) := List.pairwise_cons.2 ⟨fun e he => (g2 e he).1, g1⟩
      have h3 : ∀ e ∈ ((0 : Int), false) :: rounds r n δ (k + 1), 0 ≤ e.1 := by
        intro e he
        rcases List.mem_cons.1 he with rfl | h
        · exact Int.le_refl _
        · exact (g2 e h).1
      have h4 : ∀ e ∈ List.replicate c ((0 : Int), true), e.1 = 0 := fun e he => by rw [(List.mem_replicate.1 he).2]
      refine List.pairwise_cons.2 ⟨fun e he => ?_, sorted_append (m := 0) (sorted_replicate _ _) h2 (fun e he => by rw [h4 e he]) h3⟩
      rcases List.mem_append.1 he with h | h
      · rw [h4 e h]
      · exact h3 e h
    exact (List.pairwise_map (f := fun e : Int × Bool => e.1)).2 h1
  · have h1 : Plays (new c r 0) (List.replicate c (0, true)) ⟨c, 0, r, 0⟩ := plays_take c r 0 0 (by omega) (by omega) c
    have h2 := plays_reject c r 0 0 (by omega) (by omega)
    have h3 := plays_rounds c r n hn hr hc δ hd hd2 (k + 1)
    have h4 := h1.append (h2.append h3)
    unfold Plays at h4
    rw [List.singleton_append] at h4
    rw [h4]
    simp only [rounds, List.append_assoc, List.cons_append]
  · apply rejectsEvery_of δ _ none
    rw [List.cons_append]
    simp only [gapsOk, Bool.true_and]
    rw [List.append_assoc]
    apply gaps_rounds r n δ hd k
    have := gaps_mid r n δ (k * (n + δ)) hd
    rwa [next_time] at this
  · rw [hn', Int.sub_zero]
    congr 1
    omega
  · rw [admitted_app, admitted_rounds, admitted_mid]
    ring

/-- Non-vacuity: rounds of three nanoseconds, `δ` of two. -/
example : rounds 2 1 2 2 = [(1, false), (3, true), (3, true), (3, false), (4, false), (6, true), (6, true), (6, false)] := by decide

end Gears.TokenBucket.Saturated
