import Verif.Conform.Starve
import Verif.Conform.Props

/-
C166 again, for the token bucket of TokenBucket/Model.lean (tokenbucket.go:71-104): callers that keep to the capacity and half of the
rate are let through (C166_bursts_partial); here that more than this half is not enough, for all rates.  No new model of the code.
-/

namespace Gears.Conform.Sharp

open Gears TokenBucket

/-- `c` calls at 0, and `r` whenever two seconds less a nanosecond are over. -/
def calls (c r : Nat) : Nat → List Int
  | 0 => List.replicate c 0
  | k + 1 => calls c r k ++ List.replicate r (((k : Int) + 1) * 1999999999)

theorem calls_le (c r : Nat) : ∀ n, ∀ t ∈ calls c r n, 0 ≤ t ∧ t ≤ n * 1999999999
  | 0, t, h => by
    have := (List.mem_replicate.1 h).2
    subst this
    simp
  | n + 1, t, h => by
    rcases List.mem_append.1 h with h | h
    · have := calls_le c r n t h
      push_cast
      omega
    · have := (List.mem_replicate.1 h).2
      push_cast
      omega

theorem calls_sorted (c r : Nat) : ∀ n, NonDecreasing (calls c r n)
  | 0 => List.pairwise_replicate.2 (.inr (Int.le_refl _))
  | n + 1 => List.pairwise_append.2 ⟨calls_sorted c r n, List.pairwise_replicate.2 (.inr (Int.le_refl _)), fun a ha b hb => by
      have h1 := calls_le c r n a ha
      have h2 := (List.mem_replicate.1 hb).2
      omega⟩

theorem calls_length (c r : Nat) : ∀ n, (calls c r n).length = c + r * n
  | 0 => by simp [calls]
  | n + 1 => by simp only [calls, List.length_append, calls_length c r n, List.length_replicate]; ring

theorem callsIn_append (as bs : List Int) (a b : Int) : callsIn (as ++ bs) a b = callsIn as a b + callsIn bs a b :=
  List.countP_append

theorem callsIn_replicate (n : Nat) (t a b : Int) : callsIn (List.replicate n t) a b = if a ≤ t ∧ t ≤ b then n else 0 := by
  simp only [callsIn, List.countP_replicate, Bool.and_eq_true, decide_eq_true_eq]

/-- From the start. -/
theorem from_start (c r : Nat) (a b : Int) (hb : 0 ≤ b) : ∀ n, (callsIn (calls c r n) a b : Int) ≤ c + r * (b / 1999999999)
  | 0 => by
    have h1 : 0 ≤ (r : Int) * (b / 1999999999) := Int.mul_nonneg (by omega) (by omega)
    simp only [calls, callsIn_replicate]
    split <;> omega
  | n + 1 => by
    by_cases h : ((n : Int) + 1) * 1999999999 ≤ b
    · have h1 : callsIn (calls c r (n + 1)) a b ≤ c + r * (n + 1) := by
        rw [← calls_length]; exact List.countP_le_length
      have h2 : (n : Int) + 1 ≤ b / 1999999999 := by omega
      have h3 : (r : Int) * (n + 1) ≤ r * (b / 1999999999) := Int.mul_le_mul_of_nonneg_left h2 (by omega)
      have h4 : (callsIn (calls c r (n + 1)) a b : Int) ≤ c + r * (n + 1) := by exact_mod_cast h1
      omega
    · have := from_start c r a b hb n
      simp only [calls, callsIn_append, callsIn_replicate, h, and_false, if_false]
      omega

/-- Later. -/
theorem later (c r : Nat) (a : Int) (ha : 0 < a) : ∀ (n : Nat) (b : Int), a - 1999999999 ≤ b →
    (callsIn (calls c r n) a b : Int) ≤ r * ((b - a) / 1999999999 + 1)
  | 0, b, hb => by
    have h1 : 0 ≤ (r : Int) * ((b - a) / 1999999999 + 1) := Int.mul_nonneg (by omega) (by omega)
    simp only [calls, callsIn_replicate]
    split <;> omega
  | n + 1, b, hb => by
    by_cases h : a ≤ ((n : Int) + 1) * 1999999999 ∧ ((n : Int) + 1) * 1999999999 ≤ b
    · have h1 := later c r a ha n (n * 1999999999) (by omega)
      have h2 : callsIn (calls c r n) a b = callsIn (calls c r n) a (n * 1999999999) := by
        apply List.countP_congr
        intro t ht
        have := calls_le c r n t ht
        simp only [Bool.and_eq_true, decide_eq_true_eq]
        omega
      have h3 : ((n : Int) * 1999999999 - a) / 1999999999 + 1 ≤ (b - a) / 1999999999 := by omega
      have h4 := Int.mul_le_mul_of_nonneg_left h3 (show (0 : Int) ≤ r by omega)
      simp only [calls, callsIn_append, callsIn_replicate, if_pos h, h2]
      push_cast
      rw [Int.mul_add (r : Int) ((b - a) / 1999999999) 1]
      omega
    · have := later c r a ha n b hb
      simp only [calls, callsIn_append, callsIn_replicate, if_neg h]
      omega

/-- All the tokens are taken at once. -/
theorem take (c r l t : Int) (h0 : 0 ≤ t - l) (h1 : t - l < 1000000000) : ∀ n : Nat,
    (run ⟨c, n, r, l⟩ (List.replicate n t)).1 = ⟨c, 0, r, l⟩
  | 0 => rfl
  | n + 1 => by
    have h := Starve.bk_same ⟨c, (n + 1 : Nat), r, l⟩ t h0 h1
    rw [if_pos (by dsimp only; omega)] at h
    simp only [List.replicate_succ, run, h]
    have := take c r l t h0 h1 n
    rw [show ((n + 1 : Nat) : Int) - 1 = n by omega]
    exact this

theorem fill (c r : Nat) (hr : 1 ≤ r) (hc : r ≤ c) (l : Int) :
    acquire ⟨c, 0, r, l⟩ (l + 1999999999) = (⟨c, (r : Int) - 1, r, l + 1999999999⟩, true) := by
  have hd : Int.tdiv (l + 1999999999 - l) second * (r : Int) = r := by
    rw [show l + 1999999999 - l = 1999999999 by omega]
    have : Int.tdiv 1999999999 second = 1 := by decide
    rw [this, Int.one_mul]
  have h1 : ¬ (0 : Int) ≥ c := by omega
  have h2 : ¬ (r : Int) = 0 := by omega
  have h3 : ¬ (r : Int) > c := by omega
  have h4 : (r : Int) > 0 := by omega
  simp only [acquire, issueIfNecessary, hd, h1, h2, h3, h4, if_false, if_true, Int.zero_add]

theorem state (c r : Nat) (hr : 1 ≤ r) (hc : r ≤ c) : ∀ n : Nat, (run (new c r 0) (calls c r n)).1 = ⟨c, 0, r, n * 1999999999⟩
  | 0 => by
    have := take c r 0 0 (by omega) (by omega) c
    simpa [calls, new] using this
  | n + 1 => by
    obtain ⟨k, rfl⟩ : ∃ k, r = k + 1 := ⟨r - 1, by omega⟩
    have h := fill c (k + 1) hr hc (n * 1999999999)
    rw [show (n : Int) * 1999999999 + 1999999999 = ((n : Int) + 1) * 1999999999 by omega] at h
    simp only [calls, run_append, state c (k + 1) hr hc n, List.replicate_succ, run, h]
    rw [show ((k + 1 : Nat) : Int) - 1 = k by omega, show ((n + 1 : Nat) : Int) * 1999999999 = ((n : Int) + 1) * 1999999999 by omega]
    exact take _ _ _ _ (by omega) (by omega) k

/-- **C166** for `SyncTokenBucket`: the half of C166_bursts_partial cannot be replaced by more.  For every rate `r` and larger capacity, and every
share `p / q` of calls per second above `r` in two seconds less a nanosecond, there are callers that keep to the capacity and to `p / q`,
and one of them is refused. -/
theorem C166_half_sharp (c r p q : Nat) (hr : 1 ≤ r) (hc : r + 1 ≤ c) (hq : 1 ≤ q) (hp : q * r * 1000000000 < p * 1999999999) :
    ∃ ts, NonDecreasing (0 :: ts) ∧ Within (fun d => c + p * d / (q * 1000000000)) ts ∧ ¬ AllAdmitted (run (new c r 0) ts).2 := by
  have hp' : (q : Int) * r * 1000000000 + 1 ≤ p * 1999999999 := by exact_mod_cast hp
  have hq0 : (0 : Int) < q * 1000000000 := by omega
  -- the share in `d` covers `r` for every two seconds less a nanosecond
  have share : ∀ d : Int, 0 ≤ d → (r : Int) * (d / 1999999999) ≤ p * d / (q * 1000000000) := by
    intro d hd
    rw [Int.le_ediv_iff_mul_le hq0]
    have h1 : (d / 1999999999) * 1999999999 ≤ d := Int.ediv_mul_le d (by decide)
    have h2 := Int.mul_le_mul_of_nonneg_left h1 (show (0 : Int) ≤ p by omega)
    have h3 := Int.mul_le_mul_of_nonneg_right hp' (show 0 ≤ d / 1999999999 by omega)
    have h4 : (0 : Int) ≤ d / 1999999999 := by omega
    nlinarith
  generalize hN : q * 1000000000 = N
  have hN' : (N : Int) = q * 1000000000 := by rw [← hN]; push_cast; rfl
  refine ⟨calls c r N ++ [(N : Int) * 1999999999], ?_, ?_, ?_⟩
  · refine List.pairwise_cons.2 ⟨fun t ht => ?_, List.pairwise_append.2 ⟨calls_sorted c r N, List.pairwise_singleton _ _, fun a ha b hb => ?_⟩⟩
    · rcases List.mem_append.1 ht with h | h
      · exact (calls_le c r N t h).1
      · have := List.mem_singleton.1 h
        omega
    · have := List.mem_singleton.1 hb
      have := (calls_le c r N a ha).2
      omega
  · intro a d hd
    have hs := share d hd
    have hd0 : 0 ≤ (r : Int) * (d / 1999999999) := Int.mul_nonneg (by omega) (by omega)
    have h1 : callsIn [(N : Int) * 1999999999] a (a + d) = if a ≤ N * 1999999999 ∧ N * 1999999999 ≤ a + d then 1 else 0 :=
      callsIn_replicate 1 _ a (a + d)
    rw [callsIn_append, h1]
    push_cast
    by_cases ha : 0 < a
    · have h2 := later c r a ha N (a + d) (by omega)
      rw [show a + d - a = d by omega, Int.mul_add] at h2
      split <;> omega
    · by_cases hb : 0 ≤ a + d
      · split
        · next h =>
          have h2 : callsIn (calls c r N) a (a + d) ≤ c + r * N := by
            rw [← calls_length]; exact List.countP_le_length
          have h3 : (callsIn (calls c r N) a (a + d) : Int) ≤ c + r * N := by exact_mod_cast h2
          have h4 : (r : Int) * N + 1 ≤ p * d / (q * 1000000000) := by
            rw [Int.le_ediv_iff_mul_le hq0, ← hN']
            have h5 : (N : Int) * 1999999999 ≤ d := by omega
            have h6 := Int.mul_le_mul_of_nonneg_left h5 (show (0 : Int) ≤ p by omega)
            have h7 := Int.mul_le_mul_of_nonneg_right hp' (show (0 : Int) ≤ N by omega)
            have h8 : (q : Int) * r * 1000000000 = r * N := by rw [hN']; ring
            rw [h8] at h7
            nlinarith
          omega
        · have h2 := from_start c r a (a + d) hb N
          have h3 : (a + d) / 1999999999 ≤ d / 1999999999 := Int.ediv_le_ediv (by decide) (by omega)
          have h4 := Int.mul_le_mul_of_nonneg_left h3 (show (0 : Int) ≤ r by omega)
          omega
      · have h2 : callsIn (calls c r N) a (a + d) = 0 := by
          apply List.countP_eq_zero.2
          intro t ht
          have := (calls_le c r N t ht).1
          simp only [Bool.and_eq_true, decide_eq_true_eq]
          omega
        rw [h2]
        split <;> simp only [Nat.cast_zero] <;> omega
  · intro h
    have h1 := h (N * 1999999999, false) (by
      rw [run_append, state c r hr (by omega) N]
      have h2 := Starve.bk_same ⟨c, 0, r, N * 1999999999⟩ (N * 1999999999) (by dsimp only; omega) (by dsimp only; omega)
      rw [if_neg (by dsimp only; omega)] at h2
      simp only [run, h2]
      exact List.mem_append_right _ (List.mem_singleton.2 rfl))
    cases h1

/-- Non-vacuity: for rate 2, a hundred million and one calls in a hundred million seconds are more than the half. -/
example : 100000000 * 2 * 1000000000 < 100000001 * 1999999999 := by decide

end Gears.Conform.Sharp
