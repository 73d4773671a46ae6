import Verif.Conform.Sharp
import Verif.Conform.Somebody
import Verif.AtomicBucket.Props

/-
C166_half_sharp and C180 for `AtomicTokenBucket` (tokenbucket.go:106-177, model AtomicBucket/Model.lean) when calls do not overlap: it then
answers as `SyncTokenBucket` (C05).  No new model of the code.
-/

namespace Gears.Conform.Sharp

open Gears

/-- One goroutine makes calls at the times `ts`; the clock says `t` before. -/
def waits (t : Int) : List Int → List (Int × Nat)
  | [] => []
  | u :: ts => (u - t, 0) :: waits u ts

theorem readings_waits : ∀ (ts : List Int) (t : Int), AtomicBucket.readings t (waits t ts) = ts
  | [], _ => rfl
  | u :: ts, t => by
    simp only [waits, AtomicBucket.readings, show t + (u - t) = u by omega, readings_waits ts u]

theorem waits_zero : ∀ (ts : List Int) (t : Int), ∀ x ∈ waits t ts, x.2 < 1
  | u :: ts, t, x, hx => by
    rcases List.mem_cons.1 hx with rfl | h
    · exact Nat.zero_lt_one
    · exact waits_zero ts u x h

/-- The calls return, with the answers of `SyncTokenBucket`. -/
theorem seq_log (c r t0 : Int) (ts : List Int) : ∃ s', AtomicBucket.SeqExec (AtomicBucket.init c r t0 1) (waits t0 ts) s' ∧
    s'.log = (TokenBucket.run (TokenBucket.new c r t0) ts).2.map (·.2) := by
  obtain ⟨s', h⟩ := AtomicBucket.C05_sequential_terminates c r t0 1 (waits t0 ts) (waits_zero ts t0)
  refine ⟨s', h, ?_⟩
  rw [AtomicBucket.C05_sequential_equals_sync c r t0 1 _ s' h, readings_waits]

/-- **C166** for `AtomicTokenBucket`: no more than half of the rate, already with calls that do not overlap. -/
theorem C166_half_sharp_atomic (c r p q : Nat) (hr : 1 ≤ r) (hc : r + 1 ≤ c) (hq : 1 ≤ q) (hp : q * r * 1000000000 < p * 1999999999) :
    ∃ ts s', NonDecreasing (0 :: ts) ∧ Within (fun d => c + p * d / (q * 1000000000)) ts ∧
      AtomicBucket.SeqExec (AtomicBucket.init c r 0 1) (waits 0 ts) s' ∧ false ∈ s'.log := by
  obtain ⟨ts, h1, h2, h3⟩ := C166_half_sharp c r p q hr hc hq hp
  obtain ⟨s', h4, h5⟩ := seq_log c r 0 ts
  refine ⟨ts, s', h1, h2, h4, ?_⟩
  apply Classical.byContradiction
  intro hno
  apply h3
  intro e he
  cases hb : e.2 with
  | true => rfl
  | false =>
    refine absurd ?_ hno
    rw [h5]
    exact List.mem_map.2 ⟨e, he, hb⟩

theorem run_answers (s : TokenBucket.State) (time : Nat → Int) : ∀ n,
    (TokenBucket.run s ((List.range n).map time)).1 = Starve.before TokenBucket.acquire s (fun i => (true, time i)) n ∧
    (TokenBucket.run s ((List.range n).map time)).2.map (·.2) = Somebody.answersOf TokenBucket.acquire s time n
  | 0 => ⟨rfl, rfl⟩
  | n + 1 => by
    obtain ⟨h1, h2⟩ := run_answers s time n
    rw [List.range_succ, List.map_append, TokenBucket.run_append]
    simp only [Somebody.answersOf, List.range_succ, List.map_append] at h2 ⊢
    rw [h1, h2]
    exact ⟨rfl, rfl⟩

/-- **C180** for `AtomicTokenBucket`, when calls do not overlap: any number of calls is let through, if there are calls for ever. -/
theorem C180_atomic (c r t0 : Int) (hc : 1 ≤ c) (hr : 1 ≤ r) (time : Nat → Int) (h0 : t0 ≤ time 0) (h : Somebody.Runs time) (n : Nat) :
    ∃ k s', AtomicBucket.SeqExec (AtomicBucket.init c r t0 1) (waits t0 ((List.range k).map time)) s' ∧ n ≤ s'.log.count true := by
  obtain ⟨k, hk⟩ := Somebody.C180_bucket c r t0 hc hr time h0 h n
  obtain ⟨s', h1, h2⟩ := seq_log c r t0 ((List.range k).map time)
  refine ⟨k, s', h1, ?_⟩
  rw [h2, (run_answers _ time k).2]
  exact hk

/-- Non-vacuity: two calls at 3 and 5. -/
example : waits 0 [3, 5] = [(3, 0), (2, 0)] := by decide

end Gears.Conform.Sharp
