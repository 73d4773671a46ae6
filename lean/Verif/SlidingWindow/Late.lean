import Verif.SlidingWindow.Props
import Verif.Common.Calls

/-
SyncSlidingWindow called by many goroutines (/repo/ratelimiter/slidingwindow.go:62-87): each call reads the clock (63),
and later gets the lock (65) and decides.  Calls may overtake each other between the two.
-/

namespace Gears.SlidingWindow

open Calls

/-- The readings of the admitted calls, in lock order. -/
def passedTimes (log : List Entry) : List Int := (log.filter (·.result)).map (·.reading)

theorem passedTimes_snoc (log : List Entry) (e : Entry) :
    passedTimes (log ++ [e]) = passedTimes log ++ (if e.result then [e.reading] else []) := by
  unfold passedTimes
  rw [List.filter_append, List.map_append]
  cases h : e.result <;> simp [h]

theorem passed_readings (log : List Entry) (p : Int → Bool) : passed log (fun e => p e.reading) = (passedTimes log).countP p := by
  unfold passed passedTimes
  rw [List.countP_map, List.countP_filter]
  congr 1
  funext e
  simp [Function.comp, Bool.and_comm]

/-- The limiter keeps the invariant of C08 whatever the order of the calls. -/
theorem late_inv {n : Nat} (hn : 0 < n) {W : Int} {s s' : Sys State} {a : Action}
    (h : Inv n W (passedTimes s.log) s.lim) (hs : step acquire s a = some s') : Inv n W (passedTimes s'.log) s'.lim := by
  cases a with
  | tick d => simp only [step, Option.some.injEq] at hs; subst hs; exact h
  | read => simp only [step, Option.some.injEq] at hs; subst hs; exact h
  | enter i =>
    simp only [step] at hs
    split at hs
    · simp at hs
    · rename_i t ht
      obtain ⟨l, b, he, hi⟩ := acquire_inv hn h t
      rw [he] at hs
      simp only [Option.some.injEq] at hs
      subst hs
      rw [passedTimes_snoc]
      exact hi

theorem late_exec {n : Nat} (hn : 0 < n) {W c0 : Int} {as : List Action} {s : Sys State}
    (h : exec (step acquire) (start (new n W) c0) as = some s) : Inv n W (passedTimes s.log) s.lim :=
  exec_inv (fun _ _ _ hi hs => late_inv hn hi hs) as _ _ (by simpa [start, passedTimes] using new_inv W) h

/-- **C137.**  No call panics: every call in flight can take the lock and return. -/
theorem C137_sliding_returns (c W c0 : Int) (as : List Action) (s : Sys State)
    (h : exec (step acquire) (start (new c W) c0) as = some s) (i : Nat) (hi : i < s.waiting.length) :
    ∃ s', step acquire s (.enter i) = some s' := by
  have hcap : 0 ≤ s.lim.capacity := by
    refine exec_inv (I := fun s : Sys State => 0 ≤ s.lim.capacity) (fun s a s' h0 hs => ?_) as _ _ ?_ h
    · cases a with
      | tick d => simp only [step, Option.some.injEq] at hs; subst hs; exact h0
      | read => simp only [step, Option.some.injEq] at hs; subst hs; exact h0
      | enter i =>
        simp only [step] at hs
        split at hs
        · simp at hs
        · rename_i t _
          obtain ⟨l, b, he, h1, -⟩ := acquire_total s.lim h0 t
          rw [he] at hs
          simp only [Option.some.injEq] at hs
          subst hs
          simp only; omega
    · simp only [start, new]; split <;> omega
  obtain ⟨l, b, he, -⟩ := acquire_total s.lim hcap s.waiting[i]
  simp only [step, List.getElem?_eq_getElem hi, he]
  exact ⟨_, rfl⟩

/-- **C137.**  Sliding window: however calls overtake each other, at most `c` clock readings of admitted calls lie in any
closed interval of length `W`. -/
theorem C137_sliding_bound (c W c0 : Int) (hc : 0 < c) (as : List Action) (s : Sys State)
    (h : exec (step acquire) (start (new c W) c0) as = some s) (lo : Int) :
    (passed s.log (fun e => decide (lo ≤ e.reading) && decide (e.reading ≤ lo + W)) : Int) ≤ c := by
  obtain ⟨n, rfl⟩ := Int.eq_ofNat_of_zero_le (Int.le_of_lt hc)
  have hn : 0 < n := by omega
  have inv := late_exec hn h
  have := inv.hsp.count_le hn lo
  rw [passed_readings s.log (fun t => decide (lo ≤ t) && decide (t ≤ lo + W))]
  omega

/-- **C137.**  The same by the times at which calls are decided: with calls that take at most `δ`, at most `c` are admitted
within any `W - δ`. -/
theorem C137_sliding_decided (c W c0 δ : Int) (hc : 0 < c) (as : List Action) (s : Sys State)
    (h : exec (step acquire) (start (new c W) c0) as = some s) (hδ : Within δ s.log) (lo hi : Int) (hlen : hi - lo ≤ W - δ) :
    (passed s.log (fun e => decide (lo ≤ e.decided) && decide (e.decided ≤ hi)) : Int) ≤ c := by
  have hb := C137_sliding_bound c W c0 hc as s h (lo - δ)
  have ht := timely_exec h
  have : passed s.log (fun e => decide (lo ≤ e.decided) && decide (e.decided ≤ hi)) ≤
      passed s.log (fun e => decide (lo - δ ≤ e.reading) && decide (e.reading ≤ lo - δ + W)) := by
    refine List.countP_mono_left fun e he hp => ?_
    have h1 := hδ e he
    have h2 := (ht.hlog e he).2.1
    simp only [Bool.and_eq_true, decide_eq_true_eq] at hp ⊢
    exact ⟨hp.1, by omega, by omega⟩
  omega

/-- C137 for the sliding window, as documented (slidingwindow.go:27-31): a call is admitted exactly if fewer than `c` calls
were admitted in the `W` before its reading. -/
def C137SlidingClaim : Prop :=
  ∀ (c W c0 : Int) (as : List Action) (s s' : Sys State) (i : Nat) (t d : Int) (b : Bool), 0 < c → 0 ≤ W →
    exec (step acquire) (start (new c W) c0) as = some s → step acquire s (.enter i) = some s' →
    s'.log = s.log ++ [⟨t, d, b⟩] →
    (b = true ↔ (passed s.log (fun e => decide (t - W ≤ e.reading) && decide (e.reading ≤ t)) : Int) < c)

/-- The exactness is lost when calls overtake each other: the call that read 0 is recorded behind the one that read 9, so
at 11 the oldest record is 9, and a call is refused although only one was admitted since 1. -/
theorem C137_sliding_violated : ¬ C137SlidingClaim := by
  intro h
  have := h 2 10 0 [.read, .tick 9, .read, .enter 1, .enter 0, .tick 2, .read] _ _ 0 11 11 false (by decide) (by decide) rfl rfl rfl
  revert this
  decide

/-- **C137, partial.**  With calls that take at most `δ` from the clock to the decision: an admitted call finds fewer than
`c` admitted in the `W` before its reading, and a refused one finds `c` of them in that time extended by `δ` on either
side.  For `δ = 0` this is `C137SlidingClaim`.  Missing: the calls in the extension. -/
theorem C137_sliding_partial (c W c0 δ : Int) (hc : 0 < c) (hW : 0 ≤ W) (as : List Action) (s s' : Sys State) (i : Nat) (t d : Int)
    (b : Bool) (h : exec (step acquire) (start (new c W) c0) as = some s) (hs : step acquire s (.enter i) = some s')
    (he : s'.log = s.log ++ [⟨t, d, b⟩]) (hδ : Within δ s'.log) :
    (b = true → (passed s.log (fun e => decide (t - W ≤ e.reading) && decide (e.reading ≤ t)) : Int) < c) ∧
    (b = false → c ≤ (passed s.log (fun e => decide (t - W - δ ≤ e.reading) && decide (e.reading ≤ t + δ)) : Int)) := by
  constructor
  · rintro rfl
    have h' : exec (step acquire) (start (new c W) c0) (as ++ [.enter i]) = some s' := by
      rw [exec_append, h]
      simp [exec, hs]
    have hb := C137_sliding_bound c W c0 hc _ s' h' (t - W)
    have hx : t - W + W = t := by omega
    rw [he, hx] at hb
    simp only [passed, List.countP_append, List.countP_cons, List.countP_nil] at hb ⊢
    have e1 : decide (t - W ≤ t) = true := by simp; omega
    simp only [e1, Bool.true_and, Int.le_refl, decide_true, if_true] at hb
    omega
  · rintro rfl
    obtain ⟨n, rfl⟩ := Int.eq_ofNat_of_zero_le (Int.le_of_lt hc)
    have hn : 0 < n := by omega
    have inv := late_exec hn h
    have ht := timely_exec h
    simp only [step] at hs
    split at hs
    · simp at hs
    rename_i t' hw
    split at hs
    · simp at hs
    rename_i l b' ha
    simp only [Option.some.injEq] at hs
    subst hs
    simp only [List.append_cancel_left_eq, List.cons.injEq, Entry.mk.injEq, and_true] at he
    obtain ⟨rfl, rfl, rfl⟩ := he
    obtain ⟨hcap, hwin, hlen, ⟨P, hP, hPf⟩, -⟩ := inv
    have hc0 : ¬ s.lim.capacity = 0 := by omega
    unfold acquire at ha
    rw [if_neg hc0] at ha
    split at ha
    · simp at ha
    rename_i hl
    split at ha
    · simp at ha
    rename_i x rest hr
    split at ha
    · simp at ha
    rename_i hx
    have hlast := hδ ⟨t', s.clock, false⟩ (by simp)
    simp only at hlast
    -- every record is recent
    have hrec : ∀ y ∈ s.lim.records, t' - W - δ ≤ y ∧ y ≤ t' + δ := by
      have hwt := (ht.hwait t' (List.mem_of_getElem? hw)).2
      have hpw : (passedTimes s.log).Pairwise (fun a b => a - δ ≤ b) := by
        unfold passedTimes
        refine List.Pairwise.map _ (R := fun a b : Entry => a.reading - δ ≤ b.reading) (fun _ _ h => h) ?_
        refine List.Pairwise.filter _ (List.Pairwise.imp_of_mem (fun {a b} ha hb hab => ?_) ht.hsort)
        have h1 := ht.hlog a ha
        have h2 := hδ b (by simp [hb])
        omega
      have hmem : ∀ y ∈ passedTimes s.log, y ≤ s.clock := by
        intro y hy
        unfold passedTimes at hy
        obtain ⟨e, he, rfl⟩ := List.mem_map.1 hy
        have := ht.hlog e (List.mem_filter.1 he).1
        omega
      rw [← hP, hr] at hpw
      have hfront := (List.pairwise_cons.1 (List.pairwise_append.1 hpw).2.1).1
      intro y hy
      have hu := hmem y (by rw [← hP]; simp [hy])
      rw [hr, List.mem_cons] at hy
      rcases hy with rfl | hy
      · constructor <;> omega
      · have := hfront y hy
        constructor <;> omega
    rw [passed_readings s.log (fun y => decide (t' - W - δ ≤ y) && decide (y ≤ t' + δ)), ← hP, List.countP_append]
    have : s.lim.records.countP (fun y => decide (t' - W - δ ≤ y) && decide (y ≤ t' + δ)) = s.lim.records.length := by
      rw [List.countP_eq_length]
      intro y hy
      have := hrec y hy
      simp only [Bool.and_eq_true, decide_eq_true_eq]; exact this
    omega

/-- Non-vacuity: calls that overtake each other, all admitted within two units of time of their readings. -/
example : ∃ s, exec (step acquire) (start (new 2 10) 0) [.read, .tick 1, .read, .enter 1, .tick 1, .enter 0, .tick 9, .read, .enter 0] = some s ∧
    Within 2 s.log ∧ s.log.map (fun e => (e.reading, e.result)) = [(1, true), (0, true), (11, false)] ∧
    passed s.log (fun e => decide (11 - 10 - 2 ≤ e.reading) && decide (e.reading ≤ 11 + 2)) = 2 := ⟨_, rfl, by decide⟩

end Gears.SlidingWindow
