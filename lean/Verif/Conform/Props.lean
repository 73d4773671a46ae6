import Verif.TokenBucket.Props
import Verif.AtomicBucket.Props
import Verif.SlidingWindow.Props
import Verif.FixedWindow.Start

/-
Callers that keep to the limit are never rejected (property C166): the limiters of /repo/ratelimiter, seen from a caller that does not
want to exceed what was configured.

The models are those of `Verif/TokenBucket/Model.lean` (/repo/ratelimiter/tokenbucket.go:67-104), `Verif/AtomicBucket/Model.lean`
(tokenbucket.go:106-177), `Verif/SlidingWindow/Model.lean` (slidingwindow.go:42-87) and `Verif/FixedWindow/Model.lean`
(fixedwindow.go:46-104).  No new model.
-/

namespace Gears.Conform

/-! ## Specification -/

/-- How many of the calls at `ts` are in `[a, b]` (nanoseconds). -/
def callsIn (ts : List Int) (a b : Int) : Nat := ts.countP fun t => decide (a ≤ t) && decide (t ≤ b)

/-- No more than `c` calls in any time of length `w` (half-open: the first and the last call are less than `w` apart). -/
def AtMost (c w : Int) (ts : List Int) : Prop := ∀ a, (callsIn ts a (a + w - 1) : Int) ≤ c

/-- No more than `bound d` calls within any `d` nanoseconds, for all `d`. -/
def Within (bound : Int → Int) (ts : List Int) : Prop := ∀ a d, 0 ≤ d → (callsIn ts a (a + d) : Int) ≤ bound d

def AllAdmitted (h : History) : Prop := ∀ e ∈ h, e.2 = true

instance (h : History) : Decidable (AllAdmitted h) := by unfold AllAdmitted; infer_instance

/-- **C166** for a token bucket, as the terms say: capacity and rate.  A burst of the capacity, and the rate for each whole second. -/
def C166Bucket : Prop := ∀ (c r t0 : Int), 1 ≤ c → 1 ≤ r → ∀ ts, NonDecreasing (t0 :: ts) → Within (fun d => c + r * (d / 1000000000)) ts →
  AllAdmitted (TokenBucket.run (TokenBucket.new c r t0) ts).2

/-- **C166** for a fixed window: no more calls than the capacity in any time of the length of the window. -/
def C166Fixed : Prop := ∀ (c w : Int), 1 ≤ c → 1 ≤ w → ∀ ts, NonDecreasing (0 :: ts) → AtMost c w ts →
  AllAdmitted (FixedWindow.run (FixedWindow.new c w) ts).2

/-! ## Counting -/

theorem callsIn_append (xs ys : List Int) (a b : Int) : callsIn (xs ++ ys) a b = callsIn xs a b + callsIn ys a b := by simp [callsIn]

theorem callsIn_all {xs : List Int} {a b : Int} (h : ∀ x ∈ xs, a ≤ x ∧ x ≤ b) : callsIn xs a b = xs.length := by
  rw [callsIn, List.countP_eq_length]
  intro x hx
  simp [h x hx]

/-- Calls in the middle that are in the time count. -/
theorem callsIn_mid {pre mid post : List Int} {a b : Int} (h : ∀ x ∈ mid, a ≤ x ∧ x ≤ b) : mid.length ≤ callsIn (pre ++ mid ++ post) a b := by
  rw [callsIn_append, callsIn_append, callsIn_all h]
  omega

/-- The calls of a history count, admitted or not. -/
theorem counted (ts : List Int) (h : History) (ht : h.map (·.1) = ts) (a b : Int) :
    h.countP (fun e => e.2 && decide (a ≤ e.1) && decide (e.1 ≤ b)) ≤ callsIn ts a b := by
  subst ht
  rw [callsIn, List.countP_map]
  apply List.countP_mono_left
  intro e _ he
  simp at he ⊢
  exact ⟨he.1.2, he.2⟩

/-! ## Token buckets -/

section Bucket
open TokenBucket

/-- What one call does, when the clock does not go back. -/
theorem acquire_cases (s : State) (t : Int) (wf : WF s) (hl : s.last ≤ t) :
    (s.tokens = s.capacity ∧ ((acquire s t).2 = decide (0 < s.tokens)) ∧ (0 < s.tokens → (acquire s t).1 = { s with tokens := s.tokens - 1 })) ∨
    (s.tokens < s.capacity ∧ (t - s.last) / second * s.rate = 0 ∧ ((acquire s t).2 = decide (0 < s.tokens)) ∧
      (0 < s.tokens → (acquire s t).1 = { s with tokens := s.tokens - 1 })) ∨
    (s.tokens < s.capacity ∧ 0 < (t - s.last) / second * s.rate ∧ (acquire s t).2 = true ∧
      (acquire s t).1 = { s with tokens := min s.capacity (s.tokens + (t - s.last) / second * s.rate) - 1, last := t }) := by
  rcases issue_cases s t hl wf.rate wf.hi with ⟨h1, h2⟩ | ⟨n, h1, h2, h3, h4, h5⟩
  · by_cases hf : s.tokens = s.capacity
    · refine .inl ⟨hf, ?_, fun hp => ?_⟩
      · simp only [acquire, h1]; split <;> simp_all
      · simp only [acquire, h1]; rw [if_pos hp]
    · refine .inr (.inl ⟨by have := wf.hi; omega, h2.resolve_left hf, ?_, fun hp => ?_⟩)
      · simp only [acquire, h1]; split <;> simp_all
      · simp only [acquire, h1]; rw [if_pos hp]
  · have hp : 0 < n := by have := wf.lo; omega
    have hd : 0 < (t - s.last) / second * s.rate := by
      have := wf.lo
      omega
    refine .inr (.inr ⟨h2, hd, ?_, ?_⟩)
    · simp only [acquire, h1]; rw [if_pos hp]
    · simp only [acquire, h1]; rw [if_pos hp, ← h5]

/-- From an invariant of the state and the calls so far, which holds as long as all calls are admitted. -/
theorem all_of (I : List Int → State → Prop) (P : List Int → Prop)
    (hstep : ∀ pre s t post, P (pre ++ [t] ++ post) → (∀ x ∈ pre, x ≤ t) → WF s → s.last ≤ t → I pre s →
      (acquire s t).2 = true ∧ I (pre ++ [t]) (acquire s t).1) :
    ∀ (ts pre : List Int) (s : State), P (pre ++ ts) → NonDecreasing (pre ++ ts) → NonDecreasing (s.last :: ts) → WF s → I pre s → AllAdmitted (run s ts).2
  | [], _, _, _, _, _, _, _ => by simp [run, AllAdmitted]
  | t :: ts, pre, s, hP, hm, hl, wf, hI => by
    have hlt : s.last ≤ t := (List.pairwise_cons.1 hl).1 t (by simp)
    have hpre : ∀ x ∈ pre, x ≤ t := fun x hx => (List.pairwise_append.1 hm).2.2 x hx t (by simp)
    have e : pre ++ t :: ts = pre ++ [t] ++ ts := by simp
    obtain ⟨h1, h2⟩ := hstep pre s t ts (e ▸ hP) hpre wf hlt hI
    obtain ⟨w1, _, _, _, w5, _⟩ := acquire_spec s t wf hlt
    have hl' : NonDecreasing ((acquire s t).1.last :: ts) := by
      have h3 := (List.pairwise_cons.1 hl).2
      refine List.pairwise_cons.2 ⟨fun x hx => ?_, (List.pairwise_cons.1 h3).2⟩
      have := (List.pairwise_cons.1 h3).1 x hx
      omega
    have ih := all_of I P hstep ts (pre ++ [t]) (acquire s t).1 (e ▸ hP) (e ▸ hm) hl' w1 h2
    intro x hx
    simp only [run, List.mem_cons] at hx
    rcases hx with rfl | hx
    · exact h1
    · exact ih x hx

/-- The tokens are full, or the calls since `last`, less than a second ago, are what is missing of `m`. -/
def Short (c r m : Int) (pre : List Int) (s : State) : Prop :=
  s.capacity = c ∧ s.rate = r ∧ (s.tokens = c ∨ ∃ a b, pre = a ++ b ∧ (∀ x ∈ b, s.last ≤ x) ∧ m ≤ s.tokens + b.length)

theorem short_step {c r m : Int} (hm : m = min c r) (hr : 1 ≤ r) (pre : List Int) (s : State) (t : Int) (post : List Int)
    (hP : AtMost m 1000000000 (pre ++ [t] ++ post)) (hpre : ∀ x ∈ pre, x ≤ t) (wf : WF s) (hl : s.last ≤ t) (hI : Short c r m pre s) :
    (acquire s t).2 = true ∧ Short c r m (pre ++ [t]) (acquire s t).1 := by
  obtain ⟨h1, h2, h3⟩ := hI
  have hm1 : 1 ≤ m := by
    have := hP t
    have h4 := callsIn_mid (pre := pre) (mid := [t]) (post := post) (a := t) (b := t + 1000000000 - 1) (by simp; omega)
    simp only [List.length_cons, List.length_nil] at h4
    omega
  rcases acquire_cases s t wf hl with ⟨g1, g2, g3⟩ | ⟨g1, g2, g3, g4⟩ | ⟨g1, g2, g3, g4⟩
  · clear h3
    have hp : 0 < s.tokens := by omega
    refine ⟨by rw [g2]; simpa using hp, ?_⟩
    rw [g3 hp]
    refine ⟨h1, h2, .inr ⟨pre, [t], rfl, by simpa using hl, ?_⟩⟩
    simp only [List.length_cons, List.length_nil]
    omega
  · obtain ⟨a, b, e, h4, h5⟩ := h3.resolve_left (by omega)
    have hlate : t < s.last + 1000000000 := by
      rcases Int.mul_eq_zero.1 g2 with h | h
      · unfold second at h; omega
      · omega
    have hp : 0 < s.tokens := by
      have := hP s.last
      have h6 := callsIn_mid (pre := a) (mid := b ++ [t]) (post := post) (a := s.last) (b := s.last + 1000000000 - 1) (by
        intro x hx
        rcases List.mem_append.1 hx with hx | hx
        · have h7 := h4 x hx
          have h8 := hpre x (by rw [e]; simp [hx])
          omega
        · simp at hx; omega)
      rw [← List.append_assoc, ← e] at h6
      simp only [List.length_append, List.length_cons, List.length_nil] at h6
      omega
    refine ⟨by rw [g3]; simpa using hp, ?_⟩
    rw [g4 hp]
    refine ⟨h1, h2, .inr ⟨a, b ++ [t], by rw [e]; simp, ?_, ?_⟩⟩
    · intro x hx
      rcases List.mem_append.1 hx with hx | hx
      · exact h4 x hx
      · simp at hx; subst hx; exact hl
    · simp only [List.length_append, List.length_cons, List.length_nil]
      omega
  · clear h3
    refine ⟨g3, ?_⟩
    rw [g4]
    refine ⟨h1, h2, .inr ⟨pre, [t], rfl, by simp, ?_⟩⟩
    have hq : 0 < (t - s.last) / second := by
      have h6 : 0 ≤ (t - s.last) / second := Int.ediv_nonneg (by omega) (by decide)
      rcases Int.lt_or_eq_of_le h6 with h | h
      · exact h
      · rw [← h] at g2; simp at g2
    have hge : r ≤ (t - s.last) / second * s.rate := by
      rw [h2]
      have := Int.mul_le_mul_of_nonneg_right (show 1 ≤ (t - s.last) / second by omega) (show 0 ≤ r by omega)
      omega
    have := wf.lo
    simp only [List.length_cons, List.length_nil]
    omega

/-- **C166** for `SyncTokenBucket`: with no more than `min capacity rate` calls within any second, all are admitted.  Missing: `C166Bucket`. -/
theorem C166_bucket_partial (c r t0 : Int) (hc : 0 ≤ c) (hr : 1 ≤ r) (ts : List Int) (hm : NonDecreasing (t0 :: ts)) (h : AtMost (min c r) 1000000000 ts) :
    AllAdmitted (run (new c r t0) ts).2 :=
  all_of (Short c r (min c r)) (AtMost (min c r) 1000000000) (fun pre s t post => short_step rfl hr pre s t post) ts [] (new c r t0) (by simpa using h)
    (List.pairwise_cons.1 hm).2 hm (new_wf hc (by omega)) ⟨rfl, rfl, .inl rfl⟩

/-- Since the tokens were full last, at least half of the rate was issued. -/
def Half (c r : Int) (pre : List Int) (s : State) : Prop :=
  s.capacity = c ∧ s.rate = r ∧ (s.tokens = c ∨ ∃ a b x, pre = a ++ b ∧ (∀ y ∈ b, x ≤ y) ∧
    2000000000 * c + max 0 (r * (s.last - x)) ≤ 2000000000 * (s.tokens + b.length))

/-- The condition with bursts: the capacity, and then half of the rate. -/
def HalfRate (c r : Int) (ts : List Int) : Prop :=
  ∀ a d, 0 ≤ d → 2000000000 * (callsIn ts a (a + d) : Int) ≤ 2000000000 * c + max 0 (r * (d - 1000000000))

theorem half_step {c r : Int} (hr : 1 ≤ r) (pre : List Int) (s : State) (t : Int) (post : List Int)
    (hP : HalfRate c r (pre ++ [t] ++ post)) (hpre : ∀ x ∈ pre, x ≤ t) (wf : WF s) (hl : s.last ≤ t) (hI : Half c r pre s) :
    (acquire s t).2 = true ∧ Half c r (pre ++ [t]) (acquire s t).1 := by
  obtain ⟨h1, h2, h3⟩ := hI
  have hc1 : 1 ≤ c := by
    have := hP t 0 (by omega)
    have h4 := callsIn_mid (pre := pre) (mid := [t]) (post := post) (a := t) (b := t + 0) (by simp)
    simp only [List.length_cons, List.length_nil] at h4
    omega
  rcases acquire_cases s t wf hl with ⟨g1, g2, g3⟩ | ⟨g1, g2, g3, g4⟩ | ⟨g1, g2, g3, g4⟩
  · have hp : 0 < s.tokens := by omega
    refine ⟨by rw [g2]; simpa using hp, ?_⟩
    rw [g3 hp]
    refine ⟨h1, h2, .inr ⟨pre, [t], t, rfl, by simp, ?_⟩⟩
    have : r * (s.last - t) ≤ 0 := by
      have := Int.mul_le_mul_of_nonneg_left (show s.last - t ≤ 0 by omega) (show 0 ≤ r by omega)
      omega
    simp only [List.length_cons, List.length_nil]
    omega
  · obtain ⟨a, b, x, e, h4, h5⟩ := h3.resolve_left (by omega)
    have hlate : t < s.last + 1000000000 := by
      rcases Int.mul_eq_zero.1 g2 with h | h
      · unfold second at h; omega
      · omega
    -- `x` is not after the call
    have hxt : b ≠ [] → x ≤ t := by
      intro hb
      obtain ⟨y, hy⟩ := List.exists_mem_of_ne_nil b hb
      have := h4 y hy
      have := hpre y (by rw [e]; simp [hy])
      omega
    have hp : 0 < s.tokens := by
      have hlo := wf.lo
      by_cases hb : b = []
      · subst hb
        simp only [List.length_nil] at h5
        omega
      have hx := hxt hb
      have h6 := hP x (t - x) (by omega)
      have h7 := callsIn_mid (pre := a) (mid := b ++ [t]) (post := post) (a := x) (b := x + (t - x)) (by
        intro y hy
        rcases List.mem_append.1 hy with hy | hy
        · have h7 := h4 y hy
          have h8 := hpre y (by rw [e]; simp [hy])
          omega
        · simp at hy; omega)
      rw [← List.append_assoc, ← e] at h7
      simp only [List.length_append, List.length_cons, List.length_nil] at h7
      have h9 : r * (t - x - 1000000000) ≤ r * (s.last - x) := Int.mul_le_mul_of_nonneg_left (by omega) (by omega)
      omega
    refine ⟨by rw [g3]; simpa using hp, ?_⟩
    rw [g4 hp]
    by_cases hb : b = []
    · subst hb
      simp only [List.length_nil] at h5
      omega
    refine ⟨h1, h2, .inr ⟨a, b ++ [t], x, by rw [e]; simp, ?_, ?_⟩⟩
    · intro y hy
      rcases List.mem_append.1 hy with hy | hy
      · exact h4 y hy
      · simp at hy; subst hy; exact hxt hb
    · simp only [List.length_append, List.length_cons, List.length_nil]
      omega
  · refine ⟨g3, ?_⟩
    rw [g4]
    obtain ⟨a, b, x, e, h4, h5⟩ := h3.resolve_left (by omega)
    by_cases hfull : s.capacity ≤ s.tokens + (t - s.last) / second * s.rate
    · refine ⟨h1, h2, .inr ⟨pre, [t], t, rfl, by simp, ?_⟩⟩
      simp only [List.length_cons, List.length_nil, Int.sub_self, Int.mul_zero]
      omega
    · have hb : b ≠ [] := by
        rintro rfl
        simp only [List.length_nil] at h5
        omega
      have hx : x ≤ t := by
        obtain ⟨y, hy⟩ := List.exists_mem_of_ne_nil b hb
        have := h4 y hy
        have := hpre y (by rw [e]; simp [hy])
        omega
      refine ⟨h1, h2, .inr ⟨a, b ++ [t], x, by rw [e]; simp, ?_, ?_⟩⟩
      · intro y hy
        rcases List.mem_append.1 hy with hy | hy
        · exact h4 y hy
        · simp at hy; subst hy; exact hx
      · have hq : 1 ≤ (t - s.last) / second := by
          have h6 : 0 ≤ (t - s.last) / second := Int.ediv_nonneg (by omega) (by decide)
          rcases Int.lt_or_eq_of_le h6 with h | h
          · exact h
          · rw [← h] at g2; simp at g2
        have hq2 : t - s.last ≤ 2000000000 * ((t - s.last) / second) := by unfold second at hq ⊢; omega
        have h8 : r * (t - x) ≤ r * (t - s.last) + max 0 (r * (s.last - x)) := by
          have : r * (t - x) = r * (t - s.last) + r * (s.last - x) := by rw [← Int.mul_add]; congr 1; omega
          omega
        have h9 : r * (t - s.last) ≤ 2000000000 * ((t - s.last) / second * r) := by
          have h10 := Int.mul_le_mul_of_nonneg_left hq2 (show 0 ≤ r by omega)
          have h11 : r * (2000000000 * ((t - s.last) / second)) = 2000000000 * ((t - s.last) / second * r) := by
            rw [Int.mul_left_comm, Int.mul_comm r]
          omega
        rw [h2] at hfull g2 ⊢
        simp only [List.length_append, List.length_cons, List.length_nil]
        omega

/-- **C166** for `SyncTokenBucket`, with bursts: with no more calls in any `d` than the capacity and half of the rate for what is beyond the
first second, all are admitted.  Missing: `C166Bucket`, the whole rate. -/
theorem C166_bursts_partial (c r t0 : Int) (hc : 0 ≤ c) (hr : 1 ≤ r) (ts : List Int) (hm : NonDecreasing (t0 :: ts)) (h : HalfRate c r ts) :
    AllAdmitted (run (new c r t0) ts).2 :=
  all_of (Half c r) (HalfRate c r) (fun pre s t post => half_step hr pre s t post) ts [] (new c r t0) (by simpa using h)
    (List.pairwise_cons.1 hm).2 hm (new_wf hc (by omega)) ⟨rfl, rfl, .inl rfl⟩

end Bucket

/-- **C166** for `AtomicTokenBucket`, when calls do not overlap. -/
theorem C166_atomic_partial (c r t0 : Int) (hc : 0 ≤ c) (hr : 1 ≤ r) (n : Nat) (cs : List (Int × Nat)) (s' : AtomicBucket.State)
    (h : AtomicBucket.SeqExec (AtomicBucket.init c r t0 n) cs s') (hm : NonDecreasing (t0 :: AtomicBucket.readings t0 cs))
    (hk : AtMost (min c r) 1000000000 (AtomicBucket.readings t0 cs) ∨ HalfRate c r (AtomicBucket.readings t0 cs)) :
    ∀ b ∈ s'.log, b = true := by
  rw [AtomicBucket.C05_sequential_equals_sync c r t0 n cs s' h]
  intro b hb
  obtain ⟨e, he, rfl⟩ := List.mem_map.1 hb
  rcases hk with hk | hk
  · exact C166_bucket_partial c r t0 hc hr _ hm hk e he
  · exact C166_bursts_partial c r t0 hc hr _ hm hk e he

/-! ## Sliding window -/

section Sliding
open SlidingWindow

theorem sliding_times : ∀ (ts : List Int) (s s' : State) (h : History), run s (acquires ts) = some (s', h) → h.map (·.1) = ts
  | [], s, s', h, hr => by
    simp [acquires, run] at hr
    rw [hr.2]; rfl
  | t :: ts, s, s', h, hr => by
    simp only [acquires, List.map_cons, run] at hr
    split at hr
    · cases hr
    · rename_i s1 b _
      split at hr
      · cases hr
      · rename_i s2 h2 hr2
        cases hr
        simp only [List.map_cons]
        rw [sliding_times ts s1 _ h2 hr2]

theorem sliding_snoc : ∀ (ts : List Int) (t : Int) (s s' : State) (h : History), run s (acquires (ts ++ [t])) = some (s', h) →
    ∃ s1 h1 b, run s (acquires ts) = some (s1, h1) ∧ acquire s1 t = some (s', b) ∧ h = h1 ++ [(t, b)]
  | [], t, s, s', h, hr => by
    simp only [acquires, List.nil_append, List.map_cons, List.map_nil, run] at hr ⊢
    split at hr
    · cases hr
    · rename_i s1 b ha
      cases hr
      exact ⟨s, [], b, rfl, ha, rfl⟩
  | u :: ts, t, s, s', h, hr => by
    simp only [acquires, List.cons_append, List.map_cons, run] at hr ⊢
    split at hr
    · cases hr
    · rename_i s1 b ha
      split at hr
      · cases hr
      · rename_i s2 h2 hr2
        cases hr
        obtain ⟨s3, h3, b3, e1, e2, e3⟩ := sliding_snoc ts t s1 _ h2 hr2
        simp only [acquires] at e1
        refine ⟨s3, (u, b) :: h3, b3, ?_, e2, by rw [e3]; rfl⟩
        simp only [e1]

/-- **C166** for the sliding window: with no more calls than the capacity in any time of the length of the window (both ends count), all are
admitted. -/
theorem C166_sliding (c w : Int) (hc : 1 ≤ c) (hw : 0 ≤ w) (ts : List Int) (hm : NonDecreasing ts) (hk : AtMost c (w + 1) ts) :
    ∃ s h, run (new c w) (acquires ts) = some (s, h) ∧ AllAdmitted h := by
  generalize hn : ts.length = n
  induction n generalizing ts with
  | zero =>
    cases List.length_eq_zero_iff.1 hn
    exact ⟨_, [], rfl, by simp [AllAdmitted]⟩
  | succ n ih =>
    obtain ⟨pre, t, rfl⟩ : ∃ pre t, ts = pre ++ [t] := ⟨ts.dropLast, ts.getLast (by intro h; rw [h] at hn; cases hn), (List.dropLast_append_getLast _).symm⟩
    obtain ⟨s, h, hr, ha⟩ := ih pre (List.pairwise_append.1 hm).1 (fun a => by
      have := hk a
      rw [callsIn_append] at this
      omega) (by simpa using hn)
    obtain ⟨s', b, e1, e2⟩ := C09_exact_log c w (by omega) pre t hm s h hr
    have hcount : (admittedIn h (t - w) t : Int) < c := by
      have h1 := counted pre h (sliding_times pre _ _ _ hr) (t - w) t
      have h2 := hk (t - w)
      rw [callsIn_append, show t - w + (w + 1) - 1 = t by omega, callsIn_all (xs := [t]) (by simp; omega)] at h2
      simp only [List.length_cons, List.length_nil] at h2
      unfold admittedIn
      omega
    obtain rfl : b = true := e2.2 hcount
    refine ⟨s', h ++ [(t, true)], ?_, ?_⟩
    · obtain ⟨s2, h2, b2, r1⟩ : ∃ s2 h2, ∃ _ : Unit, run (new c w) (acquires (pre ++ [t])) = some (s2, h2) := by
        obtain ⟨k, rfl⟩ := Int.eq_ofNat_of_zero_le (show 0 ≤ c by omega)
        obtain ⟨s0, h0, hr0, _⟩ := run_acquires_inv (n := k) (by omega) (W := w) (pre ++ [t]) [] (new k w) (new_inv w)
        exact ⟨s0, h0, (), hr0⟩
      obtain ⟨s3, h3, b3, f1, f2, f3⟩ := sliding_snoc pre t _ _ _ r1
      rw [hr] at f1
      cases f1
      rw [e1] at f2
      cases f2
      rw [r1, f3]
    · intro e he
      rcases List.mem_append.1 he with he | he
      · exact ha e he
      · simp at he; rw [he]

end Sliding

/-! ## Fixed window -/

section Fixed
open FixedWindow

theorem fixed_times (s : State) (ts : List Int) : (run s ts).2.map (·.1) = ts := by
  induction ts generalizing s with
  | nil => rfl
  | cons t ts ih => simp [run, ih]

/-- All calls are admitted if each is after those before it. -/
theorem fixed_all : ∀ (ts : List Int) (s : State), (∀ pre t post, ts = pre ++ t :: post → (acquire (run s pre).1 t).2 = true) → AllAdmitted (run s ts).2
  | [], _, _ => by simp [run, AllAdmitted]
  | t :: ts, s, h => by
    intro e he
    simp only [run, List.mem_cons] at he
    rcases he with rfl | he
    · exact h [] t ts rfl
    · exact fixed_all ts (acquire s t).1 (fun pre u post hp => h (t :: pre) u post (by rw [hp]; rfl)) e he

theorem in_interval (c W k : Int) (pre : List Int) :
    admittedInInterval (run (new c W) pre).2 W k ≤ callsIn pre ((k - 1) * W + 1) (k * W) := by
  refine Nat.le_trans (Nat.le_of_eq ?_) (counted pre _ (fixed_times (new c W) pre) ((k - 1) * W + 1) (k * W))
  unfold admittedInInterval
  congr 1

theorem clockOk_prefix {W : Int} : ∀ {pre : List Int} {t : Int} {post : List Int}, ClockOk W (pre ++ t :: post) → ClockOk W (pre ++ [t])
  | [], t, post, h => ⟨h.1, h.2.1, trivial⟩
  | u :: pre, t, post, h => by
    refine ⟨h.1, h.2.1, ?_⟩
    have : ∀ (us : List Int) (p : Int), Steady p (us ++ t :: post) → Steady p (us ++ [t]) := by
      intro us
      induction us with
      | nil => intro p h; exact ⟨h.1, h.2.1, trivial⟩
      | cons v us ih => intro p h; exact ⟨h.1, h.2.1, ih v h.2.2⟩
    exact this pre u h.2.2

/-- **C166** for the fixed window, clock restricted as in C13: with no more calls than the capacity in any time of the length of the window,
all are admitted.  Missing: `C166Fixed`. -/
theorem C166_fixed_partial (c W : Int) (hW : 0 < W) (hW2 : W < 2 ^ 53) (ts : List Int) (hok : ClockOk W ts) (hk : AtMost c W ts) :
    AllAdmitted (run (new c W) ts).2 := by
  apply fixed_all
  rintro pre t post rfl
  obtain ⟨k, hk1, hk2⟩ := exists_ceil t W hW
  have hkW : (k - 1) * W + 1 + W - 1 = k * W := by rw [Int.sub_mul]; omega
  apply Classical.byContradiction
  intro hb
  have hrej := (C13_reject_iff_used_up_partial c W hW hW2 pre t k (clockOk_prefix hok) hk1 hk2).1 (by simpa using hb)
  have h1 := in_interval c W k pre
  have h2 := hk ((k - 1) * W + 1)
  rw [hkW, show pre ++ t :: post = pre ++ ([t] ++ post) from rfl, callsIn_append, callsIn_append, callsIn_all (xs := [t]) (by simp; omega)] at h2
  simp only [List.length_cons, List.length_nil] at h2
  omega

/-- **C166** for the fixed window, whenever the first call is: no more calls than the capacity in any time of the length of two windows. -/
theorem C166_fixed_any_start_partial (c W : Int) (hW : 2049 ≤ W) (hW2 : W < 2 ^ 53) (t1 : Int) (ts : List Int) (h0 : 0 < t1) (h63 : t1 < 2 ^ 63)
    (hst : Steady t1 ts) (hk : AtMost c (2 * W) (t1 :: ts)) : AllAdmitted (run (new c W) (t1 :: ts)).2 := by
  apply fixed_all
  intro pre t post e
  have h2 := fun k => hk ((k - 2) * W + 1)
  rw [e] at h2
  have hself : ∀ (a b : Int), a ≤ t → t ≤ b → callsIn (pre ++ t :: post) a b = callsIn pre a b + (1 + callsIn post a b) := by
    intro a b ha hb
    rw [show pre ++ t :: post = pre ++ ([t] ++ post) from rfl, callsIn_append, callsIn_append, callsIn_all (xs := [t]) (by simp; omega)]
    rfl
  cases pre with
  | nil =>
    cases e
    have hpos : 1 ≤ c := by
      have h3 := hk t1
      have h4 := callsIn_mid (pre := []) (mid := [t1]) (post := ts) (a := t1) (b := t1 + 2 * W - 1) (by simp; omega)
      simp only [List.nil_append, List.singleton_append, List.length_cons, List.length_nil] at h4
      omega
    have hn : ¬ contains (new c W) t1 := by simp only [contains, new]; omega
    show (acquire (new c W) t1).2 = true
    unfold acquire
    simp only [hn, not_false_eq_true, if_true, reset, if_false]
    rw [if_pos (by simp only [new]; omega)]
  | cons u pre =>
    cases e
    obtain ⟨k, hk1, hk2⟩ := exists_ceil t W (by omega)
    have hst' : Steady t1 (pre ++ [t]) := by
      have : ∀ (us : List Int) (p : Int), Steady p (us ++ t :: post) → Steady p (us ++ [t]) := by
        intro us
        induction us with
        | nil => intro p h; exact ⟨h.1, h.2.1, trivial⟩
        | cons v us ih => intro p h; exact ⟨h.1, h.2.1, ih v h.2.2⟩
      exact this pre t1 hst
    apply Classical.byContradiction
    intro hb
    have hrej := C13_reject_any_start c W hW hW2 t1 pre t k h0 h63 hst' hk1 hk2 (by simpa using hb)
    have e1 : (k - 1) * W = (k - 2) * W + W := by rw [Int.sub_mul, Int.sub_mul]; omega
    have e2 : k * W = (k - 2) * W + 2 * W := by rw [Int.sub_mul]; omega
    have i1 := in_interval c W (k - 1) (t1 :: pre)
    have i2 := in_interval c W k (t1 :: pre)
    have h3 := h2 k
    rw [show k - 1 - 1 = k - 2 by omega] at i1
    rw [hself _ _ (by omega) (by omega)] at h3
    have hsplit : callsIn (t1 :: pre) ((k - 2) * W + 1) ((k - 1) * W) + callsIn (t1 :: pre) ((k - 1) * W + 1) (k * W) ≤
        callsIn (t1 :: pre) ((k - 2) * W + 1) ((k - 2) * W + 1 + 2 * W - 1) := by
      generalize t1 :: pre = us
      clear * - e1 e2 hW
      induction us with
      | nil => simp [callsIn]
      | cons v us ih =>
        simp only [callsIn, List.countP_cons] at ih ⊢
        simp only [Bool.and_eq_true, decide_eq_true_eq]
        split <;> split <;> split <;> omega
    omega

end Fixed

/-! ## Violations -/

/-- **C166 is violated** by the token buckets: the fractions of a second are lost.  Capacity 3, rate 2: three calls at 0, two at 1.9 s, one at
2.0 s, which is refused, although in no time there were more calls than the capacity and twice the whole seconds. -/
theorem C166_bucket_violated : ¬ C166Bucket := by
  intro h
  have hw : Within (fun d => 3 + 2 * (d / 1000000000)) [0, 0, 0, 1900000000, 1900000000, 2000000000] := by
    intro a d hd
    simp only [callsIn, List.countP_cons, List.countP_nil, Bool.and_eq_true, decide_eq_true_eq]
    by_cases h1 : a ≤ 0 <;> by_cases h2 : a ≤ 1900000000 <;> by_cases h3 : a ≤ 2000000000 <;>
      by_cases h4 : 0 ≤ a + d <;> by_cases h5 : 1900000000 ≤ a + d <;> by_cases h6 : 2000000000 ≤ a + d <;> simp [h1, h2, h3, h4, h5, h6] <;> omega
  have := h 3 2 0 (by decide) (by decide) [0, 0, 0, 1900000000, 1900000000, 2000000000] (by decide) hw
  revert this
  decide

/-- **C166 is violated** by the fixed window: capacity 1, a window of a ninth of a second; of two calls that are a whole window apart the second
is refused. -/
theorem C166_fixed_violated : ¬ C166Fixed := by
  intro h
  have hw : AtMost 1 111111111 [1700000000522222219, 1700000000633333330] := by
    intro a
    simp only [callsIn, List.countP_cons, List.countP_nil, Bool.and_eq_true, decide_eq_true_eq]
    split <;> split <;> omega
  have h1 := h 1 111111111 (by decide) (by decide) [1700000000522222219, 1700000000633333330] (by decide) hw
  simp [FixedWindow.run, FixedWindow.acquire, FixedWindow.new, FixedWindow.contains, FixedWindow.reset, FixedWindow.goCeilDiv_sample3, AllAdmitted] at h1

/-! ## Examples -/

/-- Two calls in each second, for a bucket with capacity 3 and rate 2. -/
example : AtMost (min 3 2) 1000000000 [0, 0, 1000000000, 1500000000, 2000000000] := by
  intro a
  simp only [callsIn, List.countP_cons, List.countP_nil, Bool.and_eq_true, decide_eq_true_eq]
  by_cases h1 : a ≤ 0 <;> by_cases h2 : a ≤ 1000000000 <;> by_cases h3 : a ≤ 1500000000 <;> by_cases h4 : a ≤ 2000000000 <;>
    simp [h1, h2, h3, h4] <;> omega

/-- One call more within a second is too much: `min capacity rate` cannot be replaced by more. -/
example : ¬ AllAdmitted (TokenBucket.run (TokenBucket.new 2 2 0) [0, 500000000, 999999999]).2 ∧
    ¬ AllAdmitted (TokenBucket.run (TokenBucket.new 3 2 0) [0, 0, 0, 1000000000, 1000000000, 1000000000]).2 := by decide

/-- A burst, then half of the rate. -/
example : HalfRate 3 2 [0, 0, 0, 2000000000, 3000000000] := by
  intro a d hd
  simp only [callsIn, List.countP_cons, List.countP_nil, Bool.and_eq_true, decide_eq_true_eq]
  by_cases h1 : a ≤ 0 <;> by_cases h2 : a ≤ 2000000000 <;> by_cases h3 : a ≤ 3000000000 <;>
    by_cases h4 : 0 ≤ a + d <;> by_cases h5 : 2000000000 ≤ a + d <;> by_cases h6 : 3000000000 ≤ a + d <;> simp [h1, h2, h3, h4, h5, h6] <;> omega

/-- Of two calls a window apart, the sliding window refuses the second. -/
example : (SlidingWindow.run (SlidingWindow.new 1 10) (SlidingWindow.acquires [0, 10])).map (·.2) = some [(0, true), (10, false)] := by decide

end Gears.Conform
