import Verif.FixedWindow.Props
import Verif.Procs.Props

/-
C133: the fixed window in the arithmetic of int64 and float64.
-/

namespace Gears.FixedWindow

open Float64
open Gears.Procs (wrap wrap_of)

/-! ## Model -/

/-- `int64(math.Ceil(float64(d)/float64(w)))` (fixedwindow.go:102).  Go does not say what the conversion of a float out of range, of an infinity or a NaN (`w = 0`)
yields: `wild`. -/
def ceilDivW (wild : Int → Int) (d w : Int) : Int :=
  if w = 0 then wild d
  else if -2 ^ 63 ≤ goCeilDiv d w ∧ goCeilDiv d w < 2 ^ 63 then goCeilDiv d w
  else wild d

/-- `reset` (fixedwindow.go:98-104) in 64-bit arithmetic. -/
def resetW (wild : Int → Int) (s : State) (ts : Int) : State :=
  if contains s ts then s
  else { s with till := wrap (s.till + wrap (ceilDivW wild (wrap (ts - s.till)) s.windowSize * s.windowSize)), count := 0 }

/-- `Acquire` (fixedwindow.go:66-82); `count++` does not overflow, as `count` is below `capacity`. -/
def acquireW (wild : Int → Int) (s : State) (now : Int) : State × Bool :=
  let s1 := if ¬ contains s now then resetW wild s now else s
  if s1.count < s1.capacity then ({ s1 with count := s1.count + 1 }, true) else (s1, false)

def runW (wild : Int → Int) (s : State) : List Int → State × History
  | [] => (s, [])
  | t :: ts =>
    let r := acquireW wild s t
    let r2 := runW wild r.1 ts
    (r2.1, (t, r.2) :: r2.2)

/-! ## The quotient -/

theorem rnd_between (x : ℚ) (hx : 0 < x) : x * (1 - 1 / 2 ^ 53) ≤ rnd x ∧ rnd x ≤ x * (1 + 1 / 2 ^ 53) := by
  have h := rnd_err x
  rw [abs_of_pos hx, abs_le] at h
  constructor <;> linarith [h.1, h.2]

/-- The quotient is positive and at most a few units in the last place too large. -/
theorem quot_bound (d W : ℤ) (hd : 0 < d) (hW : 0 < W) :
    0 < div (ofInt d) (ofInt W) ∧ div (ofInt d) (ofInt W) ≤ (d : ℚ) / W * (1 + 1 / 2 ^ 51) := by
  have hWq : (0 : ℚ) < W := by exact_mod_cast hW
  have hdq : (0 : ℚ) < d := by exact_mod_cast hd
  obtain ⟨d1, d2⟩ := rnd_between d hdq
  obtain ⟨w1, w2⟩ := rnd_between W hWq
  have hd0 : 0 < rnd (d : ℚ) := lt_of_lt_of_le (mul_pos (by assumption) (by norm_num)) d1
  have hw0 : 0 < rnd (W : ℚ) := lt_of_lt_of_le (mul_pos (by assumption) (by norm_num)) w1
  obtain ⟨q1, q2⟩ := rnd_between (rnd (d : ℚ) / rnd (W : ℚ)) (div_pos hd0 hw0)
  unfold div ofInt
  constructor
  · exact lt_of_lt_of_le (mul_pos (div_pos hd0 hw0) (by norm_num)) q1
  · refine le_trans q2 ?_
    have : rnd (d : ℚ) / rnd (W : ℚ) ≤ ((d : ℚ) * (1 + 1 / 2 ^ 53)) / (W * (1 - 1 / 2 ^ 53)) :=
      div_le_div₀ (by positivity) d2 (mul_pos hWq (by norm_num)) w1
    have e : ((d : ℚ) * (1 + 1 / 2 ^ 53)) / (W * (1 - 1 / 2 ^ 53)) = (d : ℚ) / W * ((1 + 1 / 2 ^ 53) / (1 - 1 / 2 ^ 53)) := by
      rw [mul_div_mul_comm]
    rw [e] at this
    have hq : (0 : ℚ) < d / W := div_pos hdq hWq
    calc rnd (d : ℚ) / rnd (W : ℚ) * (1 + 1 / 2 ^ 53) ≤ (d : ℚ) / W * ((1 + 1 / 2 ^ 53) / (1 - 1 / 2 ^ 53)) * (1 + 1 / 2 ^ 53) :=
          mul_le_mul_of_nonneg_right this (by norm_num)
      _ ≤ (d : ℚ) / W * (1 + 1 / 2 ^ 51) := by
          rw [mul_assoc]
          exact mul_le_mul_of_nonneg_left (by norm_num) (le_of_lt hq)

/-- The new end of the interval, relative to the old one: one window, or a little more than the request and a window. -/
theorem step_bound (d W : ℤ) (hd : 0 < d) (hd2 : d ≤ 2 ^ 62) (hW : 0 < W) :
    0 < goCeilDiv d W ∧ (goCeilDiv d W = 1 ∨ W < d + 2 ^ 11 ∧ goCeilDiv d W * W < d + 2 ^ 11 + W) := by
  have hWq : (0 : ℚ) < W := by exact_mod_cast hW
  have hdq : (0 : ℚ) < d := by exact_mod_cast hd
  have hd2q : (d : ℚ) ≤ 2 ^ 62 := by exact_mod_cast hd2
  obtain ⟨h1, h2⟩ := quot_bound d W hd hW
  have hpos : 0 < goCeilDiv d W := Int.ceil_pos.2 h1
  refine ⟨hpos, ?_⟩
  have hs : (d : ℚ) * (1 + 1 / 2 ^ 51) ≤ d + 2 ^ 11 := by
    have : (d : ℚ) * (1 / 2 ^ 51) ≤ 2 ^ 11 := by
      rw [mul_one_div, div_le_iff₀ (by positivity)]
      norm_num at hd2q ⊢
      exact hd2q
    linarith
  rcases le_or_gt (d + 2 ^ 11) W with h | h
  · left
    have hq : (d : ℚ) + 2 ^ 11 ≤ W := by exact_mod_cast h
    have : div (ofInt d) (ofInt W) ≤ 1 := by
      refine le_trans h2 ?_
      rw [div_mul_eq_mul_div, div_le_one hWq]
      linarith
    have : goCeilDiv d W ≤ 1 := Int.ceil_le.2 (by exact_mod_cast this)
    omega
  · right
    refine ⟨h, ?_⟩
    have hc := Int.ceil_lt_add_one (div (ofInt d) (ofInt W))
    have : (goCeilDiv d W : ℚ) < (d : ℚ) / W * (1 + 1 / 2 ^ 51) + 1 := lt_of_lt_of_le hc (by linarith)
    have : (goCeilDiv d W : ℚ) * W < ((d : ℚ) / W * (1 + 1 / 2 ^ 51) + 1) * W := mul_lt_mul_of_pos_right this hWq
    have e : ((d : ℚ) / W * (1 + 1 / 2 ^ 51) + 1) * W = d * (1 + 1 / 2 ^ 51) + W := by field_simp
    rw [e] at this
    have : ((goCeilDiv d W * W : ℤ) : ℚ) < ((d + 2 ^ 11 + W : ℤ) : ℚ) := by push_cast; linarith
    exact_mod_cast this

/-! ## C133, fixed window -/

theorem acquireW_eq (wild : Int → Int) (s : State) (t : Int) (hW : 0 < s.windowSize) (hW2 : s.windowSize < 2 ^ 63) (h0 : 0 ≤ s.till)
    (h1 : s.till = 0 ∨ s.windowSize ≤ s.till) (ht : t ≤ 2 ^ 62 - 2 ^ 12) :
    acquireW wild s t = acquire s t ∧ (acquire s t).1.windowSize = s.windowSize ∧ 0 ≤ (acquire s t).1.till ∧
      ((acquire s t).1.till = 0 ∨ s.windowSize ≤ (acquire s t).1.till) := by
  by_cases hc : contains s t
  · simp only [acquireW, acquire, hc, not_true_eq_false, if_false]
    split <;> exact ⟨trivial, rfl, h0, h1⟩
  · have hlt : s.till < t := by unfold contains at hc; omega
    obtain ⟨g0, g1⟩ := step_bound (t - s.till) s.windowSize (by omega) (by omega) hW
    have hqW : goCeilDiv (t - s.till) s.windowSize ≤ goCeilDiv (t - s.till) s.windowSize * s.windowSize := le_mul_of_one_le_right (by omega) (by omega)
    have hWq : s.windowSize ≤ goCeilDiv (t - s.till) s.windowSize * s.windowSize := le_mul_of_one_le_left (by omega) (by omega)
    have hb : s.till + goCeilDiv (t - s.till) s.windowSize * s.windowSize < 2 ^ 63 := by
      rcases g1 with g1 | ⟨g1, g2⟩
      · rw [g1]; omega
      · omega
    have hr : resetW wild s t = reset s t := by
      simp only [resetW, reset, hc, if_false]
      rw [wrap_of (by omega : -2 ^ 63 ≤ t - s.till) (by omega)]
      have : ceilDivW wild (t - s.till) s.windowSize = goCeilDiv (t - s.till) s.windowSize := by
        unfold ceilDivW
        rw [if_neg (by omega), if_pos (by omega)]
      rw [this, wrap_of (x := goCeilDiv (t - s.till) s.windowSize * s.windowSize) (by omega) (by omega), wrap_of (by omega) hb]
    refine ⟨by simp only [acquireW, acquire, hr], ?_⟩
    simp only [acquire, hc, not_false_eq_true, if_true, reset, if_false]
    split <;> exact ⟨rfl, by simp only; omega, .inr (by simp only; omega)⟩

/-- C133: for every window and every capacity, and all readings of the clock up to the year 2116 (also before 1970), the limiter does in 64-bit arithmetic exactly what
it does with unbounded integers; what was shown of the fixed window (C11-C14) holds for the program. -/
theorem C133_fixed (wild : Int → Int) (c W : Int) (hW : 0 < W) (hW2 : W < 2 ^ 63) (ts : List Int) (hts : ∀ t ∈ ts, t ≤ 2 ^ 62 - 2 ^ 12) :
    runW wild (new c W) ts = run (new c W) ts := by
  have key : ∀ (ts : List Int) (s : State), s.windowSize = W → 0 ≤ s.till → (s.till = 0 ∨ W ≤ s.till) → (∀ t ∈ ts, t ≤ 2 ^ 62 - 2 ^ 12) →
      runW wild s ts = run s ts := by
    intro ts
    induction ts with
    | nil => intros; rfl
    | cons t ts ih =>
      intro s hw h0 h1 hts
      subst hw
      obtain ⟨e, e1, e2, e3⟩ := acquireW_eq wild s t hW hW2 h0 h1 (hts t (by simp))
      simp only [runW, run, e]
      rw [ih (acquire s t).1 e1 e2 e3 (fun u hu => hts u (by simp [hu]))]
  exact key ts (new c W) rfl (by simp [new]) (by simp [new]) hts

/-- The limits of C133: a window of 2^62 ns (146 years) ... -/
def lateWindow : Int := 4611686018427387904

/-- ... and a reading of the year 2116. -/
def late : Int := 4611686018428436480

/-- C133 is tight: a little later the end of the interval overflows, and then the limiter lets everybody pass. -/
theorem C133_fixed_tight (wild : Int → Int) (c : Int) (hc : 0 < c) (n : Nat) :
    (runW wild (new c lateWindow) (List.replicate n late)).2 = List.replicate n (late, true) := by
  have ew : rnd (4611686018427387904 : ℚ) = 4611686018427387904 := by
    rw [rnd_eq _ 62 (2 ^ 52) (by norm_num) (by norm_num) (by norm_num)]; norm_num
  have ed : rnd (4611686018428436480 : ℚ) = 4611686018428436480 := by
    rw [rnd_eq _ 62 (2 ^ 52 + 2 ^ 10) (by norm_num) (by norm_num) (by norm_num)]; norm_num
  have eq1 : rnd (4611686018428436480 / 4611686018427387904 : ℚ) = 4611686018428436480 / 4611686018427387904 := by
    rw [rnd_eq _ 0 (2 ^ 52 + 2 ^ 10) (by norm_num) (by norm_num) (by norm_num)]; norm_num
  have g1 : goCeilDiv late lateWindow = 2 := by
    unfold goCeilDiv div ofInt ceilInt late lateWindow
    push_cast
    rw [ew, ed, eq1]
    norm_num [Int.ceil_eq_iff]
  have g2 : goCeilDiv (late - 2 ^ 63) lateWindow = 0 := by
    unfold goCeilDiv div ofInt ceilInt late lateWindow
    norm_num
    rw [ew]
    have e1 := rnd_err (-4611686018426339328 : ℚ)
    generalize rnd (-4611686018426339328 : ℚ) = x at e1
    have e2 := rnd_err (x / 4611686018427387904)
    generalize rnd (x / 4611686018427387904) = y at e2
    rw [abs_le] at e1
    norm_num at e1
    have hx : x < 0 := by linarith [e1.2]
    have hx' : x / 4611686018427387904 < 0 := div_neg_of_neg_of_pos hx (by norm_num)
    rw [abs_of_neg hx', abs_le] at e2
    have hx2 : -(x / 4611686018427387904) ≤ 1 - 1 / 2 ^ 43 := by
      rw [← neg_div, div_le_iff₀ (by norm_num)]
      norm_num
      linarith [e1.1]
    norm_num at e2 hx2 ⊢
    constructor <;> linarith [e2.1, e2.2]
  have hcd : ∀ d : Int, -2 ^ 63 ≤ goCeilDiv d lateWindow → goCeilDiv d lateWindow < 2 ^ 63 → ceilDivW wild d lateWindow = goCeilDiv d lateWindow := by
    intro d h1 h2
    unfold ceilDivW
    rw [if_neg (by decide), if_pos ⟨h1, h2⟩]
  have step1 : ∀ s : State, s.windowSize = lateWindow → s.capacity = c → (s.till = 0 ∨ s.till = -2 ^ 63) →
      (acquireW wild s late).2 = true ∧ (acquireW wild s late).1.windowSize = lateWindow ∧ (acquireW wild s late).1.capacity = c ∧ (acquireW wild s late).1.till = -2 ^ 63 := by
    intro s hw hcap ht
    have hnc : ¬ contains s late := by unfold contains late; omega
    have hr : resetW wild s late = { s with till := -2 ^ 63, count := 0 } := by
      simp only [resetW, hnc, if_false, hw]
      congr 1
      rcases ht with ht | ht <;> rw [ht]
      · rw [show wrap (late - 0) = late by decide, hcd _ (by rw [g1]; decide) (by rw [g1]; decide), g1]; decide
      · rw [show wrap (late - -2 ^ 63) = late - 2 ^ 63 by decide, hcd _ (by rw [g2]; decide) (by rw [g2]; decide), g2]; decide
    simp only [acquireW, hnc, not_false_eq_true, if_true, hr, hcap, hc, hw, and_self]
  have key : ∀ (n : Nat) (s : State), s.windowSize = lateWindow → s.capacity = c → (s.till = 0 ∨ s.till = -2 ^ 63) →
      (runW wild s (List.replicate n late)).2 = List.replicate n (late, true) := by
    intro n
    induction n with
    | zero => intros; rfl
    | succ n ih =>
      intro s h1 h2 h3
      obtain ⟨a1, a2, a3, a4⟩ := step1 s h1 h2 h3
      simp only [List.replicate_succ, runW, a1]
      rw [ih _ a2 a3 (.inr a4)]
  exact key n (new c lateWindow) rfl rfl (.inl rfl)

/-- C133: with a window of 0 the limiter never rejects, whatever the conversion of an infinity yields. -/
theorem C133_fixed_zero (wild : Int → Int) (c : Int) (ts : List Int) (hts : ∀ t ∈ ts, 0 < t) :
    (runW wild (new c 0) ts).2 = ts.map (fun t => (t, decide (0 < c))) := by
  have key : ∀ (ts : List Int) (s : State), s.windowSize = 0 → s.capacity = c → s.till = 0 → (∀ t ∈ ts, 0 < t) →
      (runW wild s ts).2 = ts.map (fun t => (t, decide (0 < c))) := by
    intro ts
    induction ts with
    | nil => intros; rfl
    | cons t ts ih =>
      intro s hw hcap h0 hts
      have ht := hts t (by simp)
      have hnc : ¬ contains s t := by unfold contains; omega
      have hr : resetW wild s t = { s with till := 0, count := 0 } := by
        simp only [resetW, hnc, if_false, hw, h0]
        simp [wrap]
      simp only [runW, List.map_cons]
      have ha : (acquireW wild s t).2 = decide (0 < c) ∧ (acquireW wild s t).1.windowSize = 0 ∧ (acquireW wild s t).1.capacity = c ∧ (acquireW wild s t).1.till = 0 := by
        simp only [acquireW, hnc, not_false_eq_true, if_true, hr, hcap]
        split <;> simp_all
      rw [ha.1, ih _ ha.2.1 ha.2.2.1 ha.2.2.2 (fun u hu => hts u (by simp [hu]))]
  exact key ts (new c 0) rfl rfl rfl hts

-- 64-bit and unbounded arithmetic differ only from 2116 on; a window of a second today
example : ∀ t ∈ [(1700000000500000000 : Int), 1700000000999999999, 1700000001000000001], t ≤ 2 ^ 62 - 2 ^ 12 := by decide

end Gears.FixedWindow
