import Verif.FixedWindow.Props
import Verif.FixedWindow.Int64
import Verif.Common.Wall
import Mathlib.Tactic.Linarith

/-
C146 for the fixed window (ratelimiter/fixedwindow.go:66-104): a wall clock that is set.
-/

namespace Gears.FixedWindow

/-- The answers to calls made at given moments. -/
def answers (c W : Int) (ws : List Wall) : History := (run (new c W) (ws.map Wall.reading)).2

/-- **C146**, the first part of the claim: in real time, no interval shorter than the window has more admitted calls than
twice the capacity. -/
def C146BoundClaim : Prop :=
  ∀ (c W : Int) (ws : List Wall) (lo hi : Int), 0 < c → 0 < W → InOrder ws → hi - lo < W →
    (∀ w ∈ ws, 0 < w.reading ∧ w.reading ≤ 2 ^ 62) →
    (admittedReal ws (answers c W ws) lo hi : Int) ≤ 2 * c

/-- **C146**, the second part: a call is admitted if no call was admitted in the window (and the error of the
floating-point division) before it. -/
def C146RecoverClaim : Prop :=
  ∀ (c W : Int) (ws : List Wall) (w : Wall), 0 < c → 0 < W → InOrder (ws ++ [w]) →
    (∀ v ∈ ws ++ [w], 0 < v.reading ∧ v.reading ≤ 2 ^ 62) →
    (∀ p ∈ ws.zip (answers c W (ws ++ [w])), p.2.2 = true → p.1.real + W + 2 ^ 11 < w.real) →
    (answers c W (ws ++ [w])).getLast? = some (w.reading, true)

theorem run_times (s : State) : ∀ ts : List Int, (run s ts).2.map (·.1) = ts
  | [] => rfl
  | t :: ts => by simp [run, run_times (acquire s t).1 ts]

/-- What one call does to the interval. -/
theorem acquire_keeps (s : State) (t : Int) :
    (acquire s t).1.capacity = s.capacity ∧ (acquire s t).1.windowSize = s.windowSize := by
  unfold acquire reset
  by_cases h : contains s t <;> simp only [h, not_true_eq_false, not_false_eq_true, if_true, if_false] <;>
    split <;> exact ⟨rfl, rfl⟩

theorem acquire_in_till (s : State) (t : Int) (h : t ≤ s.till) :
    acquire s t = if s.count < s.capacity then ({ s with count := s.count + 1 }, true) else (s, false) := by
  have hc : contains s t := h
  unfold acquire
  simp only [hc, not_true_eq_false, if_false]

theorem acquire_out_till (s : State) (t : Int) (h : s.till < t) :
    acquire s t = if 0 < s.capacity then ({ reset s t with count := 1 }, true) else (reset s t, false) := by
  have hc : ¬ contains s t := by unfold contains; omega
  have h0 : (reset s t).count = 0 := by unfold reset; rw [if_neg hc]
  have h1 : (reset s t).capacity = s.capacity := by unfold reset; rw [if_neg hc]
  unfold acquire
  simp only [hc, not_false_eq_true, if_true, h0, h1]
  rfl

theorem reset_till (s : State) (t : Int) (h : s.till < t) (hd : t - s.till ≤ 2 ^ 62) (hW : 0 < s.windowSize) :
    s.till + s.windowSize ≤ (reset s t).till ∧ (reset s t).till < t + s.windowSize + 2 ^ 11 := by
  have hc : ¬ contains s t := by unfold contains; omega
  obtain ⟨g0, g1⟩ := step_bound (t - s.till) s.windowSize (by omega) hd hW
  have e : (reset s t).till = s.till + goCeilDiv (t - s.till) s.windowSize * s.windowSize := by
    unfold reset; rw [if_neg hc]
  rw [e]
  have hq : s.windowSize ≤ goCeilDiv (t - s.till) s.windowSize * s.windowSize :=
    le_mul_of_one_le_left (by omega) (by omega)
  refine ⟨by omega, ?_⟩
  rcases g1 with g1 | ⟨_, g2⟩
  · rw [g1]; omega
  · omega

theorem admitted_cons (t : Int) (b : Bool) (h : History) :
    admitted ((t, b) :: h) = admitted h + if b then 1 else 0 := by
  simp [admitted, List.countP_cons]

/-- Calls inside one interval. -/
theorem within_one : ∀ (ts : List Int) (s : State), (∀ t ∈ ts, t ≤ s.till) →
    (admitted (run s ts).2 : Int) ≤ max 0 (s.capacity - s.count)
  | [], s, _ => by simp [run, admitted]
  | t :: ts, s, h => by
    have ht := h t List.mem_cons_self
    have h' := fun x hx => h x (List.mem_cons_of_mem _ hx)
    simp only [run]
    rw [admitted_cons, acquire_in_till s t ht]
    by_cases hlt : s.count < s.capacity
    · rw [if_pos hlt]
      have ih := within_one ts { s with count := s.count + 1 } h'
      simp only [if_true] at ih ⊢
      omega
    · rw [if_neg hlt]
      have ih := within_one ts s h'
      simp only at ih ⊢
      simpa using ih

theorem run_reset (s : State) (t : Int) (ts : List Int) (h1 : s.till < t) (h2 : t ≤ (reset s t).till) :
    (run s (t :: ts)).2 = (run (reset s t) (t :: ts)).2 := by
  have hc : ¬ contains s t := by unfold contains; omega
  have hc2 : contains (reset s t) t := h2
  have : acquire s t = acquire (reset s t) t := by
    unfold acquire
    simp only [hc, hc2, not_true_eq_false, not_false_eq_true, if_true, if_false]
  simp only [run, this]

theorem reset_params (s : State) (t : Int) (h1 : s.till < t) : (reset s t).capacity = s.capacity ∧ (reset s t).count = 0 := by
  have hc : ¬ contains s t := by unfold contains; omega
  unfold reset
  rw [if_neg hc]
  exact ⟨rfl, rfl⟩

/-- Calls with readings in `[x, x + W)`, the current interval ending at `x` or later: at most two intervals. -/
theorem within_two (x W : Int) (hW : 0 < W) : ∀ (ts : List Int) (s : State), s.windowSize = W → x ≤ s.till →
    (∀ t ∈ ts, x ≤ t ∧ t < x + W) →
    (admitted (run s ts).2 : Int) ≤ max 0 (s.capacity - s.count) + max 0 s.capacity
  | [], s, _, _, _ => by simp [run, admitted]; omega
  | t :: ts, s, hw, hx, h => by
    have ht := h t List.mem_cons_self
    have h' := fun y hy => h y (List.mem_cons_of_mem _ hy)
    by_cases hin : t ≤ s.till
    · simp only [run]
      rw [admitted_cons, acquire_in_till s t hin]
      by_cases hlt : s.count < s.capacity
      · rw [if_pos hlt]
        have ih := within_two x W hW ts { s with count := s.count + 1 } hw hx h'
        simp only [if_true] at ih ⊢
        omega
      · rw [if_neg hlt]
        have ih := within_two x W hW ts s hw hx h'
        simp only at ih ⊢
        simpa using ih
    · have hpos : 0 < goCeilDiv (t - s.till) s.windowSize := by
        rw [hw]
        exact Int.ceil_pos.2 (quot_bound (t - s.till) W (by omega) hW).1
      have hc : ¬ contains s t := by unfold contains; omega
      have e : (reset s t).till = s.till + goCeilDiv (t - s.till) s.windowSize * s.windowSize := by
        unfold reset; rw [if_neg hc]
      have hq : s.windowSize ≤ goCeilDiv (t - s.till) s.windowSize * s.windowSize :=
        le_mul_of_one_le_left (by omega) (by omega)
      obtain ⟨p1, p2⟩ := reset_params s t (by omega)
      rw [run_reset s t ts (by omega) (by rw [e]; omega)]
      have := within_one (t :: ts) (reset s t) (by
        intro y hy
        have := h y hy
        rw [e]; omega)
      rw [p1, p2] at this
      omega

/-- The same from any interval, if the first call outside of it opens one that contains it. -/
theorem within_two' (x W : Int) (hW : 0 < W) (ts : List Int) (s : State) (hw : s.windowSize = W) (hc : 0 ≤ s.count)
    (h : ∀ t ∈ ts, x ≤ t ∧ t < x + W) (hex : ∀ t, ts.head? = some t → s.till < t → t ≤ (reset s t).till) :
    (admitted (run s ts).2 : Int) ≤ 2 * max 0 s.capacity := by
  by_cases hx : x ≤ s.till
  · have := within_two x W hW ts s hw hx h
    omega
  · cases ts with
    | nil => simp [run, admitted]
    | cons t ts =>
      have ht := h t List.mem_cons_self
      have h1 : s.till < t := by omega
      have h2 := hex t rfl h1
      obtain ⟨p1, p2⟩ := reset_params s t h1
      have hw2 : (reset s t).windowSize = W := by
        have hc : ¬ contains s t := by unfold contains; omega
        unfold reset; rw [if_neg hc]; exact hw
      rw [run_reset s t ts h1 h2]
      have := within_two x W hW (t :: ts) (reset s t) hw2 (by omega) h
      rw [p1, p2] at this
      omega

/-- Calls in order of real time: those of an interval follow one another. -/
theorem split_real (lo hi : Int) : ∀ ws : List Wall, InOrder ws →
    ∃ pre mid post, ws = pre ++ mid ++ post ∧ (∀ w ∈ pre, w.real < lo) ∧ (∀ w ∈ mid, lo ≤ w.real ∧ w.real ≤ hi) ∧
      (∀ w ∈ post, ¬ (lo ≤ w.real ∧ w.real ≤ hi))
  | [], _ => ⟨[], [], [], by simp⟩
  | w :: ws, h => by
    have ho := List.pairwise_cons.1 h
    obtain ⟨pre, mid, post, e, h1, h2, h3⟩ := split_real lo hi ws ho.2
    by_cases hw : w.real < lo
    · exact ⟨w :: pre, mid, post, by simp [e], by
        intro v hv
        rcases List.mem_cons.1 hv with rfl | hv
        · exact hw
        · exact h1 v hv, h2, h3⟩
    · have hpre : pre = [] := by
        cases pre with
        | nil => rfl
        | cons v pre =>
          have := h1 v List.mem_cons_self
          have := ho.1 v (by simp [e])
          omega
      subst hpre
      by_cases hw2 : w.real ≤ hi
      · refine ⟨[], w :: mid, post, by simp [e], by simp, ?_, h3⟩
        intro v hv
        rcases List.mem_cons.1 hv with rfl | hv
        · exact ⟨by omega, hw2⟩
        · exact h2 v hv
      · refine ⟨[], [], w :: ws, by simp, by simp, by simp, ?_⟩
        intro v hv
        rcases List.mem_cons.1 hv with rfl | hv
        · omega
        · have := ho.1 v hv; omega

theorem admittedReal_none : ∀ (ws : List Wall) (h : History) (lo hi : Int),
    (∀ w ∈ ws, ¬ (lo ≤ w.real ∧ w.real ≤ hi)) → admittedReal ws h lo hi = 0 := by
  intro ws h lo hi hn
  unfold admittedReal
  rw [List.countP_eq_zero]
  intro p hp
  have := hn p.1 (List.of_mem_zip hp).1
  simp only [Bool.and_eq_true, decide_eq_true_eq]
  exact fun hh => this ⟨hh.1.2, hh.2⟩

theorem admittedReal_append (as bs : List Wall) (h k : History) (lo hi : Int) (hl : as.length = h.length) :
    admittedReal (as ++ bs) (h ++ k) lo hi = admittedReal as h lo hi + admittedReal bs k lo hi := by
  unfold admittedReal
  rw [List.zip_append hl, List.countP_append]

theorem admittedReal_le_admitted : ∀ (ws : List Wall) (h : History) (lo hi : Int), admittedReal ws h lo hi ≤ admitted h
  | [], h, _, _ => by simp [admittedReal]
  | w :: ws, [], _, _ => by simp [admittedReal]
  | w :: ws, e :: h, lo, hi => by
    have ih := admittedReal_le_admitted ws h lo hi
    unfold admittedReal admitted at ih ⊢
    simp only [List.zip_cons_cons, List.countP_cons]
    have : (e.2 && decide (lo ≤ w.real) && decide (w.real ≤ hi)) = true → e.2 = true := by
      simp only [Bool.and_eq_true]; exact fun h => h.1.1
    split <;> split <;> first | omega | (exfalso; simp_all)

theorem run_length (s : State) (ts : List Int) : (run s ts).2.length = ts.length := by
  have := congrArg List.length (run_times s ts)
  simpa using this

/-- The state after some calls. -/
theorem run_state : ∀ (ts : List Int) (s : State), 0 < s.windowSize → 0 ≤ s.count →
    (run s ts).1.windowSize = s.windowSize ∧ (run s ts).1.capacity = s.capacity ∧ 0 ≤ (run s ts).1.count ∧
    s.till ≤ (run s ts).1.till
  | [], s, _, h => ⟨rfl, rfl, h, Int.le_refl _⟩
  | t :: ts, s, hW, h => by
    obtain ⟨k1, k2⟩ := acquire_keeps s t
    have hs : 0 ≤ (acquire s t).1.count ∧ s.till ≤ (acquire s t).1.till := by
      by_cases hin : t ≤ s.till
      · rw [acquire_in_till s t hin]
        split
        · exact ⟨by simp only; omega, Int.le_refl _⟩
        · exact ⟨h, Int.le_refl _⟩
      · have hpos : 0 < goCeilDiv (t - s.till) s.windowSize :=
          Int.ceil_pos.2 (quot_bound (t - s.till) s.windowSize (by omega) hW).1
        have hc : ¬ contains s t := by unfold contains; omega
        have e : (reset s t).till = s.till + goCeilDiv (t - s.till) s.windowSize * s.windowSize := by
          unfold reset; rw [if_neg hc]
        have hq : s.windowSize ≤ goCeilDiv (t - s.till) s.windowSize * s.windowSize :=
          le_mul_of_one_le_left (by omega) (by omega)
        obtain ⟨p1, p2⟩ := reset_params s t (by omega)
        rw [acquire_out_till s t (by omega)]
        split
        · exact ⟨by simp, by simp only [e]; omega⟩
        · exact ⟨by simp [p2], by simp only [e]; omega⟩
    obtain ⟨h1, h2, h3, h4⟩ := run_state ts (acquire s t).1 (by rw [k2]; exact hW) hs.1
    exact ⟨h1.trans k2, h2.trans k1, h3, Int.le_trans hs.2 h4⟩

/-- The first call is not too near the end of an interval, and the others are made within 104 days of it. -/
def NearFirst (W : Int) : List Wall → Prop
  | [] => True
  | w :: ws => 0 < w.reading ∧ FirstOk W w.reading ∧ ∀ v ∈ ws, v.reading - w.reading < 2 ^ 53

theorem first_contains (W t : Int) (hW : 0 < W) (hW2 : W < 2 ^ 53) (ht : 0 < t) (hf : FirstOk W t) :
    t ≤ goCeilDiv t W * W := by
  obtain ⟨k, h1, h2⟩ := exists_ceil t W hW
  rw [first_exact W t k hW hW2 ht hf h1 h2]
  exact h2

/-- **C146, partial**: with settings that differ by at most `B`, the bound of C12 (twice the capacity) holds for real
intervals that are shorter than the window by more than `B`. -/
theorem C146_fixed_bound_partial (c W B : Int) (hW : 0 < W) (hW2 : W < 2 ^ 53) (ws : List Wall) (ho : InOrder ws)
    (hB : Within B ws) (hok : NearFirst W ws) (lo hi : Int) (hlen : hi - lo + B < W) :
    (admittedReal ws (answers c W ws) lo hi : Int) ≤ 2 * max 0 c := by
  obtain ⟨pre, mid, post, e, h1, h2, h3⟩ := split_real lo hi ws ho
  obtain ⟨o, hob⟩ := hB
  have hstate := run_state (pre.map Wall.reading) (new c W) hW (by simp [new])
  have hmid : (admitted (run (run (new c W) (pre.map Wall.reading)).1 (mid.map Wall.reading)).2 : Int) ≤ 2 * max 0 c := by
    have hex : ∀ t, (mid.map Wall.reading).head? = some t → (run (new c W) (pre.map Wall.reading)).1.till < t →
        t ≤ (reset (run (new c W) (pre.map Wall.reading)).1 t).till := by
      intro t ht hlt
      rw [List.head?_map, Option.map_eq_some_iff] at ht
      obtain ⟨v, hhead, rfl⟩ := ht
      have hv : v ∈ mid := List.mem_of_mem_head? hhead
      cases pre with
      | nil =>
        simp only [List.map_nil, run, new] at hlt ⊢
        have hc : ¬ contains ⟨c, W, 0, 0⟩ v.reading := by unfold contains; simp only; omega
        unfold reset
        rw [if_neg hc]
        simp only [Int.sub_zero, Int.zero_add]
        cases mid with
        | nil => simp at hv
        | cons w mid =>
          rw [e] at hok
          obtain ⟨k0, k1, k2⟩ := hok
          have : w = v := by simpa using hhead
          subst this
          exact first_contains W _ hW hW2 hlt k1
      | cons w pre =>
        rw [e] at hok
        obtain ⟨k0, k1, k2⟩ := hok
        have hv2 := k2 v (by simp [hv])
        have hfirst : w.reading ≤ (acquire (new c W) w.reading).1.till := by
          have hg := first_contains W _ hW hW2 k0 k1
          have hc : ¬ contains (new c W) w.reading := by unfold contains new; simp only; omega
          have e2 : (reset (new c W) w.reading).till = goCeilDiv w.reading W * W := by
            unfold reset; rw [if_neg hc]; simp [new]
          rw [acquire_out_till _ _ (by simp only [new]; omega)]
          split <;> simp only [e2] <;> exact hg
        have hst := run_state (pre.map Wall.reading) (acquire (new c W) w.reading).1
          (by rw [(acquire_keeps _ _).2]; exact hW) (by
            have := (run_state [w.reading] (new c W) hW (by simp [new])).2.2.1
            simpa [run] using this)
        simp only [List.map_cons, run] at hlt ⊢
        rw [(acquire_keeps _ _).2] at hst
        have := C14_reset_partial _ v.reading hlt (by omega) (by rw [hst.1]; exact hW) (by rw [hst.1]; exact hW2)
        exact this.2.1
    have := within_two' (lo + o) W hW (mid.map Wall.reading) (run (new c W) (pre.map Wall.reading)).1
      (by rw [hstate.1]; rfl) hstate.2.2.1 (by
        intro t ht
        obtain ⟨v, hv, rfl⟩ := List.mem_map.1 ht
        have a1 := h2 v hv
        have a2 := hob v (by simp [e, hv])
        unfold Wall.reading
        omega) hex
    rw [hstate.2.1] at this
    exact this
  have hsum : admittedReal ws (answers c W ws) lo hi ≤
      admitted (run (run (new c W) (pre.map Wall.reading)).1 (mid.map Wall.reading)).2 := by
    unfold answers
    rw [e, List.append_assoc, List.map_append, List.map_append, run_append, run_append]
    rw [admittedReal_append _ _ _ _ _ _ (by rw [run_length]; simp), admittedReal_append _ _ _ _ _ _ (by rw [run_length]; simp),
      admittedReal_none pre _ _ _ (by intro w hw; have := h1 w hw; omega), admittedReal_none post _ _ _ h3]
    have := admittedReal_le_admitted mid (run (run (new c W) (pre.map Wall.reading)).1 (mid.map Wall.reading)).2 lo hi
    omega
  omega

/-- The end of the interval is not far from the reading of an admitted call. -/
theorem till_near (c W : Int) (hc : 0 < c) (hW : 0 < W) : ∀ (ws : List Wall) (s : State), s.capacity = c →
    s.windowSize = W → 0 ≤ s.till → (∀ w ∈ ws, w.reading ≤ 2 ^ 62) →
    (run s (ws.map Wall.reading)).1.till = s.till ∨
      ∃ p ∈ ws.zip (run s (ws.map Wall.reading)).2, p.2.2 = true ∧
        (run s (ws.map Wall.reading)).1.till < p.1.reading + W + 2 ^ 11
  | [], s, _, _, _, _ => Or.inl rfl
  | w :: ws, s, h1, h2, h3, h4 => by
    obtain ⟨k1, k2⟩ := acquire_keeps s w.reading
    have hb := h4 w List.mem_cons_self
    by_cases hin : w.reading ≤ s.till
    · have ht : (acquire s w.reading).1.till = s.till := by
        rw [acquire_in_till _ _ hin]; split <;> rfl
      have ih := till_near c W hc hW ws (acquire s w.reading).1 (k1.trans h1) (k2.trans h2) (by rw [ht]; exact h3)
        (fun v hv => h4 v (List.mem_cons_of_mem _ hv))
      simp only [List.map_cons, run]
      rw [ht] at ih
      rcases ih with ih | ⟨p, hp, q1, q2⟩
      · exact Or.inl ih
      · exact Or.inr ⟨p, by simp [hp], q1, q2⟩
    · have hr := reset_till s w.reading (by omega) (by omega) (by omega)
      have he := acquire_out_till s w.reading (by omega)
      rw [if_pos (by omega)] at he
      have ht : (acquire s w.reading).1.till = (reset s w.reading).till := by rw [he]
      have ih := till_near c W hc hW ws (acquire s w.reading).1 (k1.trans h1) (k2.trans h2) (by rw [ht]; omega)
        (fun v hv => h4 v (List.mem_cons_of_mem _ hv))
      simp only [List.map_cons, run]
      right
      rcases ih with ih | ⟨p, hp, q1, q2⟩
      · exact ⟨(w, w.reading, true), by simp [he], rfl, by rw [ih, ht]; simp only; omega⟩
      · exact ⟨p, by simp [hp], q1, q2⟩

theorem answers_snoc (c W : Int) (ws : List Wall) (w : Wall) : answers c W (ws ++ [w]) =
    answers c W ws ++ [(w.reading, (acquire (run (new c W) (ws.map Wall.reading)).1 w.reading).2)] := by
  unfold answers
  rw [List.map_append, run_append]
  simp [run]

/-- **C146, partial**: a call is admitted when every admitted call was made a window, `B` and 2.048 microseconds before it,
`B` being at least what the clock was set back since. -/
theorem C146_fixed_recovers_partial (c W B : Int) (hc : 0 < c) (hW : 0 < W) (ws : List Wall) (w : Wall)
    (hpos : 0 < w.reading) (hws : ∀ v ∈ ws, v.reading ≤ 2 ^ 62)
    (hold : ∀ p ∈ ws.zip (answers c W (ws ++ [w])), p.2.2 = true →
      p.1.real + W + 2 ^ 11 + B ≤ w.real ∧ p.1.off ≤ w.off + B) :
    (answers c W (ws ++ [w])).getLast? = some (w.reading, true) := by
  rw [answers_snoc] at hold ⊢
  have hl : ws.length = (answers c W ws).length := by unfold answers; rw [run_length]; simp
  have hz : ∀ k, ws.zip (answers c W ws ++ k) = ws.zip (answers c W ws) := by
    intro k
    conv_lhs => rw [show ws = ws ++ [] by simp]
    rw [List.zip_append (by simpa using hl)]
    simp
  rw [hz] at hold
  have hlt : (run (new c W) (ws.map Wall.reading)).1.till < w.reading := by
    rcases till_near c W hc hW ws (new c W) rfl rfl (Int.le_refl 0) hws with h | ⟨p, hp, q1, q2⟩
    · rw [h]; exact hpos
    · have := hold p hp q1
      unfold Wall.reading at q2 ⊢
      omega
  rw [acquire_out_till _ _ hlt, if_pos (by
    rw [(run_state (ws.map Wall.reading) (new c W) hW (by simp [new])).2.1]; exact hc)]
  simp

/-- **C146 is violated**: after a burst that fills the capacity, a clock that is set back by `B` makes the limiter refuse
every call for `B`, however short the window. -/
theorem C146_fixed_refuses_violated (n : Nat) (hn : 0 < n) (W : Int) (hW : 0 < W) (hW2 : W < 2 ^ 53) (t : Int) (ht : 0 < t)
    (hf : FirstOk W t) (B : Int) (rs : List Int) (hr : ∀ r ∈ rs, r ≤ B) :
    answers n W (List.replicate n ⟨0, t⟩ ++ rs.map (fun r => ⟨r, t - B⟩)) =
      List.replicate n (t, true) ++ rs.map (fun r => (r + (t - B), false)) := by
  obtain ⟨m, rfl⟩ := Nat.exists_eq_succ_of_ne_zero (Nat.pos_iff_ne_zero.1 hn)
  have hrefuse : ∀ (ts : List Int) (s : State), s.count = s.capacity → (∀ x ∈ ts, x ≤ s.till) →
      (run s ts).2 = ts.map (·, false) := by
    intro ts
    induction ts with
    | nil => intro s _ _; rfl
    | cons x ts ih =>
      intro s h1 h2
      have ha := acquire_in_till s x (h2 x List.mem_cons_self)
      rw [if_neg (by omega)] at ha
      simp only [run, ha, List.map_cons]
      rw [ih s h1 (fun y hy => h2 y (List.mem_cons_of_mem _ hy))]
  have hg := first_contains W t hW hW2 ht hf
  have hc0 : ¬ contains (new (m + 1 : Nat) W) t := by unfold contains new; simp only; omega
  have e2 : (reset (new (m + 1 : Nat) W) t).till = goCeilDiv t W * W := by
    unfold reset; rw [if_neg hc0]; simp [new]
  have e3 : (reset (new (m + 1 : Nat) W) t).capacity = (m + 1 : Nat) := by
    unfold reset; rw [if_neg hc0]; rfl
  have ha := acquire_out_till (new (m + 1 : Nat) W) t (by simp only [new]; omega)
  rw [if_pos (by simp only [new]; omega)] at ha
  have hburst : run (new (m + 1 : Nat) W) (List.replicate (m + 1) t) =
      ({ reset (new (m + 1 : Nat) W) t with count := 1 + m }, List.replicate (m + 1) (t, true)) := by
    simp only [List.replicate_succ, run, ha]
    rw [run_fill m t _ (by simp only [e2]; exact hg) (by simp only [e3]; push_cast; omega)]
  unfold answers
  rw [List.map_append, run_append]
  have e4 : (List.replicate (m + 1) (⟨0, t⟩ : Wall)).map Wall.reading = List.replicate (m + 1) t := by
    simp [Wall.reading]
  rw [Nat.succ_eq_add_one, e4, hburst]
  simp only
  rw [hrefuse _ _ (by simp only [e3]; push_cast; omega) (by
    intro x hx
    simp only [List.mem_map] at hx
    obtain ⟨v, ⟨r, hr1, rfl⟩, rfl⟩ := hx
    have := hr r hr1
    simp only [Wall.reading, e2]
    omega)]
  simp [Wall.reading, Function.comp_def]

/-- The second part of the claim does not hold. -/
theorem C146_fixed_recover_claim_violated : ¬ C146RecoverClaim := by
  intro hcl
  have h := C146_fixed_refuses_violated 1 (by omega) 5 (by omega) (by omega) 10000 (by omega) (Or.inl (by omega)) 3000 [3000] (by decide)
  have := hcl 1 5 [⟨0, 10000⟩] ⟨3000, 7000⟩ (by omega) (by omega) (by decide) (by decide) (by
    intro p hp _
    rw [show ([⟨0, 10000⟩] : List Wall) ++ [⟨3000, 7000⟩] =
      List.replicate 1 ⟨0, 10000⟩ ++ [3000].map (fun r => ⟨r, 10000 - 3000⟩) from rfl] at hp
    have hp' := hp
    rw [show ((1 : Int)) = ((1 : Nat) : Int) from rfl, h] at hp'
    have : p = (⟨0, 10000⟩, (10000, true)) := by simpa using hp'
    subst this; decide)
  rw [show ([⟨0, 10000⟩] : List Wall) ++ [⟨3000, 7000⟩] =
      List.replicate 1 ⟨0, 10000⟩ ++ [3000].map (fun r => ⟨r, 10000 - 3000⟩) from rfl,
    show ((1 : Int)) = ((1 : Nat) : Int) from rfl, h] at this
  simp at this

/-- `n` calls at one moment for each of `k + 1` settings of the clock, each a window and 2.048 microseconds further
ahead. -/
def bursts (n : Nat) (W : Int) : Nat → List Wall
  | 0 => List.replicate n ⟨0, 1⟩
  | k + 1 => bursts n W k ++ List.replicate n ⟨0, ((k + 1 : Nat) : Int) * (W + 2 ^ 11) + 1⟩

theorem burst_all (c W b : Int) (hW : 0 < W) (hb : b ≤ 2 ^ 62) : ∀ (m : Nat) (s : State), s.capacity = c → s.windowSize = W →
    0 ≤ s.till → (m : Int) ≤ c → (b ≤ s.till → s.count + m ≤ c) → (b ≤ s.till → s.till < b + W + 2 ^ 11) → (s.till < b + W + 2 ^ 11) →
    (run s (List.replicate m b)).2 = List.replicate m (b, true) ∧ (run s (List.replicate m b)).1.capacity = c ∧
      (run s (List.replicate m b)).1.windowSize = W ∧ 0 ≤ (run s (List.replicate m b)).1.till ∧
      (run s (List.replicate m b)).1.till < b + W + 2 ^ 11
  | 0, s, h1, h2, h3, _, _, _, h7 => ⟨rfl, h1, h2, h3, h7⟩
  | m + 1, s, h1, h2, h3, h4, h5, h6, h7 => by
    simp only [List.replicate_succ, run]
    by_cases hin : b ≤ s.till
    · have ha := acquire_in_till s b hin
      have := h5 hin
      rw [if_pos (by push_cast at this; omega)] at ha
      rw [ha]
      have ih := burst_all c W b hW hb m { s with count := s.count + 1 } h1 h2 h3 (by push_cast at h4; omega)
        (fun _ => by push_cast at this; simp only; omega) h6 h7
      exact ⟨by rw [ih.1], ih.2⟩
    · have ha := acquire_out_till s b (by omega)
      push_cast at h4
      rw [if_pos (by omega)] at ha
      have hr := reset_till s b (by omega) (by omega) (by omega)
      have hc : ¬ contains s b := by unfold contains; omega
      have e1 : (reset s b).capacity = c := by unfold reset; rw [if_neg hc]; exact h1
      have e2 : (reset s b).windowSize = W := by unfold reset; rw [if_neg hc]; exact h2
      rw [ha]
      have ih := burst_all c W b hW hb m { reset s b with count := 1 } e1 e2 (by simp only; omega) (by omega)
        (fun _ => by simp only; omega) (fun _ => by simp only; omega) (by simp only; omega)
      exact ⟨by rw [ih.1], ih.2⟩

theorem bursts_run (n : Nat) (W : Int) (hW : 0 < W) (k : Nat) (hk : (k : Int) * (W + 2 ^ 11) + 1 ≤ 2 ^ 62) :
    (∀ e ∈ answers n W (bursts n W k), e.2 = true) ∧ (answers n W (bursts n W k)).length = (k + 1) * n ∧
    (run (new n W) ((bursts n W k).map Wall.reading)).1.capacity = n ∧
    (run (new n W) ((bursts n W k).map Wall.reading)).1.windowSize = W ∧
    0 ≤ (run (new n W) ((bursts n W k).map Wall.reading)).1.till ∧
    (run (new n W) ((bursts n W k).map Wall.reading)).1.till < (k : Int) * (W + 2 ^ 11) + 1 + W + 2 ^ 11 := by
  induction k with
  | zero =>
    have h := burst_all n W 1 hW (by omega) n (new n W) rfl rfl (Int.le_refl 0) (by omega)
      (by intro h; simp only [new] at h; omega) (by intro h; simp only [new] at h; omega) (by simp only [new]; omega)
    have e : (bursts n W 0).map Wall.reading = List.replicate n 1 := by simp [bursts, Wall.reading]
    unfold answers
    rw [e, h.1]
    refine ⟨by simp, by simp, h.2.1, h.2.2.1, h.2.2.2.1, by have := h.2.2.2.2; simp only [Int.natCast_zero, Int.zero_mul]; omega⟩
  | succ k ih =>
    have hmul : ((k + 1 : Nat) : Int) * (W + 2 ^ 11) = (k : Int) * (W + 2 ^ 11) + (W + 2 ^ 11) := by
      push_cast; rw [Int.add_mul]; omega
    rw [hmul] at hk
    obtain ⟨i1, i2, i3, i4, i5, i6⟩ := ih (by omega)
    have h := burst_all n W (((k + 1 : Nat) : Int) * (W + 2 ^ 11) + 1) hW (by rw [hmul]; omega) n
      (run (new n W) ((bursts n W k).map Wall.reading)).1 i3 i4 i5 (by omega)
      (by rw [hmul]; intro h; omega) (by rw [hmul]; intro h; omega) (by rw [hmul]; omega)
    have e : (bursts n W (k + 1)).map Wall.reading = (bursts n W k).map Wall.reading ++
        List.replicate n (((k + 1 : Nat) : Int) * (W + 2 ^ 11) + 1) := by
      simp [bursts, Wall.reading]
    have e1 : ∀ (as bs : List Int) (s : State), (run s (as ++ bs)).1 = (run (run s as).1 bs).1 := by
      intro as bs
      induction as with
      | nil => intro s; rfl
      | cons a as ih => intro s; simp only [List.cons_append, run]; exact ih _
    unfold answers at i1 i2 ⊢
    rw [e, run_append, e1, h.1]
    refine ⟨?_, by simp [i2, Nat.add_mul], h.2⟩
    intro x hx
    rcases List.mem_append.1 hx with hx | hx
    · exact i1 x hx
    · rw [(List.mem_replicate.1 hx).2]

theorem bursts_real (n : Nat) (W : Int) (k : Nat) : (∀ w ∈ bursts n W k, w.real = 0 ∧ ∃ j : Nat, j ≤ k ∧ w.off = (j : Int) * (W + 2 ^ 11) + 1) ∧
    (bursts n W k).length = (k + 1) * n := by
  induction k with
  | zero =>
    refine ⟨?_, by simp [bursts]⟩
    intro w hw
    rw [(List.mem_replicate.1 hw).2]
    exact ⟨rfl, 0, Nat.le_refl 0, by simp⟩
  | succ k ih =>
    refine ⟨?_, by simp [bursts, ih.2, Nat.add_mul]⟩
    intro w hw
    rcases List.mem_append.1 hw with hw | hw
    · obtain ⟨h1, j, h2, h3⟩ := ih.1 w hw
      exact ⟨h1, j, by omega, h3⟩
    · rw [(List.mem_replicate.1 hw).2]
      exact ⟨rfl, k + 1, Nat.le_refl _, rfl⟩

theorem countP_zip_all (p : Wall × Int × Bool → Bool) : ∀ (ws : List Wall) (h : History), ws.length = h.length →
    (∀ w ∈ ws, ∀ e ∈ h, p (w, e) = true) → (ws.zip h).countP p = ws.length
  | [], _, _, _ => by simp
  | w :: ws, [], hl, _ => by simp at hl
  | w :: ws, e :: h, hl, hp => by
    have ih := countP_zip_all p ws h (by simpa using hl)
      (fun v hv x hx => hp v (List.mem_cons_of_mem _ hv) x (List.mem_cons_of_mem _ hx))
    simp [ih, hp w List.mem_cons_self e List.mem_cons_self]

/-- **C146 is violated**: a clock that is set ahead `k` times, by a window and 2.048 microseconds, lets `k + 1` times the
capacity pass at one moment. -/
theorem C146_fixed_bound_violated (n : Nat) (W : Int) (hW : 0 < W) (k : Nat) (hk : (k : Int) * (W + 2 ^ 11) + 1 ≤ 2 ^ 62) :
    ∃ ws, InOrder ws ∧ admittedReal ws (answers n W ws) 0 0 = (k + 1) * n ∧ ∀ w ∈ ws, 0 < w.reading ∧ w.reading ≤ 2 ^ 62 := by
  obtain ⟨h1, h2, _⟩ := bursts_run n W hW k hk
  obtain ⟨hreal, hlen⟩ := bursts_real n W k
  refine ⟨bursts n W k, ?_, ?_, ?_⟩
  · unfold InOrder
    rw [List.pairwise_iff_forall_sublist]
    intro v w hs
    have := hs.subset
    rw [(hreal v (this (by simp))).1, (hreal w (this (by simp))).1]
  · unfold admittedReal
    rw [countP_zip_all _ _ _ (by rw [hlen, h2]), hlen]
    intro w hw e he
    simp [(hreal w hw).1, h1 e he]
  · intro w hw
    obtain ⟨r1, j, hj, r2⟩ := hreal w hw
    unfold Wall.reading
    rw [r1, r2]
    have m1 : (0 : Int) ≤ (j : Int) * (W + 2 ^ 11) := Int.mul_nonneg (by omega) (by omega)
    have m2 : (j : Int) * (W + 2 ^ 11) ≤ (k : Int) * (W + 2 ^ 11) := Int.mul_le_mul_of_nonneg_right (by omega) (by omega)
    omega

/-- The first part of the claim does not hold. -/
theorem C146_fixed_bound_claim_violated : ¬ C146BoundClaim := by
  intro hcl
  obtain ⟨ws, h1, h2, h3⟩ := C146_fixed_bound_violated 1 5 (by omega) 2 (by omega)
  have := hcl 1 5 ws 0 0 (by omega) (by omega) h1 (by omega) h3
  rw [show ((1 : Int)) = ((1 : Nat) : Int) from rfl, h2] at this
  omega

-- The hypotheses of the partial statements can be met: real timestamps, a clock set back by 0.3 s, a window of 1 s.
example : InOrder [⟨1700000000500000000, 0⟩, ⟨1700000000600000000, -300000000⟩] ∧
    NearFirst 1000000000 [⟨1700000000500000000, 0⟩, ⟨1700000000600000000, -300000000⟩] ∧
    Within 300000000 [⟨1700000000500000000, 0⟩, ⟨1700000000600000000, -300000000⟩] := by
  refine ⟨by decide, ⟨by decide, Or.inr (by decide), by decide⟩, -300000000, by decide⟩

end Gears.FixedWindow
