import Verif.TokenBucket.Props
import Verif.Common.Wall

/-
C146 for the token bucket (ratelimiter/tokenbucket.go:71-104): a wall clock that is set.  When the clock went back,
`elapse` is negative, so is `tokenDelta`, and tokens are taken away (98-102); the division rounds towards zero (97).
-/

namespace Gears.TokenBucket

/-- The answers to calls made at given moments, of a bucket created at `w0`. -/
def answers (c r : Int) (w0 : Wall) (ws : List Wall) : History := (run (new c r w0.reading) (ws.map Wall.reading)).2

/-- **C146**, the first part of the claim: in the real time `e` since its creation, the bucket admits at most its capacity
and what its rate gives. -/
def C146BoundClaim : Prop :=
  ∀ (c r : Int) (w0 : Wall) (ws : List Wall) (e : Int), 0 ≤ c → 0 ≤ r → 0 ≤ e → InOrder (w0 :: ws) →
    (∀ w ∈ ws, w.real ≤ w0.real + e) →
    second * (admitted (answers c r w0 ws) : Int) ≤ second * c + r * e

/-- **C146**, the second part: a call made a second of real time after a refused one is admitted. -/
def C146RecoverClaim : Prop :=
  ∀ (c r : Int) (w0 : Wall) (ws : List Wall) (v w : Wall), 1 ≤ c → 1 ≤ r → InOrder (w0 :: (ws ++ [v, w])) →
    (answers c r w0 (ws ++ [v])).getLast? = some (v.reading, false) → v.real + second ≤ w.real →
    (answers c r w0 (ws ++ [v, w])).getLast? = some (w.reading, true)

/-- How often a reading is lower than the one before it. -/
def backs : Int → List Int → Nat
  | _, [] => 0
  | p, t :: ts => (if t < p then 1 else 0) + backs t ts

/-- Go's division rounds towards zero. -/
theorem tdiv_second (x : Int) : (0 ≤ x → Int.tdiv x second = x / second) ∧ (x < 0 → Int.tdiv x second = -(-x / second)) := by
  refine ⟨fun h => Int.tdiv_eq_ediv_of_nonneg h, fun h => ?_⟩
  rw [← Int.tdiv_eq_ediv_of_nonneg (by omega), Int.neg_tdiv, Int.neg_neg]

theorem backs_cons (p t : Int) (ts : List Int) : (backs p (t :: ts) : Int) = (if t < p then 1 else 0) + backs t ts := by
  simp only [backs]
  push_cast
  rfl

/-- What one issue does, with any clock. -/
theorem issue_any (s : State) (now : Int) (hr : 0 ≤ s.rate) :
    issueIfNecessary s now = s ∨
    ∃ t, issueIfNecessary s now = { s with tokens := t, last := now } ∧
      second * t ≤ second * s.tokens + s.rate * ((now - s.last) + if now < s.last then second - 1 else 0) := by
  unfold issueIfNecessary
  dsimp only
  by_cases h1 : s.tokens ≥ s.capacity
  · left; rw [if_pos h1]
  · rw [if_neg h1]
    by_cases h2 : Int.tdiv (now - s.last) second * s.rate = 0
    · left; rw [if_pos h2]
    · right
      rw [if_neg h2]
      refine ⟨_, rfl, ?_⟩
      have hq : second * Int.tdiv (now - s.last) second ≤ (now - s.last) + if now < s.last then second - 1 else 0 := by
        obtain ⟨d1, d2⟩ := tdiv_second (now - s.last)
        split
        · rw [d2 (by omega)]; unfold second; omega
        · rw [d1 (by omega)]; unfold second; omega
      have hm := Int.mul_le_mul_of_nonneg_left hq hr
      have e : second * (Int.tdiv (now - s.last) second * s.rate) = s.rate * (second * Int.tdiv (now - s.last) second) := by ring
      have hs : (0 : Int) ≤ second := by decide
      split
      · rename_i hgt
        have := Int.mul_le_mul_of_nonneg_left (Int.le_of_lt hgt) hs
        rw [Int.mul_add, e] at this
        linarith
      · rw [Int.mul_add, e]
        linarith

theorem bound_any (r : Int) (hr : 0 ≤ r) (T : Int) : ∀ (ts : List Int) (s : State) (p : Int), s.rate = r → s.last ≤ T →
    (∀ t ∈ ts, t ≤ T) → 0 < admitted (run s ts).2 →
    second * (admitted (run s ts).2 : Int) ≤ second * s.tokens + r * (T - s.last) +
      r * (second - 1) * ((backs p ts : Int) + if p < s.last then 1 else 0)
  | [], s, p, _, _, _, h => by simp [run, admitted] at h
  | t :: ts, s, p, h1, h2, h3, h4 => by
    have ht := h3 t List.mem_cons_self
    have hK : 0 ≤ r * (second - 1) := Int.mul_nonneg hr (by decide)
    have key : ∀ s1 : State, s1.rate = r → issueIfNecessary s t = s1 → s1.last ≤ T →
        second * s1.tokens + r * (T - s1.last) + r * (second - 1) * ((backs t ts : Int) + if t < s1.last then 1 else 0) ≤
          second * s.tokens + r * (T - s.last) + r * (second - 1) * ((backs p (t :: ts) : Int) + if p < s.last then 1 else 0) →
        second * (admitted (run s (t :: ts)).2 : Int) ≤ second * s.tokens + r * (T - s.last) +
          r * (second - 1) * ((backs p (t :: ts) : Int) + if p < s.last then 1 else 0) := by
      intro s1 hr1 hi hl1 hle
      have hT : 0 ≤ r * (T - s1.last) := Int.mul_nonneg hr (by omega)
      have hB : 0 ≤ r * (second - 1) * ((backs t ts : Int) + if t < s1.last then 1 else 0) :=
        Int.mul_nonneg hK (by split <;> omega)
      by_cases hp : s1.tokens > 0
      · have ha : acquire s t = ({ s1 with tokens := s1.tokens - 1 }, true) := by
          unfold acquire; simp only [hi, hp, if_true]
        simp only [run, ha]
        rw [admitted_cons]
        by_cases h0 : 0 < admitted (run { s1 with tokens := s1.tokens - 1 } ts).2
        · have ih := bound_any r hr T ts { s1 with tokens := s1.tokens - 1 } t hr1 hl1
            (fun x hx => h3 x (List.mem_cons_of_mem _ hx)) h0
          simp only at ih
          push_cast
          simp only [if_true]
          rw [Int.mul_sub] at ih
          rw [Int.mul_add]
          linarith
        · have e0 : admitted (run { s1 with tokens := s1.tokens - 1 } ts).2 = 0 := by omega
          rw [e0]
          have : second * 1 ≤ second * s1.tokens := Int.mul_le_mul_of_nonneg_left (by omega) (by decide)
          simp only [if_true]
          push_cast
          linarith
      · have ha : acquire s t = (s1, false) := by
          unfold acquire; simp only [hi, hp, if_false]
        simp only [run, ha] at h4 ⊢
        rw [admitted_cons] at h4 ⊢
        have ih := bound_any r hr T ts s1 t hr1 hl1 (fun x hx => h3 x (List.mem_cons_of_mem _ hx)) (by simpa using h4)
        push_cast
        simp only [Int.add_zero]
        linarith
    rcases issue_any s t (by omega) with h | ⟨tk, h, hle⟩
    · refine key s h1 h h2 ?_
      have : ((backs t ts : Int) + if t < s.last then 1 else 0) ≤ (backs p (t :: ts) : Int) + if p < s.last then 1 else 0 := by
        rw [backs_cons]
        split <;> split <;> split <;> omega
      have := Int.mul_le_mul_of_nonneg_left this hK
      linarith
    · refine key { s with tokens := tk, last := t } h1 h ht ?_
      rw [h1] at hle
      simp only
      have hnn : ((backs t ts : Int) + if t < t then 1 else 0) + (if t < s.last then 1 else 0) ≤
          (backs p (t :: ts) : Int) + if p < s.last then 1 else 0 := by
        rw [backs_cons]
        rw [if_neg (by omega : ¬ t < t)]
        split <;> split <;> split <;> omega
      have hm := Int.mul_le_mul_of_nonneg_left hnn hK
      rw [Int.mul_add] at hm
      have e : r * ((t - s.last) + if t < s.last then second - 1 else 0) =
          r * (t - s.last) + r * (second - 1) * (if t < s.last then 1 else 0) := by
        split <;> ring
      rw [e] at hle
      have e2 : r * (T - s.last) = r * (T - t) + r * (t - s.last) := by ring
      rw [e2]
      linarith

/-- **C146, partial**: with a clock that is at most `B` ahead of its setting at the beginning, the bucket admits at most its
capacity, what its rate gives in the real time and `B`, and what it gives in a second for each time that a reading is lower
than the one before. -/
theorem C146_bucket_bound_partial (c r : Int) (hc : 0 ≤ c) (hr : 0 ≤ r) (w0 : Wall) (ws : List Wall) (e B : Int) (he : 0 ≤ e) (hB : 0 ≤ B)
    (h1 : ∀ w ∈ ws, w.real ≤ w0.real + e) (h2 : ∀ w ∈ ws, w.off ≤ w0.off + B) :
    second * (admitted (answers c r w0 ws) : Int) ≤
      second * c + r * (e + B) + r * (second - 1) * (backs w0.reading (ws.map Wall.reading) : Int) := by
  by_cases h0 : 0 < admitted (answers c r w0 ws)
  · have := bound_any r hr (w0.reading + (e + B)) (ws.map Wall.reading) (new c r w0.reading) w0.reading rfl
      (by simp only [new]; omega) (by
        intro t ht
        obtain ⟨w, hw, rfl⟩ := List.mem_map.1 ht
        have := h1 w hw
        have := h2 w hw
        unfold Wall.reading
        omega) h0
    simp only [new, Int.lt_irrefl, if_false, Int.add_zero] at this
    rw [show w0.reading + (e + B) - w0.reading = e + B by omega] at this
    exact this
  · have e0 : admitted (answers c r w0 ws) = 0 := by omega
    rw [e0]
    have a1 : 0 ≤ second * c := Int.mul_nonneg (by decide) hc
    have a2 : 0 ≤ r * (e + B) := Int.mul_nonneg hr (by omega)
    have a3 : 0 ≤ r * (second - 1) * (backs w0.reading (ws.map Wall.reading) : Int) :=
      Int.mul_nonneg (Int.mul_nonneg hr (by decide)) (by omega)
    push_cast
    linarith

/-- A clock that is moved to and fro. -/
def swings : Nat → List Wall
  | 0 => [⟨0, 0⟩, ⟨0, second⟩, ⟨0, 2 * second⟩]
  | k + 1 => swings k ++ [⟨0, (k : Int) + 1⟩, ⟨0, second + k + 1⟩, ⟨0, 2 * second + k + 1⟩]

theorem swings_run (k : Nat) : (run (new 1 1 0) ((swings k).map Wall.reading)).1 = ⟨1, 0, 1, 2 * second + k⟩ ∧
    admitted (run (new 1 1 0) ((swings k).map Wall.reading)).2 = k + 3 := by
  induction k with
  | zero => decide
  | succ k ih =>
    have e : (swings (k + 1)).map Wall.reading = (swings k).map Wall.reading ++
        [(k : Int) + 1, second + k + 1, 2 * second + k + 1] := by simp [swings, Wall.reading]
    rw [e, run_append, ih.1, admitted_append, ih.2]
    have a1 : acquire ⟨1, 0, 1, 2 * second + k⟩ ((k : Int) + 1) = (⟨1, -1, 1, (k : Int) + 1⟩, false) := by
      have : Int.tdiv ((k : Int) + 1 - (2 * second + k)) second = -1 := by
        rw [show (k : Int) + 1 - (2 * second + k) = 1 - 2 * second by omega]; decide
      unfold acquire issueIfNecessary
      dsimp only
      rw [this]
      simp
    have a2 : acquire ⟨1, -1, 1, (k : Int) + 1⟩ (second + k + 1) = (⟨1, 0, 1, second + k + 1⟩, false) := by
      have : Int.tdiv (second + k + 1 - ((k : Int) + 1)) second = 1 := by
        rw [show second + k + 1 - ((k : Int) + 1) = second by omega]; decide
      unfold acquire issueIfNecessary
      dsimp only
      rw [this]
      simp
    have a3 : acquire ⟨1, 0, 1, second + k + 1⟩ (2 * second + k + 1) = (⟨1, 0, 1, 2 * second + k + 1⟩, true) := by
      have : Int.tdiv (2 * second + k + 1 - (second + k + 1)) second = 1 := by
        rw [show 2 * second + k + 1 - (second + k + 1) = second by omega]; decide
      unfold acquire issueIfNecessary
      dsimp only
      rw [this]
      simp
    refine ⟨?_, ?_⟩
    · simp only [run, a1, a2, a3]
      push_cast
      rw [Int.add_assoc]
    · simp only [run, a1, a2, a3, admitted_cons, admitted_nil]
      simp

theorem swings_real (k : Nat) : ∀ w ∈ swings k, w.real = 0 ∧ 0 ≤ w.off ∧ w.off ≤ 2 * second + k := by
  induction k with
  | zero => decide
  | succ k ih =>
    intro w hw
    rcases List.mem_append.1 hw with hw | hw
    · have := ih w hw
      exact ⟨this.1, this.2.1, by push_cast; omega⟩
    · simp only [List.mem_cons, List.not_mem_nil, or_false] at hw
      have hs : second = 1000000000 := rfl
      rcases hw with rfl | rfl | rfl
      · exact ⟨rfl, by simp only; omega, by simp only; push_cast; omega⟩
      · exact ⟨rfl, by simp only; omega, by simp only; push_cast; omega⟩
      · exact ⟨rfl, by simp only; omega, by simp only; push_cast; omega⟩

theorem inOrder_of_real {ws : List Wall} {x : Int} (h : ∀ w ∈ ws, w.real = x) : InOrder ws := by
  unfold InOrder
  rw [List.pairwise_iff_forall_sublist]
  intro v w hs
  have := hs.subset
  rw [h v (this (by simp)), h w (this (by simp))]

/-- **C146 is violated**: a clock that is moved to and fro by two seconds makes a bucket of capacity 1 and rate 1 let any
number of calls pass at one moment. -/
theorem C146_bucket_bound_violated (k : Nat) :
    ∃ ws, InOrder (⟨0, 0⟩ :: ws) ∧ (∀ w ∈ ws, w.real = 0 ∧ 0 ≤ w.off ∧ w.off ≤ 2 * second + k) ∧
      admitted (answers 1 1 ⟨0, 0⟩ ws) = k + 3 := by
  refine ⟨swings k, inOrder_of_real (x := 0) ?_, swings_real k, ?_⟩
  · intro w hw
    rcases List.mem_cons.1 hw with rfl | hw
    · rfl
    · exact (swings_real k w hw).1
  · exact (swings_run k).2

/-- The first part of the claim does not hold. -/
theorem C146_bucket_bound_claim_violated : ¬ C146BoundClaim := by
  intro hcl
  obtain ⟨ws, h1, h2, h3⟩ := C146_bucket_bound_violated 0
  have := hcl 1 1 ⟨0, 0⟩ ws 0 (by decide) (by decide) (by decide) h1 (fun w hw => by simp [(h2 w hw).1])
  rw [h3] at this
  revert this
  decide

/-- What one issue does to a bucket without tokens, before the clock reads `t0` again. -/
theorem issue_back (s : State) (now t0 : Int) (hr : 0 ≤ s.rate) (hc : 0 < s.capacity) (h1 : s.last ≤ now ∨ s.last = t0 ∧ s.tokens = 0)
    (h2 : now ≤ t0) (h3 : s.tokens ≤ - (s.rate * ((t0 - s.last) / second))) (h4 : s.last ≤ t0) :
    let s1 := issueIfNecessary s now
    s1.tokens ≤ - (s.rate * ((t0 - s1.last) / second)) ∧ s1.rate = s.rate ∧ s1.capacity = s.capacity ∧
      (s1.last = s.last ∨ s1.last = now) := by
  have hnn : 0 ≤ s.rate * ((t0 - s.last) / second) := Int.mul_nonneg hr (by unfold second; omega)
  unfold issueIfNecessary
  dsimp only
  rw [if_neg (by omega)]
  by_cases hd : Int.tdiv (now - s.last) second * s.rate = 0
  · rw [if_pos hd]
    exact ⟨h3, rfl, rfl, Or.inl rfl⟩
  · rw [if_neg hd]
    refine ⟨?_, rfl, rfl, Or.inr rfl⟩
    simp only
    have hq : Int.tdiv (now - s.last) second - (t0 - s.last) / second ≤ - ((t0 - now) / second) := by
      obtain ⟨d1, d2⟩ := tdiv_second (now - s.last)
      rcases Int.lt_or_le (now - s.last) 0 with hneg | hpos
      · rw [d2 hneg]
        unfold second
        rcases h1 with h1 | ⟨h1, _⟩ <;> omega
      · rw [d1 hpos]
        unfold second
        omega
    have hm := Int.mul_le_mul_of_nonneg_left hq hr
    have hle : s.tokens + Int.tdiv (now - s.last) second * s.rate ≤ - (s.rate * ((t0 - now) / second)) := by
      have e : s.rate * (Int.tdiv (now - s.last) second - (t0 - s.last) / second) =
        Int.tdiv (now - s.last) second * s.rate - s.rate * ((t0 - s.last) / second) := by ring
      rw [e, Int.mul_neg] at hm
      linarith
    have hnn2 : 0 ≤ s.rate * ((t0 - now) / second) := Int.mul_nonneg hr (by unfold second; omega)
    rw [if_neg (by omega)]
    exact hle

theorem refuse_back (t0 : Int) : ∀ (ts : List Int) (s : State), 0 ≤ s.rate → 0 < s.capacity →
    s.tokens ≤ - (s.rate * ((t0 - s.last) / second)) → s.last ≤ t0 →
    ((∀ t ∈ ts, s.last ≤ t) ∨ s.last = t0 ∧ s.tokens = 0) →
    NonDecreasing ts → (∀ t ∈ ts, t ≤ t0) → (run s ts).2 = ts.map (·, false)
  | [], s, _, _, _, _, _, _, _ => rfl
  | t :: ts, s, h1, h2, h3, h4, h5, h6, h7 => by
    have ho := List.pairwise_cons.1 h6
    have hi := issue_back s t t0 h1 h2 (h5.imp (fun h => h t List.mem_cons_self) id) (h7 t List.mem_cons_self) h3 h4
    dsimp only at hi
    obtain ⟨i1, i2, i3, i4⟩ := hi
    have ht := h7 t List.mem_cons_self
    have hl : (issueIfNecessary s t).last ≤ t0 := by rcases i4 with h | h <;> omega
    have hnn : 0 ≤ s.rate * ((t0 - (issueIfNecessary s t).last) / second) :=
      Int.mul_nonneg h1 (by unfold second; omega)
    have ha : acquire s t = (issueIfNecessary s t, false) := by
      unfold acquire
      rw [if_neg (by omega)]
    simp only [run, ha, List.map_cons]
    rw [refuse_back t0 ts (issueIfNecessary s t) (by omega) (by omega) (by rw [i2]; exact i1) hl ?_ ho.2
      (fun x hx => h7 x (List.mem_cons_of_mem _ hx))]
    rcases i4 with h | h
    · rcases h5 with h5 | ⟨h5, h5'⟩
      · left
        intro x hx
        rw [h]; exact h5 x (List.mem_cons_of_mem _ hx)
      · right
        refine ⟨by omega, ?_⟩
        have heq : issueIfNecessary s t = s ∨ (issueIfNecessary s t).last = t := by
          unfold issueIfNecessary
          dsimp only
          split
          · exact Or.inl rfl
          · split
            · exact Or.inl rfl
            · exact Or.inr rfl
        rcases heq with heq | heq
        · rw [heq]; exact h5'
        · have htt : t = t0 := by omega
          unfold issueIfNecessary
          dsimp only
          rw [if_neg (by omega), htt, h5, Int.sub_self]
          simpa [second] using h5'
    · left
      intro x hx
      rw [h]; exact ho.1 x hx

/-- **C146 is violated**: after a burst that fills the capacity, a clock that is set back by `B` makes the bucket refuse
every call for `B`, whatever the rate. -/
theorem C146_bucket_refuses_violated (n : Nat) (hn : 0 < n) (r : Int) (hr : 0 ≤ r) (B : Int) (rs : List Int) (ho : NonDecreasing rs)
    (hb : ∀ x ∈ rs, x ≤ B) :
    answers n r ⟨0, 0⟩ (List.replicate n ⟨0, 0⟩ ++ rs.map (fun x => ⟨x, -B⟩)) =
      List.replicate n (0, true) ++ rs.map (fun x => (x - B, false)) := by
  have hburst : ∀ (k : Nat) (s : State), s.last = 0 → s.tokens = k →
      run s (List.replicate k 0) = ({ s with tokens := 0 }, List.replicate k (0, true)) := by
    intro k
    induction k with
    | zero => intro s _ h; obtain ⟨a, b, c, d⟩ := s; simp only at h; subst h; rfl
    | succ k ih =>
      intro s h1 h2
      have hi : issueIfNecessary s 0 = s := by
        unfold issueIfNecessary
        dsimp only
        split
        · rfl
        · rw [if_pos (by rw [h1]; simp)]
      have ha : acquire s 0 = ({ s with tokens := s.tokens - 1 }, true) := by
        unfold acquire
        rw [hi, if_pos (by omega)]
      simp only [List.replicate_succ, run, ha]
      rw [ih { s with tokens := s.tokens - 1 } h1 (by simp only; omega)]
  unfold answers
  rw [List.map_append, run_append]
  have e1 : (List.replicate n (⟨0, 0⟩ : Wall)).map Wall.reading = List.replicate n 0 := by simp [Wall.reading]
  rw [e1, show (Wall.reading ⟨0, 0⟩) = 0 from rfl, hburst n (new n r 0) rfl rfl]
  have e2 : (rs.map (fun x => (⟨x, -B⟩ : Wall))).map Wall.reading = rs.map (fun x => x - B) := by
    simp [Wall.reading, Int.sub_eq_add_neg]
  simp only
  rw [e2, refuse_back 0 (rs.map (fun x => x - B)) _ hr (by simp only [new]; omega) (by simp [new]) (by simp [new])
    (Or.inr ⟨rfl, rfl⟩)]
  · simp
  · unfold NonDecreasing
    rw [List.pairwise_map]
    exact ho.imp (fun h => by omega)
  · intro t ht
    obtain ⟨x, hx, rfl⟩ := List.mem_map.1 ht
    have := hb x hx
    omega

/-- The second part of the claim does not hold. -/
theorem C146_bucket_recover_claim_violated : ¬ C146RecoverClaim := by
  intro hcl
  have h1 := C146_bucket_refuses_violated 1 (by decide) 1 (by decide) (3 * second) [0] (by decide) (by decide)
  have h2 := C146_bucket_refuses_violated 1 (by decide) 1 (by decide) (3 * second) [0, 2 * second] (by decide) (by decide)
  have := hcl 1 1 ⟨0, 0⟩ [⟨0, 0⟩] ⟨0, -(3 * second)⟩ ⟨2 * second, -(3 * second)⟩ (by decide) (by decide) (by decide)
    (by decide) (by decide)
  revert this
  decide

/-- What one issue gives, with a clock that did not go back by a second: at least half of what the rate gives. -/
theorem issue_forward (s : State) (now : Int) (hr : 1 ≤ s.rate) (hc : 1 ≤ s.capacity) (hl : s.last - second < now)
    (h : (issueIfNecessary s now).tokens ≤ 0) :
    (issueIfNecessary s now).rate = s.rate ∧ (issueIfNecessary s now).capacity = s.capacity ∧
    now < (issueIfNecessary s now).last + second ∧ (issueIfNecessary s now = s ∨ (issueIfNecessary s now).last = now) ∧
    2 * second * s.tokens + s.rate * ((issueIfNecessary s now).last - s.last) ≤ 2 * second * (issueIfNecessary s now).tokens := by
  obtain ⟨d1, d2⟩ := tdiv_second (now - s.last)
  by_cases hge : s.tokens ≥ s.capacity
  · exfalso
    unfold issueIfNecessary at h
    rw [if_pos hge] at h
    omega
  have hq : Int.tdiv (now - s.last) second = 0 ∧ now < s.last + second ∨
      1 ≤ Int.tdiv (now - s.last) second ∧ now - s.last ≤ 2 * second * Int.tdiv (now - s.last) second := by
    rcases Int.lt_or_le (now - s.last) 0 with hneg | hpos
    · left
      rw [d2 hneg]
      unfold second at hl ⊢
      omega
    · rw [d1 hpos]
      unfold second
      omega
  rcases hq with ⟨q0, q1⟩ | ⟨q0, q1⟩
  · have e : issueIfNecessary s now = s := by
      unfold issueIfNecessary
      dsimp only
      rw [if_neg hge, q0, if_pos (by simp)]
    rw [e]
    exact ⟨rfl, rfl, q1, Or.inl rfl, by simp⟩
  · have hpos : 0 < Int.tdiv (now - s.last) second * s.rate := Int.mul_pos (by omega) (by omega)
    have e : issueIfNecessary s now = { s with tokens := s.tokens + Int.tdiv (now - s.last) second * s.rate, last := now } := by
      unfold issueIfNecessary at h ⊢
      dsimp only at h ⊢
      rw [if_neg hge, if_neg (by omega)] at h ⊢
      simp only at h
      by_cases hgt : s.tokens + Int.tdiv (now - s.last) second * s.rate > s.capacity
      · rw [if_pos hgt] at h; omega
      · rw [if_neg hgt]
    rw [e]
    refine ⟨rfl, rfl, by simp only; unfold second; omega, Or.inr rfl, ?_⟩
    simp only
    have hm := Int.mul_le_mul_of_nonneg_left q1 (show 0 ≤ s.rate by omega)
    have e2 : s.rate * (2 * second * Int.tdiv (now - s.last) second) = 2 * second * (Int.tdiv (now - s.last) second * s.rate) := by ring
    rw [e2] at hm
    rw [Int.mul_add]
    linarith

/-- A run of refused calls cannot be long. -/
theorem refused_forward (D L r : Int) (hr : 1 ≤ r) (t : Int) : ∀ (ts : List Int) (s : State), s.rate = r → 1 ≤ s.capacity →
    NonDecreasing (ts ++ [t]) → (∀ x ∈ ts ++ [t], s.last - second < x) → (∀ e ∈ (run s (ts ++ [t])).2, e.2 = false) →
    r * (s.last - L) - 2 * second * D ≤ 2 * second * s.tokens → r * (t - second - L) < 2 * second * D
  | ts, s, h1, h2, h3, h4, h5, h6 => by
    match ts with
    | [] =>
      simp only [List.nil_append, run, List.mem_cons, List.not_mem_nil, or_false, forall_eq] at h5
      have hneg : (issueIfNecessary s t).tokens ≤ 0 := by
        unfold acquire at h5
        by_cases hp : (issueIfNecessary s t).tokens > 0
        · simp [hp] at h5
        · omega
      obtain ⟨i1, i2, i3, i4, i5⟩ := issue_forward s t (by omega) h2 (h4 t (by simp)) hneg
      have hs : (0 : Int) ≤ 2 * second := by decide
      have hz := Int.mul_le_mul_of_nonneg_left hneg hs
      have hlt := Int.mul_lt_mul_of_pos_left (show t - second - L < (issueIfNecessary s t).last - L by omega) (show 0 < r by omega)
      rw [h1] at i5
      have e : r * ((issueIfNecessary s t).last - L) = r * ((issueIfNecessary s t).last - s.last) + r * (s.last - L) := by ring
      rw [e] at hlt
      linarith
    | x :: ts =>
      simp only [List.cons_append, run, List.mem_cons, forall_eq_or_imp] at h5
      have hneg : (issueIfNecessary s x).tokens ≤ 0 := by
        have h5' := h5.1
        unfold acquire at h5'
        by_cases hp : (issueIfNecessary s x).tokens > 0
        · simp [hp] at h5'
        · omega
      have ha : acquire s x = (issueIfNecessary s x, false) := by
        unfold acquire
        rw [if_neg (by omega)]
      obtain ⟨i1, i2, i3, i4, i5⟩ := issue_forward s x (by omega) h2 (h4 x (by simp)) hneg
      have ho := List.pairwise_cons.1 (show NonDecreasing (x :: (ts ++ [t])) from h3)
      rw [ha] at h5
      refine refused_forward D L r hr t ts (issueIfNecessary s x) (by omega) (by omega) ho.2 ?_ h5.2 ?_
      · intro y hy
        rcases i4 with i4 | i4
        · rw [i4]; exact h4 y (by simp only [List.cons_append, List.mem_cons]; exact Or.inr hy)
        · have := ho.1 y hy
          rw [i4]; unfold second; omega
      · rw [h1] at i5
        have e : r * ((issueIfNecessary s x).last - L) = r * ((issueIfNecessary s x).last - s.last) + r * (s.last - L) := by ring
        rw [e]
        linarith

/-- **C146, partial**: a clock that ran forward until it was set back by at most `B` makes the bucket refuse for at most twice
`B` and two seconds: after that time one of the calls has been admitted.  (Half of the tokens may be lost when issuing, C116.) -/
theorem C146_bucket_recovers_partial (c r : Int) (hc : 1 ≤ c) (hr : 1 ≤ r) (w0 : Wall) (ws : List Wall) (v : Wall) (vs : List Wall) (w : Wall)
    (B : Int) (hB : 0 ≤ B) (hbefore : NonDecreasing ((w0 :: ws).map Wall.reading))
    (hafter : NonDecreasing ((v :: vs ++ [w]).map Wall.reading)) (hback : ∀ u ∈ w0 :: ws, u.reading - B ≤ v.reading)
    (hlate : v.reading + 2 * B + 2 * second ≤ w.reading) :
    ∃ e ∈ (answers c r w0 (ws ++ (v :: vs ++ [w]))).drop ws.length, e.2 = true := by
  by_contra hno
  have hno' : ∀ e ∈ (answers c r w0 (ws ++ (v :: vs ++ [w]))).drop ws.length, e.2 = false := by
    intro e he
    cases hb : e.2 with
    | false => rfl
    | true => exact absurd ⟨e, he, hb⟩ hno
  unfold answers at hno'
  rw [List.map_append, run_append, List.drop_append_of_le_length (by rw [run_length]; simp), List.drop_of_length_le (by rw [run_length]; simp),
    List.nil_append] at hno'
  -- the bucket before the clock is set back
  obtain ⟨T, hT1, hT2⟩ : ∃ T, (∀ u ∈ w0 :: ws, u.reading ≤ T) ∧ T - B ≤ v.reading := by
    exact ⟨v.reading + B, fun u hu => by have := hback u hu; omega, by omega⟩
  obtain ⟨wf, b1, b2, _, b3, _, _⟩ := run_bound (new c r w0.reading) (ws.map Wall.reading) (new_wf (by omega) (by omega)) hbefore T
    (hT1 w0 (by simp)) (by
      intro t ht
      obtain ⟨u, hu, rfl⟩ := List.mem_map.1 ht
      exact hT1 u (by simp [hu]))
  generalize hs : (run (new c r w0.reading) (ws.map Wall.reading)).1 = s at *
  simp only [new] at b1 b2
  have hlo := wf.lo
  -- its first call
  simp only [List.map_cons, List.cons_append, List.map_append, List.map_nil, run, List.mem_cons, forall_eq_or_imp] at hno'
  have hneg : (issueIfNecessary s v.reading).tokens ≤ 0 := by
    have h := hno'.1
    unfold acquire at h
    by_cases hp : (issueIfNecessary s v.reading).tokens > 0
    · simp [hp] at h
    · omega
  have ha : acquire s v.reading = (issueIfNecessary s v.reading, false) := by
    unfold acquire
    rw [if_neg (by omega)]
  rw [ha] at hno'
  have ho := List.pairwise_cons.1 (show NonDecreasing (v.reading :: ((vs.map Wall.reading) ++ [w.reading])) by
    simpa using hafter)
  by_cases hfar : s.last - second < v.reading
  · obtain ⟨i1, i2, i3, i4, i5⟩ := issue_forward s v.reading (by omega) (by omega) hfar hneg
    have hz : 0 ≤ 2 * second * s.tokens := Int.mul_nonneg (by decide) hlo
    have := refused_forward 0 s.last r hr w.reading (vs.map Wall.reading) (issueIfNecessary s v.reading) (by omega) (by omega) ho.2
      (by
        intro y hy
        have := ho.1 y hy
        rcases i4 with i4 | i4
        · rw [i4]; omega
        · rw [i4]; unfold second; omega) hno'.2 (by rw [b2] at i5; linarith)
    rw [Int.mul_zero] at this
    have hpos : 0 ≤ r * (w.reading - second - s.last) := Int.mul_nonneg (by omega) (by unfold second at *; omega)
    omega
  · -- tokens are taken away
    obtain ⟨d1, d2⟩ := tdiv_second (v.reading - s.last)
    have hq : Int.tdiv (v.reading - s.last) second ≤ -1 ∧ - B ≤ second * Int.tdiv (v.reading - s.last) second := by
      rw [d2 (by unfold second at hfar; omega)]
      unfold second at hfar ⊢
      omega
    have hge : ¬ s.tokens ≥ s.capacity := by
      intro h
      unfold issueIfNecessary at hneg
      rw [if_pos h] at hneg
      omega
    have hd : Int.tdiv (v.reading - s.last) second * s.rate < 0 := by
      have := Int.mul_le_mul_of_nonneg_right hq.1 (show 0 ≤ s.rate by omega)
      omega
    have e : issueIfNecessary s v.reading =
        { s with tokens := s.tokens + Int.tdiv (v.reading - s.last) second * s.rate, last := v.reading } := by
      unfold issueIfNecessary
      dsimp only
      rw [if_neg hge, if_neg (by omega), if_neg (by omega)]
    have hm := Int.mul_le_mul_of_nonneg_left hq.2 (show 0 ≤ r by omega)
    have e2 : r * (second * Int.tdiv (v.reading - s.last) second) = second * (Int.tdiv (v.reading - s.last) second * r) := by ring
    rw [e2] at hm
    have hz : 0 ≤ second * s.tokens := Int.mul_nonneg (by decide) hlo
    -- as if `D` tokens were missing, `second * D = r * B` at most
    have := refused_forward (-(Int.tdiv (v.reading - s.last) second * r)) v.reading r hr w.reading (vs.map Wall.reading)
      (issueIfNecessary s v.reading) (by rw [e]; exact b2) (by rw [e]; simp only; omega) ho.2
      (by
        intro y hy
        have := ho.1 y hy
        rw [e]; simp only; unfold second; omega) hno'.2 (by
        rw [e]
        simp only [b2, Int.sub_self, Int.mul_zero, Int.mul_add, Int.mul_neg]
        have : 2 * second * s.tokens = 2 * (second * s.tokens) := by ring
        omega)
    have hle := Int.mul_le_mul_of_nonneg_left (show 2 * B + second ≤ w.reading - second - v.reading by omega) (show 0 ≤ r by omega)
    have e3 : r * (2 * B + second) = 2 * (r * B) + r * second := by ring
    have e4 : 2 * second * (-(Int.tdiv (v.reading - s.last) second * r)) = -(2 * (second * (Int.tdiv (v.reading - s.last) second * r))) := by ring
    have hrs : 0 < r * second := Int.mul_pos (by omega) (by decide)
    have e5 : r * -B = -(r * B) := by ring
    omega

-- Not vacuous: one call, set back by three seconds, calls every two seconds.
example : answers 1 1 ⟨0, 0⟩ [⟨0, 0⟩, ⟨0, -3000000000⟩, ⟨2000000000, -3000000000⟩, ⟨4000000000, -3000000000⟩,
    ⟨6000000000, -3000000000⟩, ⟨8000000000, -3000000000⟩] =
  [(0, true), (-3000000000, false), (-1000000000, false), (1000000000, true), (3000000000, true), (5000000000, true)] := by decide

end Gears.TokenBucket
