import Verif.TokenBucket.Props
import Verif.Procs.Model

/-
SyncTokenBucket (ratelimiter/tokenbucket.go:34-42, 58-104) on a machine where `int` has 32 bits: `tokens`, `capacity` and
`issueRatePerSecond` are `int`, clock readings and `delta` are int64, and `int(delta)` (98) keeps the low 32 bits.
-/

namespace Gears.Arch32

open TokenBucket Procs

/-- 32-bit two's complement. -/
def wrap32 (x : Int) : Int := (x + 2 ^ 31) % 2 ^ 32 - 2 ^ 31

/-- `issueIfNecessary` (85-104). -/
def issue32 (s : State) (now : Int) : State :=
  if s.tokens ≥ s.capacity then s
  else
    let delta := wrap (Int.tdiv (wrap (now - s.last)) second * s.rate)
    if delta = 0 then s
    else
      let t := wrap32 (s.tokens + wrap32 delta)
      { s with tokens := if t > s.capacity then s.capacity else t, last := now }

/-- `Acquire` (71-83). -/
def acquire32 (s : State) (now : Int) : State × Bool :=
  let s1 := issue32 s now
  if s1.tokens > 0 then ({ s1 with tokens := wrap32 (s1.tokens - 1) }, true) else (s1, false)

def run32 (s : State) : List Int → State × History
  | [] => (s, [])
  | t :: ts =>
    let r := acquire32 s t
    let r2 := run32 r.1 ts
    (r2.1, (t, r.2) :: r2.2)

/-- **C147**, the claim for the sync bucket: for all parameters that an `int` of 32 bits can hold and all int64 clock readings,
it decides as without bounds. -/
def C147SyncClaim : Prop :=
  ∀ (c r t0 : Int) (ts : List Int), 0 ≤ c → c < 2 ^ 31 → 0 ≤ r → r < 2 ^ 31 → 0 ≤ t0 → (∀ t ∈ ts, t < 2 ^ 63) →
    NonDecreasing (t0 :: ts) → (run32 (new c r t0) ts).2 = (run (new c r t0) ts).2

theorem wrap32_of {x : Int} (h1 : -2 ^ 31 ≤ x) (h2 : x < 2 ^ 31) : wrap32 x = x := by unfold wrap32; omega

theorem wrap_of' {x : Int} (h1 : -2 ^ 63 ≤ x) (h2 : x < 2 ^ 63) : wrap x = x := by unfold wrap; omega

/-- Only the low 32 bits matter. -/
theorem wrap32_add (a d : Int) : wrap32 (a + wrap32 (wrap d)) = wrap32 (a + d) := by unfold wrap32 wrap; omega

theorem issue32_eq (s : State) (now : Int) (wf : WF s) (h0 : 0 ≤ s.last) (hl : s.last ≤ now) (hn : now < 2 ^ 63)
    (hfit : s.tokens + s.rate * ((now - s.last) / second) < 2 ^ 31) : issue32 s now = issueIfNecessary s now := by
  have hd : Int.tdiv (now - s.last) second = (now - s.last) / second := Int.tdiv_eq_ediv_of_nonneg (by omega)
  have hq : 0 ≤ (now - s.last) / second := Int.ediv_nonneg (by omega) (by decide)
  have hnn : 0 ≤ (now - s.last) / second * s.rate := Int.mul_nonneg hq wf.rate
  have hlo := wf.lo
  rw [Int.mul_comm] at hfit
  unfold issue32 issueIfNecessary
  dsimp only
  rw [wrap_of' (x := now - s.last) (by omega) (by omega), hd]
  rw [wrap32_add, wrap_of' (x := (now - s.last) / second * s.rate) (by omega) (by omega), wrap32_of (by omega) hfit]

theorem run32_eq (c r t0 T : Int) (hr : 0 ≤ r) (hT : T < 2 ^ 63) (hfit : c + r * ((T - t0) / second) < 2 ^ 31) (h0 : 0 ≤ t0) :
    ∀ (ts : List Int) (s : State), WF s → s.capacity = c → s.rate = r → t0 ≤ s.last → NonDecreasing (s.last :: ts) →
    (∀ t ∈ ts, t ≤ T) → run32 s ts = run s ts
  | [], s, _, _, _, _, _, _ => rfl
  | t :: ts, s, wf, h1, h2, h3, hm, hb => by
    have ho := List.pairwise_cons.1 hm
    have hl := ho.1 t List.mem_cons_self
    have htT := hb t List.mem_cons_self
    have hhi := wf.hi
    have hlo := wf.lo
    have hdiv : (t - s.last) / second ≤ (T - t0) / second := by unfold second; omega
    have hmul := Int.mul_le_mul_of_nonneg_left hdiv hr
    have hi : issue32 s t = issueIfNecessary s t := issue32_eq s t wf (by omega) hl (by omega) (by rw [h2]; omega)
    have hdiv0 : 0 ≤ r * ((T - t0) / second) := Int.mul_nonneg hr (by unfold second; omega)
    have ha : acquire32 s t = acquire s t := by
      unfold acquire32 acquire
      rw [hi]
      dsimp only
      split
      · rename_i hpos
        have hle : (issueIfNecessary s t).tokens ≤ c := by
          rcases issue_cases s t hl wf.rate wf.hi with ⟨e, _⟩ | ⟨x, e, _, _, e3, _⟩
          · rw [e]; omega
          · rw [e]; simp only; omega
        rw [wrap32_of (by omega) (by omega)]
      · rfl
    obtain ⟨awf, acap, arate, al1, al2, _⟩ := acquire_spec s t wf hl
    simp only [run32, run, ha]
    rw [run32_eq c r t0 T hr hT hfit h0 ts (acquire s t).1 awf (by omega) (by omega) (by omega) ?_ (fun x hx => hb x (List.mem_cons_of_mem _ hx))]
    refine List.pairwise_cons.2 ⟨fun x hx => ?_, (List.pairwise_cons.1 ho.2).2⟩
    exact Int.le_trans al2 ((List.pairwise_cons.1 ho.2).1 x hx)

/-- **C147, partial**: the bucket decides as without bounds (and so C01-C04 hold) as long as capacity + rate · seconds since its
creation fits into 31 bits. -/
theorem C147_sync_exact_partial (c r t0 : Int) (hc : 0 ≤ c) (hr : 0 ≤ r) (h0 : 0 ≤ t0) (ts : List Int) (hm : NonDecreasing (t0 :: ts)) (T : Int)
    (hb : ∀ t ∈ ts, t ≤ T) (hT : T < 2 ^ 63) (hfit : c + r * ((T - t0) / second) < 2 ^ 31) :
    run32 (new c r t0) ts = run (new c r t0) ts :=
  run32_eq c r t0 T hr hT hfit h0 ts _ (new_wf hc hr) rfl rfl (Int.le_refl _) hm hb

/-- An issue gives no more than without bounds. -/
theorem issue32_le (s : State) (now : Int) (hr : 0 ≤ s.rate) (h0 : 0 ≤ s.last) (hl : s.last ≤ now) (hn : now < 2 ^ 63) (htok : -2 ^ 31 ≤ s.tokens)
    (hc : s.capacity < 2 ^ 31) (hc0 : 0 ≤ s.capacity) :
    issue32 s now = s ∨ ∃ t, issue32 s now = { s with tokens := t, last := now } ∧ t ≤ s.tokens + s.rate * ((now - s.last) / second) ∧
      -2 ^ 31 ≤ t ∧ t ≤ s.capacity := by
  have hd : Int.tdiv (now - s.last) second = (now - s.last) / second := Int.tdiv_eq_ediv_of_nonneg (by omega)
  have hq : 0 ≤ (now - s.last) / second := Int.ediv_nonneg (by omega) (by decide)
  have hnn : 0 ≤ (now - s.last) / second * s.rate := Int.mul_nonneg hq hr
  unfold issue32
  dsimp only
  rw [wrap_of' (x := now - s.last) (by omega) (by omega), hd, wrap32_add]
  by_cases h1 : s.tokens ≥ s.capacity
  · left; rw [if_pos h1]
  · rw [if_neg h1]
    by_cases h2 : wrap ((now - s.last) / second * s.rate) = 0
    · left; rw [if_pos h2]
    · right
      rw [if_neg h2]
      refine ⟨_, rfl, ?_⟩
      rw [Int.mul_comm s.rate]
      have hw : wrap32 (s.tokens + (now - s.last) / second * s.rate) ≤ s.tokens + (now - s.last) / second * s.rate ∧
          -2 ^ 31 ≤ wrap32 (s.tokens + (now - s.last) / second * s.rate) := by
        unfold wrap32; omega
      split <;> omega

theorem bound32 (c r T : Int) (hc : 0 ≤ c) (hc2 : c < 2 ^ 31) (hr : 0 ≤ r) (hT : T < 2 ^ 63) : ∀ (ts : List Int) (s : State), s.capacity = c →
    s.rate = r → -2 ^ 31 ≤ s.tokens → s.tokens ≤ c → 0 ≤ s.last → s.last ≤ T → NonDecreasing (s.last :: ts) → (∀ t ∈ ts, t ≤ T) →
    0 < admitted (run32 s ts).2 → (admitted (run32 s ts).2 : Int) ≤ s.tokens + r * ((T - s.last) / second)
  | [], s, _, _, _, _, _, _, _, _, h => by simp [run32, admitted] at h
  | t :: ts, s, h1, h2, h3, h4, h5, h6, h7, h8, h9 => by
    have ho := List.pairwise_cons.1 h7
    have ho2 := List.pairwise_cons.1 ho.2
    have hl := ho.1 t List.mem_cons_self
    have htT := h8 t List.mem_cons_self
    have key : ∀ s1 : State, issue32 s t = s1 → s1.capacity = c → s1.rate = r → -2 ^ 31 ≤ s1.tokens → s1.tokens ≤ c → 0 ≤ s1.last →
        s1.last ≤ t → s1.tokens + r * ((T - s1.last) / second) ≤ s.tokens + r * ((T - s.last) / second) →
        (admitted (run32 s (t :: ts)).2 : Int) ≤ s.tokens + r * ((T - s.last) / second) := by
      intro s1 e k1 k2 k3 k4 k5 k6 k7
      have hnn : 0 ≤ r * ((T - s1.last) / second) := Int.mul_nonneg hr (by unfold second; omega)
      have hord : NonDecreasing (s1.last :: ts) :=
        List.pairwise_cons.2 ⟨fun x hx => Int.le_trans k6 (ho2.1 x hx), ho2.2⟩
      by_cases hp : s1.tokens > 0
      · have ha : acquire32 s t = ({ s1 with tokens := s1.tokens - 1 }, true) := by
          unfold acquire32
          rw [e]
          dsimp only
          rw [if_pos hp, wrap32_of (by omega) (by omega)]
        simp only [run32, ha]
        rw [admitted_cons]
        by_cases hz : 0 < admitted (run32 { s1 with tokens := s1.tokens - 1 } ts).2
        · have ih := bound32 c r T hc hc2 hr hT ts { s1 with tokens := s1.tokens - 1 } k1 k2 (by simp only; omega) (by simp only; omega) k5
            (by simp only; omega) hord (fun x hx => h8 x (List.mem_cons_of_mem _ hx)) hz
          simp only at ih
          simp only [if_true]
          push_cast
          omega
        · simp only [if_true]
          push_cast
          omega
      · have ha : acquire32 s t = (s1, false) := by
          unfold acquire32
          rw [e]
          dsimp only
          rw [if_neg hp]
        simp only [run32, ha] at h9 ⊢
        rw [admitted_cons] at h9 ⊢
        have ih := bound32 c r T hc hc2 hr hT ts s1 k1 k2 k3 k4 k5 (by omega) hord (fun x hx => h8 x (List.mem_cons_of_mem _ hx)) (by simpa using h9)
        push_cast
        simp only [Int.add_zero]
        omega
    rcases issue32_le s t (by omega) h5 hl (by omega) h3 (by omega) (by omega) with e | ⟨x, e, x1, x2, x3⟩
    · exact key s e h1 h2 h3 h4 h5 hl (Int.le_refl _)
    · refine key { s with tokens := x, last := t } e h1 h2 x2 (by simp only; omega) (by simp only; omega) (by simp only; omega) ?_
      have hfl := floor_add_le (t - s.last) (T - t)
      have hmul := Int.mul_le_mul_of_nonneg_left hfl hr
      rw [Int.mul_add, show t - s.last + (T - t) = T - s.last by omega] at hmul
      rw [h2] at x1
      simp only
      omega

/-- **C147, partial**: for all parameters, the bucket never admits more than without bounds (C01). -/
theorem C147_sync_bound_partial (c r t0 : Int) (hc : 0 ≤ c) (hc2 : c < 2 ^ 31) (hr : 0 ≤ r) (h0 : 0 ≤ t0) (ts : List Int)
    (hm : NonDecreasing (t0 :: ts)) (T : Int) (ht0 : t0 ≤ T) (hb : ∀ t ∈ ts, t ≤ T) (hT : T < 2 ^ 63) :
    (admitted (run32 (new c r t0) ts).2 : Int) ≤ c + r * ((T - t0) / second) := by
  by_cases hz : 0 < admitted (run32 (new c r t0) ts).2
  · exact bound32 c r T hc hc2 hr hT ts (new c r t0) rfl rfl (by simp only [new]; omega) (Int.le_refl _) h0 ht0 hm hb hz
  · have : 0 ≤ r * ((T - t0) / second) := Int.mul_nonneg hr (by unfold second; omega)
    omega

theorem outage32 (c r t0 : Int) (hc : 1 ≤ c) (hc2 : c < 2 ^ 31) (hr : 1 ≤ r) (h0 : 0 ≤ t0) : ∀ (ts : List Int) (s : State), s.capacity = c → s.rate = r →
    -2 ^ 31 ≤ s.tokens → t0 ≤ s.last → s.tokens + 2 ^ 32 ≤ c - 1 + r * ((s.last - t0) / second) → s.tokens ≤ 0 →
    NonDecreasing (s.last :: ts) →
    (∀ t ∈ ts, t < 2 ^ 63 ∧ c - 1 + r * ((t - t0) / second) ≤ 2 ^ 32) → (run32 s ts).2 = ts.map (·, false)
  | [], s, _, _, _, _, _, _, _, _ => rfl
  | t :: ts, s, h1, h2, h3, h4, h5, h6, h7, h8 => by
    have ho := List.pairwise_cons.1 h7
    have ho2 := List.pairwise_cons.1 ho.2
    have hl := ho.1 t List.mem_cons_self
    have ht := h8 t List.mem_cons_self
    have h8' := fun x hx => h8 x (List.mem_cons_of_mem t hx)
    have hfl := floor_add_le (s.last - t0) (t - s.last)
    rw [show s.last - t0 + (t - s.last) = t - t0 by omega] at hfl
    have hmul := Int.mul_le_mul_of_nonneg_left hfl (show 0 ≤ r by omega)
    rw [Int.mul_add] at hmul
    have hd : Int.tdiv (t - s.last) second = (t - s.last) / second := Int.tdiv_eq_ediv_of_nonneg (by omega)
    have hq : 0 ≤ (t - s.last) / second := Int.ediv_nonneg (by omega) (by decide)
    have hnn : 0 ≤ r * ((t - s.last) / second) := Int.mul_nonneg (by omega) hq
    have hcomm : (t - s.last) / second * s.rate = r * ((t - s.last) / second) := by rw [h2, Int.mul_comm]
    by_cases hz : r * ((t - s.last) / second) = 0
    · have e : issue32 s t = s := by
        unfold issue32
        dsimp only
        rw [wrap_of' (x := t - s.last) (by omega) (by omega), hd, hcomm, hz]
        split
        · rfl
        · rw [if_pos (by decide)]
      have ha : acquire32 s t = (s, false) := by
        unfold acquire32
        rw [e]
        dsimp only
        rw [if_neg (by omega)]
      simp only [run32, ha, List.map_cons]
      rw [outage32 c r t0 hc hc2 hr h0 ts s h1 h2 h3 h4 h5 h6
        (List.pairwise_cons.2 ⟨fun x hx => ho.1 x (List.mem_cons_of_mem _ hx), ho2.2⟩) h8']
    · have e : issue32 s t = { s with tokens := s.tokens + r * ((t - s.last) / second), last := t } := by
        unfold issue32
        dsimp only
        rw [wrap_of' (x := t - s.last) (by omega) (by omega), hd, hcomm, wrap32_add]
        rw [wrap_of' (x := r * ((t - s.last) / second)) (by omega) (by omega), wrap32_of (by omega) (by omega)]
        rw [if_neg (by omega), if_neg hz, if_neg (by omega)]
      have ha : acquire32 s t = ({ s with tokens := s.tokens + r * ((t - s.last) / second), last := t }, false) := by
        unfold acquire32
        rw [e]
        dsimp only
        rw [if_neg (by omega)]
      simp only [run32, ha, List.map_cons]
      rw [outage32 c r t0 hc hc2 hr h0 ts { s with tokens := s.tokens + r * ((t - s.last) / second), last := t } h1 h2 (by simp only; omega)
        (by simp only; omega) (by simp only; omega) (by simp only; omega) ho.2 h8']

/-- **C147 is violated**: a bucket that was idle for so long that capacity + rate · seconds reaches 2^31 refuses every call until
it reaches 2^32: with a rate of 1000 per second, 25 days of refusals after 25 days without calls. -/
theorem C147_sync_idle_violated (c r t0 : Int) (hc : 1 ≤ c) (hc2 : c < 2 ^ 31) (hr : 1 ≤ r) (h0 : 0 ≤ t0) (t1 : Int) (ts : List Int)
    (hm : NonDecreasing (t0 :: t1 :: ts)) (h31 : 2 ^ 31 ≤ c - 1 + r * ((t1 - t0) / second))
    (h32 : ∀ t ∈ t1 :: ts, t < 2 ^ 63 ∧ c - 1 + r * ((t - t0) / second) ≤ 2 ^ 32) :
    (run32 (new c r t0) (t0 :: t1 :: ts)).2 = (t0, true) :: (t1 :: ts).map (·, false) := by
  have ho := List.pairwise_cons.1 hm
  have hl := ho.1 t1 List.mem_cons_self
  have ht1 := h32 t1 List.mem_cons_self
  have a0 : acquire32 (new c r t0) t0 = (⟨c, c - 1, r, t0⟩, true) := by
    have : issue32 (new c r t0) t0 = new c r t0 := by
      unfold issue32
      rw [if_pos (by simp [new])]
    unfold acquire32
    rw [this]
    dsimp only [new]
    rw [if_pos (by omega), wrap32_of (by omega) (by omega)]
  have hd : Int.tdiv (t1 - t0) second = (t1 - t0) / second := Int.tdiv_eq_ediv_of_nonneg (by omega)
  have e1 : issue32 ⟨c, c - 1, r, t0⟩ t1 = ⟨c, c - 1 + r * ((t1 - t0) / second) - 2 ^ 32, r, t1⟩ := by
    unfold issue32
    dsimp only
    rw [wrap_of' (x := t1 - t0) (by omega) (by omega), hd, wrap32_add, Int.mul_comm ((t1 - t0) / second) r,
      wrap_of' (x := r * ((t1 - t0) / second)) (by omega) (by omega),
      show wrap32 (c - 1 + r * ((t1 - t0) / second)) = c - 1 + r * ((t1 - t0) / second) - 2 ^ 32 by unfold wrap32; omega]
    rw [if_neg (by omega), if_neg (by omega), if_neg (by omega)]
  have a1 : acquire32 ⟨c, c - 1, r, t0⟩ t1 = (⟨c, c - 1 + r * ((t1 - t0) / second) - 2 ^ 32, r, t1⟩, false) := by
    unfold acquire32
    rw [e1]
    dsimp only
    rw [if_neg (by omega)]
  simp only [run32, a0, a1, List.map_cons]
  rw [outage32 c r t0 hc hc2 hr h0 ts ⟨c, c - 1 + r * ((t1 - t0) / second) - 2 ^ 32, r, t1⟩ rfl rfl (by simp only; omega) hl (by simp only; omega)
    (by simp only; omega) ho.2 (fun t ht => h32 t (List.mem_cons_of_mem _ ht))]

/-- The claim for the sync bucket does not hold. -/
theorem C147_sync_claim_violated : ¬ C147SyncClaim := by
  intro h
  have := h 1 (2 ^ 30) 0 [0, 2000000000] (by decide) (by decide) (by decide) (by decide) (by decide) (by decide) (by decide)
  revert this
  decide

-- A rate of 1000 per second: refused on day 25, again on day 49, admitted on day 50.
example : (run32 (new 10 1000 0) [0, 25 * 86400 * 1000000000, 49 * 86400 * 1000000000, 50 * 86400 * 1000000000]).2.map (·.2) =
    [true, false, false, true] := by decide

end Gears.Arch32
