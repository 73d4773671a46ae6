import Verif.TokenBucket.Lemmas
import Verif.SlidingWindow.Model
import Verif.Procs.Props

/-
The token bucket and the sliding window in the arithmetic of int64 (and of int on 64-bit machines): C98.
-/

namespace Gears.TokenBucket

open Gears.Procs (wrap wrap_of)

/-! ## Model -/

/-- `issueIfNecessary` (tokenbucket.go:85-104) in 64-bit arithmetic. -/
def issueW (s : State) (now : Int) : State :=
  if s.tokens ≥ s.capacity then s
  else
    let elapse := wrap (now - s.last)
    let delta := wrap (Int.tdiv elapse second * s.rate)
    if delta = 0 then s
    else
      let t := wrap (s.tokens + delta)
      { s with tokens := if t > s.capacity then s.capacity else t, last := now }

/-- `Acquire` (tokenbucket.go:71-83); tokens - 1 does not overflow. -/
def acquireW (s : State) (now : Int) : State × Bool :=
  let s1 := issueW s now
  if s1.tokens > 0 then ({ s1 with tokens := s1.tokens - 1 }, true) else (s1, false)

def runW (s : State) : List Int → State × List (Int × Bool)
  | [] => (s, [])
  | t :: ts =>
    let r := acquireW s t
    let r2 := runW r.1 ts
    (r2.1, (t, r.2) :: r2.2)

/-! ## Safety -/

/-- 64-bit state; the tokens may be negative -/
structure WF64 (s : State) : Prop where
  cap  : 0 ≤ s.capacity ∧ s.capacity < 2 ^ 63
  rate : 0 ≤ s.rate
  lo   : -2 ^ 63 ≤ s.tokens
  hi   : s.tokens ≤ s.capacity
  last : 0 ≤ s.last

theorem issueW_spec (s : State) (now : Int) (wf : WF64 s) (hl : s.last ≤ now) (hn : now < 2 ^ 63) :
    WF64 (issueW s now) ∧ (issueW s now).capacity = s.capacity ∧ (issueW s now).rate = s.rate ∧ s.last ≤ (issueW s now).last ∧
      (issueW s now).last ≤ now ∧ max (issueW s now).tokens 0 ≤ max s.tokens 0 + s.rate * (((issueW s now).last - s.last) / second) := by
  obtain ⟨⟨c1, c2⟩, hr, hlo, hhi, hlast⟩ := wf
  have hd : Int.tdiv (now - s.last) second = (now - s.last) / second := Int.tdiv_eq_ediv_of_nonneg (by omega)
  have hq : 0 ≤ (now - s.last) / second := Int.ediv_nonneg (by omega) (by decide)
  have hA : 0 ≤ s.rate * ((now - s.last) / second) := Int.mul_nonneg hr hq
  have same : ∀ s' : State, s' = s → WF64 s' ∧ s'.capacity = s.capacity ∧ s'.rate = s.rate ∧ s.last ≤ s'.last ∧ s'.last ≤ now ∧
      max s'.tokens 0 ≤ max s.tokens 0 + s.rate * ((s'.last - s.last) / second) := by
    rintro s' rfl
    exact ⟨⟨⟨c1, c2⟩, hr, hlo, hhi, hlast⟩, rfl, rfl, Int.le_refl _, hl, by simp⟩
  have hw : wrap (now - s.last) = now - s.last := wrap_of (by omega) (by omega)
  unfold issueW
  simp only [hw, hd]
  split
  · exact same _ rfl
  · split
    · exact same _ rfl
    · rw [Int.mul_comm ((now - s.last) / second)]
      generalize s.rate * ((now - s.last) / second) = A at hA
      have ht : -2 ^ 63 ≤ wrap (s.tokens + wrap A) ∧ wrap (s.tokens + wrap A) ≤ s.tokens + A := by unfold wrap; omega
      generalize wrap (s.tokens + wrap A) = t at ht
      refine ⟨⟨⟨c1, c2⟩, hr, ?_, ?_, by show 0 ≤ now; omega⟩, rfl, rfl, hl, Int.le_refl _, ?_⟩
      · show -2 ^ 63 ≤ if t > s.capacity then s.capacity else t
        split <;> omega
      · show (if t > s.capacity then s.capacity else t) ≤ s.capacity
        split <;> omega
      · show max (if t > s.capacity then s.capacity else t) 0 ≤ _
        split <;> omega

theorem acquireW_spec (s : State) (now : Int) (wf : WF64 s) (hl : s.last ≤ now) (hn : now < 2 ^ 63) :
    WF64 (acquireW s now).1 ∧ (acquireW s now).1.capacity = s.capacity ∧ (acquireW s now).1.rate = s.rate ∧
      s.last ≤ (acquireW s now).1.last ∧ (acquireW s now).1.last ≤ now ∧
      (if (acquireW s now).2 then 1 else 0) + max (acquireW s now).1.tokens 0 ≤
        max s.tokens 0 + s.rate * (((acquireW s now).1.last - s.last) / second) := by
  obtain ⟨⟨h1, h2, h3, h4, h5⟩, h6, h7, h8, h9, h10⟩ := issueW_spec s now wf hl hn
  unfold acquireW
  simp only
  split
  · refine ⟨⟨h1, h2, ?_, ?_, h5⟩, h6, h7, h8, h9, ?_⟩
    · show -2 ^ 63 ≤ (issueW s now).tokens - 1; omega
    · show (issueW s now).tokens - 1 ≤ (issueW s now).capacity; omega
    · show (if true = true then (1 : Int) else 0) + max ((issueW s now).tokens - 1) 0 ≤
        max s.tokens 0 + s.rate * (((issueW s now).last - s.last) / second)
      rw [if_pos rfl]; omega
  · refine ⟨⟨h1, h2, h3, h4, h5⟩, h6, h7, h8, h9, ?_⟩
    show (if false = true then (1 : Int) else 0) + max (issueW s now).tokens 0 ≤
      max s.tokens 0 + s.rate * (((issueW s now).last - s.last) / second)
    rw [if_neg (by decide)]; omega

theorem runW_bound (ts : List Int) : ∀ (s : State), WF64 s → NonDecreasing (s.last :: ts) → ∀ T, s.last ≤ T → T < 2 ^ 63 → (∀ t ∈ ts, t ≤ T) →
    (admitted (runW s ts).2 : Int) ≤ max s.tokens 0 + s.rate * ((T - s.last) / second) := by
  induction ts with
  | nil =>
    intro s wf _ T hT _ _
    have : 0 ≤ s.rate * ((T - s.last) / second) := Int.mul_nonneg wf.rate (Int.ediv_nonneg (by omega) (by decide))
    simp only [runW, admitted_nil]; omega
  | cons t ts ih =>
    intro s wf hm T hT0 hTT hT
    have hm1 := List.pairwise_cons.1 hm
    have hm2 := List.pairwise_cons.1 hm1.2
    have hl : s.last ≤ t := hm1.1 t (by simp)
    have htT : t ≤ T := hT t (by simp)
    obtain ⟨h1, h2, h3, h4, h5, h6⟩ := acquireW_spec s t wf hl (by omega)
    have hrec := ih (acquireW s t).1 h1 (List.pairwise_cons.2 ⟨fun x hx => Int.le_trans h5 (hm2.1 x hx), hm2.2⟩) T (by omega) hTT
      (fun x hx => hT x (by simp [hx]))
    rw [h3] at hrec
    have hfl := floor_add_le ((acquireW s t).1.last - s.last) (T - (acquireW s t).1.last)
    have hmul := Int.mul_le_mul_of_nonneg_left hfl wf.rate
    rw [Int.mul_add, show (acquireW s t).1.last - s.last + (T - (acquireW s t).1.last) = T - s.last by omega] at hmul
    simp only [runW, admitted_cons]
    push_cast
    have e : ((if (acquireW s t).2 = true then (1 : Nat) else 0 : Nat) : Int) = if (acquireW s t).2 = true then (1 : Int) else 0 := by
      split <;> rfl
    push_cast at e
    omega

/-- **C98** (safety): in 64-bit arithmetic the bucket never admits more than the exact one may (C01), for all capacities and rates. -/
theorem C98_total_bound (c r t0 : Int) (hc : 0 ≤ c ∧ c < 2 ^ 63) (hr : 0 ≤ r) (h0 : 0 ≤ t0) (ts : List Int)
    (hm : NonDecreasing (t0 :: ts)) (t : Int) (ht0 : t0 ≤ t) (ht63 : t < 2 ^ 63) (ht : ∀ x ∈ ts, x ≤ t) :
    (admitted (runW (new c r t0) ts).2 : Int) ≤ c + r * ((t - t0) / 1000000000) := by
  have := runW_bound ts (new c r t0) ⟨hc, hr, by show -2 ^ 63 ≤ c; omega, Int.le_refl _, h0⟩ hm t ht0 ht63 ht
  have e : max (new c r t0).tokens 0 = c := by show max c 0 = c; omega
  rw [e] at this
  exact this

/-! ## Exactness -/

theorem acquireW_eq (s : State) (now T : Int) (wf : WF s) (h0 : 0 ≤ s.last) (hl : s.last ≤ now) (hn : now ≤ T) (hT : T < 2 ^ 63)
    (hfit : s.capacity + s.rate * ((T - s.last) / second) < 2 ^ 63) : acquireW s now = acquire s now := by
  obtain ⟨c1, hr, hlo, hhi⟩ := wf
  have hd : Int.tdiv (now - s.last) second = (now - s.last) / second := Int.tdiv_eq_ediv_of_nonneg (by omega)
  have hq : 0 ≤ (now - s.last) / second := Int.ediv_nonneg (by omega) (by decide)
  have hA : 0 ≤ (now - s.last) / second * s.rate := Int.mul_nonneg hq hr
  have hle : (now - s.last) / second * s.rate ≤ s.rate * ((T - s.last) / second) := by
    rw [Int.mul_comm]
    exact Int.mul_le_mul_of_nonneg_left (Int.ediv_le_ediv (by decide) (by omega)) hr
  have hw : wrap (now - s.last) = now - s.last := wrap_of (by omega) (by omega)
  have : issueW s now = issueIfNecessary s now := by
    unfold issueW issueIfNecessary
    simp only [hw, hd]
    rw [wrap_of (by omega) (by omega), wrap_of (by omega) (by omega)]
  unfold acquireW acquire
  rw [this]

theorem runW_eq (ts : List Int) : ∀ (s : State), WF s → 0 ≤ s.last → NonDecreasing (s.last :: ts) → ∀ T, T < 2 ^ 63 → (∀ t ∈ ts, t ≤ T) →
    s.capacity + s.rate * ((T - s.last) / second) < 2 ^ 63 → runW s ts = run s ts := by
  induction ts with
  | nil => intros; rfl
  | cons t ts ih =>
    intro s wf h0 hm T hT hts hfit
    have hm1 := List.pairwise_cons.1 hm
    have hm2 := List.pairwise_cons.1 hm1.2
    have hl : s.last ≤ t := hm1.1 t (by simp)
    have htT := hts t (by simp)
    have he := acquireW_eq s t T wf h0 hl htT hT hfit
    obtain ⟨a1, a2, a3, a4, a5, -⟩ := acquire_spec s t wf hl
    have hrec := ih (acquire s t).1 a1 (by omega) (List.pairwise_cons.2 ⟨fun x hx => Int.le_trans a5 (hm2.1 x hx), hm2.2⟩) T hT
      (fun x hx => hts x (by simp [hx])) (by
        rw [a2, a3]
        have := Int.mul_le_mul_of_nonneg_left (Int.ediv_le_ediv (c := second) (a := T - (acquire s t).1.last) (b := T - s.last) (by decide) (by omega)) wf.rate
        omega)
    simp only [runW, run, he, hrec]

/-- The full statement of C98 for the token bucket: in 64-bit arithmetic the bucket decides as without bounds. -/
def C98Claim : Prop := ∀ (c r t0 : Int) (ts : List Int), 0 ≤ c → c < 2 ^ 63 → 0 ≤ r → r < 2 ^ 63 → 0 ≤ t0 → (∀ t ∈ ts, t < 2 ^ 63) →
  NonDecreasing (t0 :: ts) → (runW (new c r t0) ts).2 = (run (new c r t0) ts).2

/-- **C98** (partial): as long as capacity + rate · seconds fits into 63 bits.  Missing: larger rates. -/
theorem C98_exact_partial (c r t0 : Int) (hc : 0 ≤ c) (hr : 0 ≤ r) (h0 : 0 ≤ t0) (ts : List Int) (hm : NonDecreasing (t0 :: ts)) (t : Int)
    (ht63 : t < 2 ^ 63) (ht : ∀ x ∈ ts, x ≤ t) (hfit : c + r * ((t - t0) / 1000000000) < 2 ^ 63) :
    runW (new c r t0) ts = run (new c r t0) ts :=
  runW_eq ts (new c r t0) (new_wf hc hr) h0 hm t ht63 ht hfit

/-- **C98** (violated): with a rate of 2^62 per second, a call is refused after two idle seconds and even though the second token has never
    been taken (against C03 and C04). -/
theorem C98_violated : ¬ C98Claim ∧ (runW (new 2 (2 ^ 62) 0) [0, 2000000000]).2 = [(0, true), (2000000000, false)] ∧
    (runW (new 1 (2 ^ 62) 0) [0, 0, 2000000000]).2 = [(0, true), (0, false), (2000000000, false)] := by
  refine ⟨fun h => ?_, by decide, by decide⟩
  have := h 2 (2 ^ 62) 0 [0, 2000000000] (by decide) (by decide) (by decide) (by decide) (by decide) (by decide) (by decide)
  revert this
  decide

/-- With the greatest rate, every even number of idle seconds takes all tokens away, and more. -/
theorem C98_max_rate_violated (c k : Int) (hc : 1 < c) (hc2 : c < 2 ^ 63) (h0 : 0 ≤ k) (hk : 2 * k * 1000000000 < 2 ^ 63) (hck : c ≤ 2 * k) :
    (runW (new c (2 ^ 63 - 1) 0) [0, 2 * k * 1000000000]).2 = [(0, true), (2 * k * 1000000000, false)] := by
  have e1 : acquireW (new c (2 ^ 63 - 1) 0) 0 = (⟨c, c - 1, 2 ^ 63 - 1, 0⟩, true) := by
    unfold acquireW issueW new
    simp; omega
  have e2 : (acquireW ⟨c, c - 1, 2 ^ 63 - 1, 0⟩ (2 * k * 1000000000)).2 = false := by
    have hw : wrap (2 * k * 1000000000) = 2 * k * 1000000000 := wrap_of (by omega) hk
    have hd : Int.tdiv (2 * k * 1000000000) second = 2 * k := by
      rw [Int.tdiv_eq_ediv_of_nonneg (by omega)]; unfold second; omega
    have hdelta : wrap (2 * k * (2 ^ 63 - 1)) = -(2 * k) := by
      have : 2 * k * ((2 : Int) ^ 63 - 1) = k * 2 ^ 64 - 2 * k := by ring
      rw [this]; unfold wrap; omega
    have ht : wrap (c - 1 + -(2 * k)) = c - 1 - 2 * k := by rw [wrap_of (by omega) (by omega)]; omega
    unfold acquireW issueW
    simp only [Int.sub_zero, hw, hd, hdelta, ht]
    rw [if_neg (show ¬ c - 1 ≥ c by omega), if_neg (show ¬ -(2 * k) = 0 by omega)]
    simp only
    rw [if_neg (show ¬ c - 1 - 2 * k > c by omega), if_neg (show ¬ c - 1 - 2 * k > 0 by omega)]
  simp only [runW, e1, e2]

example : C98Claim → False := C98_violated.1

end Gears.TokenBucket

/-! ## The sliding window -/

namespace Gears.SlidingWindow

open Gears.Procs (wrap wrap_of)

/-- `Acquire` (slidingwindow.go:62-87) in 64-bit arithmetic. -/
def acquireW (s : State) (now : Int) : Option (State × Bool) :=
  if s.capacity = 0 then some (s, true)
  else if (s.records.length : Int) < s.capacity then
    some ({ s with records := s.records ++ [now] }, true)
  else
    match s.records with
    | [] => none
    | oldest :: rest =>
      if wrap (now - oldest) > s.windowSize then some ({ s with records := rest ++ [now] }, true)
      else some (s, false)

def runW (s : State) : List Op → Option (State × History)
  | [] => some (s, [])
  | .acquire now :: ops =>
    match acquireW s now with
    | none => none
    | some (s1, b) =>
      match runW s1 ops with
      | none => none
      | some (s2, h) => some (s2, (now, b) :: h)
  | .updateConfig c w :: ops => runW (updateConfig s c w) ops

/-- The clock readings of the calls. -/
def readings : List Op → List Int
  | [] => []
  | .acquire now :: ops => now :: readings ops
  | .updateConfig _ _ :: ops => readings ops

theorem shrink_mem (c : Int) : ∀ (l : List Int) (x : Int), x ∈ shrink c l → x ∈ l
  | [], x, h => h
  | r :: rs, x, h => by
    unfold shrink at h
    split at h
    · exact List.mem_cons_of_mem _ (shrink_mem c rs x h)
    · exact h

theorem runW_eq (ops : List Op) : ∀ s : State, (∀ x ∈ s.records, 0 ≤ x ∧ x < 2 ^ 63) → (∀ x ∈ readings ops, 0 ≤ x ∧ x < 2 ^ 63) →
    runW s ops = run s ops := by
  induction ops with
  | nil => intros; rfl
  | cons op ops ih =>
    intro s hs hr
    cases op with
    | updateConfig c w =>
      exact ih _ (fun x hx => hs x (shrink_mem _ _ _ hx)) hr
    | acquire now =>
      have hnow := hr now (by simp [readings])
      have he : acquireW s now = acquire s now := by
        unfold acquireW acquire
        cases hrec : s.records with
        | nil => rfl
        | cons o rest =>
          have ho := hs o (by simp [hrec])
          simp only [wrap_of (x := now - o) (by omega) (by omega)]
      have hkeep : ∀ s1 b, acquire s now = some (s1, b) → ∀ x ∈ s1.records, 0 ≤ x ∧ x < 2 ^ 63 := by
        intro s1 b h x hx
        unfold acquire at h
        split at h
        · simp at h; obtain ⟨rfl, -⟩ := h; exact hs x hx
        · split at h
          · simp at h; obtain ⟨rfl, -⟩ := h
            simp at hx; rcases hx with hx | rfl
            · exact hs x hx
            · exact hnow
          · split at h
            · simp at h
            · rename_i o rest heq
              split at h
              · simp at h; obtain ⟨rfl, -⟩ := h
                simp at hx; rcases hx with hx | rfl
                · exact hs x (by simp [heq, hx])
                · exact hnow
              · simp at h; obtain ⟨rfl, -⟩ := h; exact hs x hx
      simp only [runW, run, he]
      cases ha : acquire s now with
      | none => rfl
      | some r =>
        obtain ⟨s1, b⟩ := r
        simp only
        rw [ih s1 (hkeep s1 b ha) (fun x hx => hr x (by simp [readings, hx]))]
        rfl

/-- **C98** (sliding window): 64-bit arithmetic changes nothing, for all capacities, window sizes and reconfigurations. -/
theorem C98_sliding (c w : Int) (ops : List Op) (hr : ∀ x ∈ readings ops, 0 ≤ x ∧ x < 2 ^ 63) : runW (new c w) ops = run (new c w) ops :=
  runW_eq ops _ (by simp [new]) hr

example : (runW (new 1 (2 ^ 63 - 1)) [.acquire 0, .acquire (2 ^ 63 - 1)]).map (·.2) = some [(0, true), (2 ^ 63 - 1, false)] := by decide

end Gears.SlidingWindow
