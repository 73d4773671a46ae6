import Verif.FixedWindow.Props
import Verif.Common.Calls

/-
SyncFixedWindow called by many goroutines (/repo/ratelimiter/fixedwindow.go:66-82): each call reads the clock (67), and
later gets the lock (69) and decides.  A call that read the clock in an interval may be decided when the limiter has moved
on to a later interval, and is then counted there: it is a late call.
-/

namespace Gears.FixedWindow

open Calls

/-- The critical section of `Acquire`; it does not panic. -/
def acq (s : State) (t : Int) : Option (State × Bool) := some (acquire s t)

/-- Readings, in lock order, for which the float64 expression of line 102 is exact (C14): positive, the first one
`FirstOk`, and each at most 52 days after some earlier one. -/
def Near (W : Int) (ts : List Int) : Prop :=
  ∀ pre t suf, ts = pre ++ t :: suf → 0 < t ∧ (pre = [] → FirstOk W t) ∧ (pre ≠ [] → ∃ p ∈ pre, t - p < 2 ^ 52)

theorem Near.of_snoc {W : Int} {ts : List Int} {t : Int} (h : Near W (ts ++ [t])) : Near W ts := by
  intro pre u suf he
  exact h pre u (suf ++ [t]) (by rw [he]; simp)

theorem Near.last {W : Int} {ts : List Int} {t : Int} (h : Near W (ts ++ [t])) :
    0 < t ∧ (ts = [] → FirstOk W t) ∧ (ts ≠ [] → ∃ p ∈ ts, t - p < 2 ^ 52) := h ts t [] rfl

/-- Number of admitted calls counted in interval `j` that satisfy `p`; `G` pairs each call with its interval. -/
def cnt (G : List (Entry × Int)) (j : Int) (p : Entry → Bool) : Nat :=
  G.countP (fun x => x.1.result && decide (x.2 = j) && p x.1)

theorem cnt_snoc (G : List (Entry × Int)) (e : Entry) (i j : Int) (p : Entry → Bool) :
    cnt (G ++ [(e, i)]) j p = cnt G j p + (if e.result ∧ i = j ∧ p e then 1 else 0) := by
  unfold cnt
  rw [List.countP_append, List.countP_cons, List.countP_nil]
  cases e.result <;> cases p e <;> by_cases h : i = j <;> simp [h]

theorem cnt_mono (G : List (Entry × Int)) (j : Int) {p q : Entry → Bool} (h : ∀ x ∈ G, x.2 = j → p x.1 → q x.1) :
    cnt G j p ≤ cnt G j q := by
  unfold cnt
  refine List.countP_mono_left fun x hx hp => ?_
  simp only [Bool.and_eq_true, decide_eq_true_eq] at hp ⊢
  exact ⟨hp.1, h x hx hp.1.2 hp.2⟩

/-- Calls whose reading lies before the interval in which they are counted. -/
def lateFor (W j : Int) (e : Entry) : Bool := decide (e.reading ≤ (j - 1) * W)

/-- The bookkeeping: `J` is the current interval. -/
structure LInv (c W : Int) (G : List (Entry × Int)) (J : Int) (s : State) : Prop where
  hcap   : s.capacity = c
  hwin   : s.windowSize = W
  htill  : s.till = J * W
  hcount : s.count = cnt G J (fun _ => true)
  hnone  : ∀ j, J < j → cnt G j (fun _ => true) = 0
  hle    : ∀ j, (cnt G j (fun _ => true) : Int) ≤ max c 0
  hlate  : ∀ j, (cnt G j (lateFor W j) : Int) ≤ max (c - 1) 0
  hin    : ∀ x ∈ G, x.2 ≤ J ∧ x.1.reading ≤ x.2 * W ∧ (x.2 - 1) * W < x.1.decided
  hfirst : G ≠ [] → (∃ x ∈ G, x.2 = J) ∧ (0 < c → 0 < cnt G J (fun e => !lateFor W J e))
  hzero  : G = [] → J = 0

theorem cnt_split (G : List (Entry × Int)) (j : Int) (p : Entry → Bool) :
    cnt G j (fun _ => true) = cnt G j p + cnt G j (fun e => !p e) := by
  unfold cnt
  induction G with
  | nil => rfl
  | cons x G ih =>
    simp only [List.countP_cons, ih]
    cases x.1.result <;> cases p x.1 <;> by_cases h : x.2 = j <;> simp [h] <;> omega

theorem linv_new (c W : Int) : LInv c W [] 0 (new c W) := by
  refine ⟨rfl, rfl, by simp [new], by simp [new, cnt], by simp [cnt], ?_, ?_, by simp, by simp, by simp⟩
  · intro j; simp [cnt]
  · intro j; simp [cnt]

/-- The decision about a call, and what it leaves. -/
theorem linv_acquire {c W : Int} (hW : 0 < W) (hW2 : W < 2 ^ 53) {G : List (Entry × Int)} {J : Int} {s : State}
    (inv : LInv c W G J s) (t d : Int) (htd : t ≤ d) (hd : ∀ x ∈ G, x.1.decided ≤ d)
    (hnear : Near W (G.map (fun x => x.1.reading) ++ [t])) :
    ∃ J', J ≤ J' ∧ LInv c W (G ++ [(⟨t, d, (acquire s t).2⟩, J')]) J' (acquire s t).1 ∧
      ((acquire s t).2 = false → (cnt G J' (fun _ => true) : Int) = max c 0) := by
  obtain ⟨hcap, hwin, htill, hcount, hnone, hle, hlate, hin, hfirst, hzero⟩ := inv
  obtain ⟨h0, hn1, hn2⟩ := hnear.last
  by_cases hc : t ≤ s.till
  · -- counted in the current interval
    have hne : G ≠ [] := by
      intro h
      have := hzero h
      rw [htill, this] at hc; omega
    obtain ⟨⟨x, hx, hxj⟩, hf⟩ := hfirst hne
    have hdJ : (J - 1) * W < d := by
      have h1 := (hin x hx).2.2
      have h2 := hd x hx
      rw [hxj] at h1; omega
    refine ⟨J, Int.le_refl _, ?_⟩
    have hcont : contains s t := hc
    unfold acquire
    simp only [hcont, not_true_eq_false, if_false]
    by_cases hlt : s.count < s.capacity
    · rw [if_pos hlt]
      refine ⟨⟨hcap, hwin, htill, ?_, ?_, ?_, ?_, ?_, ?_, by simp⟩, by simp⟩
      · rw [cnt_snoc]; simp [hcount]
      · intro j hj; rw [cnt_snoc, hnone j hj]
        have : ¬ J = j := by omega
        simp [this]
      · intro j; rw [cnt_snoc]
        by_cases h : J = j
        · subst h; simp only [and_self, if_true]; push_cast; omega
        · simp only [h, false_and, and_false, if_false]; exact hle j
      · intro j; rw [cnt_snoc]
        by_cases h : J = j
        · subst h
          have h1 := cnt_split G J (lateFor W J)
          have h2 := hf (by omega)
          split <;> push_cast <;> omega
        · simp only [h, false_and, and_false, if_false]; exact hlate j
      · intro y hy
        rw [List.mem_append, List.mem_singleton] at hy
        rcases hy with hy | rfl
        · exact hin y hy
        · exact ⟨Int.le_refl _, by rw [← htill]; exact hc, hdJ⟩
      · intro _
        refine ⟨⟨_, List.mem_append_right _ (List.mem_singleton_self _), rfl⟩, fun hc0 => ?_⟩
        rw [cnt_snoc]; have := hf hc0; omega
    · rw [if_neg hlt]
      refine ⟨⟨hcap, hwin, htill, ?_, ?_, ?_, ?_, ?_, ?_, by simp⟩, ?_⟩
      · rw [cnt_snoc]; simp [hcount]
      · intro j hj; rw [cnt_snoc, hnone j hj]; simp
      · intro j; rw [cnt_snoc]; simpa using hle j
      · intro j; rw [cnt_snoc]; simpa using hlate j
      · intro y hy
        rw [List.mem_append, List.mem_singleton] at hy
        rcases hy with hy | rfl
        · exact hin y hy
        · exact ⟨Int.le_refl _, by rw [← htill]; exact hc, hdJ⟩
      · intro _
        refine ⟨⟨_, List.mem_append_right _ (List.mem_singleton_self _), rfl⟩, fun hc0 => ?_⟩
        rw [cnt_snoc]; have := hf hc0; omega
      · intro _
        have := hle J; omega
  · -- a new interval
    have hcont : ¬ contains s t := hc
    have hex : ∃ k, s.till + goCeilDiv (t - s.till) s.windowSize * s.windowSize = k * W ∧ (k - 1) * W < t ∧ t ≤ k * W := by
      by_cases hG : G = []
      · have hJ := hzero hG
        obtain ⟨k, h1, h2⟩ := exists_ceil t W hW
        refine ⟨k, ?_, h1, h2⟩
        rw [htill, hJ, hwin, first_exact W (t - 0 * W) k hW hW2 (by omega) (by simpa using hn1 (by simp [hG])) (by omega) (by omega)]
        omega
      · obtain ⟨p, hp, hpt⟩ := hn2 (by simpa using hG)
        obtain ⟨x, hx, rfl⟩ := List.mem_map.1 hp
        have hx1 := hin x hx
        have hmul : x.2 * W ≤ J * W := Int.mul_le_mul_of_nonneg_right hx1.1 (Int.le_of_lt hW)
        have hr := reset_small s W t hW hW2 (by omega) (by rw [htill]; omega)
        refine ⟨J + goCeilDiv (t - s.till) W, ?_, ?_, ?_⟩
        · rw [hwin, htill]; ring
        · have := hr.2; rw [htill] at this ⊢; nlinarith
        · have := hr.1; rw [htill] at this ⊢; nlinarith
    obtain ⟨k, hk, hk1, hk2⟩ := hex
    have hJk : J < k := by
      by_contra hcon
      have : k * W ≤ J * W := Int.mul_le_mul_of_nonneg_right (by omega) (Int.le_of_lt hW)
      rw [htill] at hc; omega
    refine ⟨k, Int.le_of_lt hJk, ?_⟩
    have hreset : reset s t = ⟨c, W, k * W, 0⟩ := by
      unfold reset
      rw [if_neg hcont, hk, hcap, hwin]
    have hacq : acquire s t = if (0 : Int) < c then (⟨c, W, k * W, 0 + 1⟩, true) else (⟨c, W, k * W, 0⟩, false) := by
      unfold acquire
      simp only [hcont, not_false_eq_true, if_true, hreset]
    have hz := hnone k hJk
    have hzl : ∀ p, cnt G k p = 0 := by
      intro p
      have := cnt_mono G k (p := p) (q := fun _ => true) (by simp)
      omega
    have hnl : lateFor W k ⟨t, d, (acquire s t).2⟩ = false := by
      simp only [lateFor, decide_eq_false_iff_not]; omega
    have hinx : ∀ y ∈ G ++ [((⟨t, d, (acquire s t).2⟩ : Entry), k)],
        y.2 ≤ k ∧ y.1.reading ≤ y.2 * W ∧ (y.2 - 1) * W < y.1.decided := by
      intro y hy
      rw [List.mem_append, List.mem_singleton] at hy
      rcases hy with hy | rfl
      · have := hin y hy; exact ⟨by omega, this.2⟩
      · exact ⟨Int.le_refl _, hk2, by simp only; omega⟩
    by_cases hc0 : 0 < c
    · rw [hacq, if_pos hc0] at hinx hnl ⊢
      refine ⟨⟨rfl, rfl, rfl, ?_, ?_, ?_, ?_, hinx, ?_, by simp⟩, by simp⟩
      · rw [cnt_snoc, hz]; simp
      · intro j hj; rw [cnt_snoc, hnone j (by omega)]
        have : ¬ k = j := by omega
        simp [this]
      · intro j; rw [cnt_snoc]
        by_cases h : k = j
        · subst h; rw [hz]; simp; omega
        · simp only [h, false_and, and_false, if_false]; exact hle j
      · intro j; rw [cnt_snoc]
        by_cases h : k = j
        · subst h; rw [hzl, hnl]; simp
        · simp only [h, false_and, and_false, if_false]; exact hlate j
      · intro _
        refine ⟨⟨_, List.mem_append_right _ (List.mem_singleton_self _), rfl⟩, fun _ => ?_⟩
        rw [cnt_snoc, hnl]; simp
    · rw [hacq, if_neg hc0] at hinx hnl ⊢
      refine ⟨⟨rfl, rfl, rfl, ?_, ?_, ?_, ?_, hinx, ?_, by simp⟩, ?_⟩
      · rw [cnt_snoc, hz]; simp
      · intro j hj; rw [cnt_snoc, hnone j (by omega)]; simp
      · intro j; rw [cnt_snoc]; simpa using hle j
      · intro j; rw [cnt_snoc]; simpa using hlate j
      · intro _
        exact ⟨⟨_, List.mem_append_right _ (List.mem_singleton_self _), rfl⟩, fun h => absurd h hc0⟩
      · intro _; rw [hz]; simp; omega

/-- The readings of a log. -/
def readings (log : List Entry) : List Int := log.map (·.reading)

theorem late_exec {c W c0 : Int} (hW : 0 < W) (hW2 : W < 2 ^ 53) {as : List Action} {s : Sys State}
    (h : exec (step acq) (start (new c W) c0) as = some s) (hnear : Near W (readings s.log)) :
    ∃ G J, G.map (·.1) = s.log ∧ LInv c W G J s.lim := by
  have key := exec_inv (step := step acq)
    (I := fun s : Sys State => Timely c0 s ∧ (Near W (readings s.log) → ∃ G J, G.map (·.1) = s.log ∧ LInv c W G J s.lim))
    (fun s a s' hi hs => ?_) as _ _ ⟨timely_start _ _, fun _ => ⟨[], 0, rfl, linv_new c W⟩⟩ h
  · exact key.2 hnear
  · obtain ⟨ht, hi⟩ := hi
    refine ⟨timely_step ht hs, ?_⟩
    cases a with
    | tick d => simp only [step, Option.some.injEq] at hs; subst hs; exact hi
    | read => simp only [step, Option.some.injEq] at hs; subst hs; exact hi
    | enter i =>
      simp only [step, acq] at hs
      split at hs
      · simp at hs
      · rename_i t hw
        simp only [Option.some.injEq] at hs
        subst hs
        intro hn
        simp only [readings, List.map_append, List.map_cons, List.map_nil] at hn
        obtain ⟨G, J, hG, inv⟩ := hi hn.of_snoc
        have hmap : G.map (fun x => x.1.reading) = s.log.map (·.reading) := by rw [← hG, List.map_map]; rfl
        obtain ⟨J', -, inv', -⟩ := linv_acquire hW hW2 inv t s.clock (ht.hwait t (List.mem_of_getElem? hw)).2
          (fun x hx => (ht.hlog x.1 (by rw [← hG]; exact List.mem_map_of_mem hx)).2.2) (by rw [hmap]; exact hn)
        exact ⟨_, J', by simp [hG], inv'⟩

theorem passed_ghost (G : List (Entry × Int)) (p : Entry → Bool) :
    passed (G.map (·.1)) p = G.countP (fun x => x.1.result && p x.1) := by
  unfold passed
  rw [List.countP_map]; rfl

/-- A count over a range of intervals. -/
theorem passed_range {c W : Int} {G : List (Entry × Int)} {J : Int} {s : State} (inv : LInv c W G J s) (p : Entry → Bool)
    (k : Int) (n : Nat) (hk : ∀ x ∈ G, p x.1 → k ≤ x.2 ∧ x.2 ≤ k + n) :
    (passed (G.map (·.1)) p : Int) ≤ (n + 1) * max c 0 := by
  have gen : ∀ m : Nat, (G.countP (fun x => x.1.result && decide (k ≤ x.2) && decide (x.2 ≤ k + m)) : Int) ≤ (m + 1) * max c 0 := by
    intro m
    induction m with
    | zero =>
      have h1 := inv.hle k
      have h2 : G.countP (fun x => x.1.result && decide (k ≤ x.2) && decide (x.2 ≤ k + (0 : Nat))) ≤ cnt G k (fun _ => true) := by
        refine List.countP_mono_left fun x hx hp => ?_
        simp only [Bool.and_eq_true, decide_eq_true_eq] at hp ⊢
        exact ⟨⟨hp.1.1, by have := hp.1.2; have := hp.2; push_cast at *; omega⟩, trivial⟩
      simp only [Nat.cast_zero, zero_add, one_mul]
      simp only [Nat.cast_zero] at h2
      omega
    | succ m ih =>
      have h1 := inv.hle (k + (m + 1))
      have h2 : G.countP (fun x => x.1.result && decide (k ≤ x.2) && decide (x.2 ≤ k + ((m + 1 : Nat) : Int))) ≤
          G.countP (fun x => x.1.result && decide (k ≤ x.2) && decide (x.2 ≤ k + m)) + cnt G (k + (m + 1)) (fun _ => true) := by
        unfold cnt
        generalize G = G
        induction G with
        | nil => simp
        | cons x G ih2 =>
          simp only [List.countP_cons]
          have : (if (x.1.result && decide (k ≤ x.2) && decide (x.2 ≤ k + ((m + 1 : Nat) : Int))) = true then 1 else 0) ≤
              (if (x.1.result && decide (k ≤ x.2) && decide (x.2 ≤ k + (m : Int))) = true then 1 else 0) +
              (if (x.1.result && decide (x.2 = k + ((m : Int) + 1)) && true) = true then 1 else 0) := by
            simp only [Bool.and_eq_true, decide_eq_true_eq, Bool.and_true]
            cases x.1.result
            · simp
            · push_cast
              split <;> split <;> split <;> (simp_all; try omega)
          beta_reduce at ih2
          omega
      push_cast at h2 ⊢
      linarith
  have hm : passed (G.map (·.1)) p ≤ G.countP (fun x => x.1.result && decide (k ≤ x.2) && decide (x.2 ≤ k + n)) := by
    rw [passed_ghost]
    refine List.countP_mono_left fun x hx hp => ?_
    simp only [Bool.and_eq_true, decide_eq_true_eq] at hp ⊢
    have := hk x hx hp.2
    exact ⟨⟨hp.1, this.1⟩, this.2⟩
  have := gen n
  omega

/-- **C137.**  Fixed window: with calls that take at most `δ` from the clock to the decision, at most `(n + 1) * c` are
admitted within any time shorter than `n * W - δ`, by the times of their decisions.  (For `δ = 0`, `n = 1` this is C12.) -/
theorem C137_fixed_decided (c W c0 δ : Int) (hW : 0 < W) (hW2 : W < 2 ^ 53) (as : List Action) (s : Sys State)
    (h : exec (step acq) (start (new c W) c0) as = some s) (hnear : Near W (readings s.log)) (hδ : Within δ s.log)
    (lo hi : Int) (n : Nat) (hlen : hi - lo < n * W - δ) :
    (passed s.log (fun e => decide (lo ≤ e.decided) && decide (e.decided ≤ hi)) : Int) ≤ (n + 1) * max c 0 := by
  obtain ⟨G, J, hG, inv⟩ := late_exec hW hW2 h hnear
  obtain ⟨k, hk1, hk2⟩ := exists_ceil (lo - δ) W hW
  rw [← hG]
  refine passed_range inv _ k n fun x hx hp => ?_
  simp only [Bool.and_eq_true, decide_eq_true_eq] at hp
  have h1 := inv.hin x hx
  have h2 := hδ x.1 (by rw [← hG]; exact List.mem_map_of_mem hx)
  constructor
  · by_contra hcon
    have : x.2 * W ≤ (k - 1) * W := Int.mul_le_mul_of_nonneg_right (by omega) (Int.le_of_lt hW)
    omega
  · by_contra hcon
    have : (k + n) * W ≤ (x.2 - 1) * W := Int.mul_le_mul_of_nonneg_right (by omega) (Int.le_of_lt hW)
    have e : (k + n) * W = k * W + n * W := by ring
    omega

/-- **C137.**  The same by the clock readings. -/
theorem C137_fixed_readings (c W c0 δ : Int) (hW : 0 < W) (hW2 : W < 2 ^ 53) (as : List Action) (s : Sys State)
    (h : exec (step acq) (start (new c W) c0) as = some s) (hnear : Near W (readings s.log)) (hδ : Within δ s.log)
    (lo hi : Int) (n : Nat) (hlen : hi - lo < n * W - δ) :
    (passed s.log (fun e => decide (lo ≤ e.reading) && decide (e.reading ≤ hi)) : Int) ≤ (n + 1) * max c 0 := by
  obtain ⟨G, J, hG, inv⟩ := late_exec hW hW2 h hnear
  obtain ⟨k, hk1, hk2⟩ := exists_ceil lo W hW
  rw [← hG]
  refine passed_range inv _ k n fun x hx hp => ?_
  simp only [Bool.and_eq_true, decide_eq_true_eq] at hp
  have h1 := inv.hin x hx
  have h2 := hδ x.1 (by rw [← hG]; exact List.mem_map_of_mem hx)
  constructor
  · by_contra hcon
    have : x.2 * W ≤ (k - 1) * W := Int.mul_le_mul_of_nonneg_right (by omega) (Int.le_of_lt hW)
    omega
  · by_contra hcon
    have : (k + n) * W ≤ (x.2 - 1) * W := Int.mul_le_mul_of_nonneg_right (by omega) (Int.le_of_lt hW)
    have e : (k + n) * W = k * W + n * W := by ring
    omega

/-- C137 for the fixed window, as documented (fixedwindow.go:27-29): each interval `((k-1)W, kW]` contains at most `c`
readings of admitted calls. -/
def C137FixedClaim : Prop :=
  ∀ (c W c0 : Int) (as : List Action) (s : Sys State) (k : Int), 0 < W → W < 2 ^ 53 →
    exec (step acq) (start (new c W) c0) as = some s → Near W (readings s.log) →
    (passed s.log (fun e => decide ((k - 1) * W < e.reading) && decide (e.reading ≤ k * W)) : Int) ≤ max c 0

/-- **C137, partial.**  With calls that take at most `δ ≤ m * W`, each interval contains at most `c` readings of admitted
calls and `c - 1` late ones for each of the next `m` intervals.  For calls that are decided at once, and for a capacity
of 1, this is `C137FixedClaim`.  Missing: late calls. -/
theorem C137_fixed_partial (c W c0 δ : Int) (m : Nat) (hW : 0 < W) (hW2 : W < 2 ^ 53) (as : List Action) (s : Sys State)
    (h : exec (step acq) (start (new c W) c0) as = some s) (hnear : Near W (readings s.log)) (hδ : Within δ s.log)
    (hm : δ ≤ m * W) (k : Int) :
    (passed s.log (fun e => decide ((k - 1) * W < e.reading) && decide (e.reading ≤ k * W)) : Int) ≤
      max c 0 + m * max (c - 1) 0 := by
  obtain ⟨G, J, hG, inv⟩ := late_exec hW hW2 h hnear
  have gen : ∀ n : Nat, (G.countP (fun x => x.1.result && decide ((k - 1) * W < x.1.reading) && decide (x.1.reading ≤ k * W) &&
      decide (x.2 ≤ k + n)) : Int) ≤ max c 0 + n * max (c - 1) 0 := by
    intro n
    induction n with
    | zero =>
      have h1 := inv.hle k
      have h2 : G.countP (fun x => x.1.result && decide ((k - 1) * W < x.1.reading) && decide (x.1.reading ≤ k * W) &&
          decide (x.2 ≤ k + (0 : Nat))) ≤ cnt G k (fun _ => true) := by
        refine List.countP_mono_left fun x hx hp => ?_
        simp only [Bool.and_eq_true, decide_eq_true_eq] at hp ⊢
        obtain ⟨⟨⟨hp1, hp2⟩, -⟩, hp4⟩ := hp
        have h3 := (inv.hin x hx).2.1
        refine ⟨⟨hp1, ?_⟩, trivial⟩
        by_contra hcon
        have : x.2 * W ≤ (k - 1) * W := Int.mul_le_mul_of_nonneg_right (by push_cast at hp4; omega) (Int.le_of_lt hW)
        omega
      simp only [Nat.cast_zero, zero_mul, add_zero] at h2 ⊢
      omega
    | succ n ih =>
      have h1 := inv.hlate (k + (n + 1))
      have h2 : G.countP (fun x => x.1.result && decide ((k - 1) * W < x.1.reading) && decide (x.1.reading ≤ k * W) &&
          decide (x.2 ≤ k + ((n + 1 : Nat) : Int))) ≤
          G.countP (fun x => x.1.result && decide ((k - 1) * W < x.1.reading) && decide (x.1.reading ≤ k * W) &&
            decide (x.2 ≤ k + n)) + cnt G (k + (n + 1)) (lateFor W (k + (n + 1))) := by
        have hmul : k * W ≤ (k + ((n : Int) + 1) - 1) * W := Int.mul_le_mul_of_nonneg_right (by omega) (Int.le_of_lt hW)
        unfold cnt lateFor
        generalize G = G
        induction G with
        | nil => simp
        | cons x G ih2 =>
          simp only [List.countP_cons]
          have : (if (x.1.result && decide ((k - 1) * W < x.1.reading) && decide (x.1.reading ≤ k * W) &&
                decide (x.2 ≤ k + ((n + 1 : Nat) : Int))) = true then 1 else 0) ≤
              (if (x.1.result && decide ((k - 1) * W < x.1.reading) && decide (x.1.reading ≤ k * W) && decide (x.2 ≤ k + (n : Int))) = true then 1 else 0) +
              (if (x.1.result && decide (x.2 = k + ((n : Int) + 1)) && decide (x.1.reading ≤ (k + ((n : Int) + 1) - 1) * W)) = true then 1 else 0) := by
            simp only [Bool.and_eq_true, decide_eq_true_eq]
            by_cases hall : ((x.1.result = true ∧ (k - 1) * W < x.1.reading) ∧ x.1.reading ≤ k * W) ∧ x.2 ≤ k + ((n + 1 : Nat) : Int)
            · rw [if_pos hall]
              by_cases hx : x.2 ≤ k + (n : Int)
              · rw [if_pos ⟨hall.1, hx⟩]; omega
              · rw [if_neg (by intro h; exact hx h.2), if_pos ⟨⟨hall.1.1.1, by have := hall.2; push_cast at this; omega⟩, by have := hall.1.2; omega⟩]
            · rw [if_neg hall]; omega
          omega
      push_cast at h2 ⊢
      linarith
  have hle : passed s.log (fun e => decide ((k - 1) * W < e.reading) && decide (e.reading ≤ k * W)) ≤
      G.countP (fun x => x.1.result && decide ((k - 1) * W < x.1.reading) && decide (x.1.reading ≤ k * W) && decide (x.2 ≤ k + m)) := by
    rw [← hG, passed_ghost]
    refine List.countP_mono_left fun x hx hp => ?_
    simp only [Bool.and_eq_true, decide_eq_true_eq] at hp ⊢
    refine ⟨⟨⟨hp.1, hp.2.1⟩, hp.2.2⟩, ?_⟩
    have h1 := (inv.hin x hx).2.2
    have h2 := hδ x.1 (by rw [← hG]; exact List.mem_map_of_mem hx)
    by_contra hcon
    have : (k + m) * W ≤ (x.2 - 1) * W := Int.mul_le_mul_of_nonneg_right (by omega) (Int.le_of_lt hW)
    have e : (k + m) * W = k * W + m * W := by ring
    omega
  have := gen m
  omega

/-- **C137.**  A call is refused only if `c` calls were admitted before whose readings are less than `W + δ` before its own
and at most `δ` after it. -/
theorem C137_fixed_refused (c W c0 δ : Int) (hW : 0 < W) (hW2 : W < 2 ^ 53) (as : List Action) (s s' : Sys State) (i : Nat) (t d : Int)
    (h : exec (step acq) (start (new c W) c0) as = some s) (hs : step acq s (.enter i) = some s')
    (he : s'.log = s.log ++ [⟨t, d, false⟩]) (hnear : Near W (readings s'.log)) (hδ : Within δ s'.log) :
    max c 0 ≤ (passed s.log (fun e => decide (t - W - δ < e.reading) && decide (e.reading ≤ t + δ)) : Int) := by
  have hnear' := hnear
  rw [he] at hnear'
  simp only [readings, List.map_append, List.map_cons, List.map_nil] at hnear'
  obtain ⟨G, J, hG, inv⟩ := late_exec hW hW2 h hnear'.of_snoc
  have ht := timely_exec h
  simp only [step, acq] at hs
  split at hs
  · simp at hs
  rename_i t' hw
  simp only [Option.some.injEq] at hs
  subst hs
  simp only [List.append_cancel_left_eq, List.cons.injEq, Entry.mk.injEq, and_true] at he
  obtain ⟨rfl, rfl, hr⟩ := he
  have hmap : G.map (fun x => x.1.reading) = s.log.map (·.reading) := by rw [← hG, List.map_map]; rfl
  obtain ⟨J', hJ, inv', hcnt⟩ := linv_acquire hW hW2 inv t' s.clock (ht.hwait t' (List.mem_of_getElem? hw)).2
    (fun x hx => (ht.hlog x.1 (by rw [← hG]; exact List.mem_map_of_mem hx)).2.2) (by rw [hmap]; exact hnear')
  rw [← hcnt hr, ← hG, passed_ghost]
  have hnew := inv'.hin (⟨t', s.clock, (acquire s.lim t').2⟩, J') (by simp)
  have hlast := hδ ⟨t', s.clock, (acquire s.lim t').2⟩ (by simp)
  simp only at hnew hlast
  refine Int.ofNat_le.2 (List.countP_mono_left fun x hx hp => ?_)
  simp only [Bool.and_eq_true, decide_eq_true_eq] at hp ⊢
  have h1 := inv.hin x hx
  rw [hp.1.2] at h1
  have hxl : x.1 ∈ s.log := by rw [← hG]; exact List.mem_map_of_mem hx
  have h2 := hδ x.1 (by simp [hxl])
  have h3 := ht.hlog x.1 hxl
  have e : (J' - 1) * W = J' * W - W := by ring
  exact ⟨hp.1.1, by omega, by omega⟩

/-! ### The bound is attained -/

theorem near_snoc {W : Int} {ts : List Int} {t p : Int} (h : Near W ts) (h0 : 0 < t) (hp : p ∈ ts) (hd : t - p < 2 ^ 52) : Near W (ts ++ [t]) := by
  intro pre u suf he
  rcases List.eq_nil_or_concat suf with rfl | ⟨suf', v, rfl⟩
  · obtain ⟨rfl, he2⟩ := List.append_inj' he rfl
    simp only [List.cons.injEq, and_true] at he2
    subst he2
    exact ⟨h0, fun hn => by simp [hn] at hp, fun _ => ⟨p, hp, hd⟩⟩
  · have : pre ++ u :: (suf'.concat v) = (pre ++ u :: suf') ++ [v] := by simp
    rw [this] at he
    obtain ⟨rfl, -⟩ := List.append_inj' he rfl
    exact h pre u suf' rfl

theorem near_ones {W : Int} {ts : List Int} (h : Near W ts) (h1 : (1 : Int) ∈ ts) (n : Nat) : Near W (ts ++ List.replicate n 1) := by
  induction n with
  | zero => simpa using h
  | succ n ih =>
    rw [List.replicate_succ', ← List.append_assoc]
    exact near_snoc ih (by decide) (List.mem_append_left _ h1) (by decide)

/-- Waiting calls with the reading 1 are admitted one after another while there is room. -/
theorem fill (n : Nat) (C W T clk : Int) (hT : 1 ≤ T) : ∀ (k : Int) (log : List Entry) (r : Nat), k + n ≤ C →
    exec (step acq) ⟨⟨C, W, T, k⟩, clk, List.replicate (n + r) 1, log⟩ (List.replicate n (.enter 0)) =
      some ⟨⟨C, W, T, k + n⟩, clk, List.replicate r 1, log ++ List.replicate n ⟨1, clk, true⟩⟩ := by
  induction n with
  | zero => intro k log r _; simp [exec]
  | succ n ih =>
    intro k log r hc
    push_cast at hc
    have ha : acquire ⟨C, W, T, k⟩ 1 = (⟨C, W, T, k + 1⟩, true) := by
      unfold acquire
      have hcont : contains ⟨C, W, T, k⟩ 1 := hT
      simp only [hcont, not_true_eq_false, if_false]
      rw [if_pos (by omega)]
    simp only [Nat.add_right_comm n 1 r, List.replicate_succ, exec, step, List.getElem?_cons_zero, acq, ha, List.eraseIdx_cons_zero]
    have := ih (k + 1) (log ++ [⟨1, clk, true⟩]) r (by omega)
    rw [this]
    simp only [List.append_assoc, List.singleton_append]
    have e : k + 1 + (n : Int) = k + ((n + 1 : Nat) : Int) := by push_cast; omega
    rw [e]

/-- Calls reading the clock at the same time. -/
theorem reads (n : Nat) : ∀ s : Sys State, exec (step acq) s (List.replicate n .read) =
    some { s with waiting := s.waiting ++ List.replicate n s.clock } := by
  induction n with
  | zero => intro s; simp [exec]
  | succ n ih =>
    intro s
    simp only [List.replicate_succ, exec, step]
    rw [ih]
    simp

/-- The log of the witness after `j` further intervals: `n + 1` calls in the first interval, and in each further interval one
call of its own and `n` late ones. -/
def logAt (n : Nat) (W : Int) : Nat → List Entry
  | 0 => List.replicate (n + 1) ⟨1, 1, true⟩
  | j + 1 => logAt n W j ++ ⟨1 + (j + 1) * W, 1 + (j + 1) * W, true⟩ :: List.replicate n ⟨1, 1 + (j + 1) * W, true⟩

theorem logAt_ok (n : Nat) {W : Int} (hW : 0 < W) (hW2 : W < 2 ^ 52) (j : Nat) :
    Near W (readings (logAt n W j)) ∧ 1 ∈ readings (logAt n W j) ∧ (1 + j * W) ∈ readings (logAt n W j) ∧ Within (j * W) (logAt n W j) ∧
      passed (logAt n W j) (fun e => decide ((1 - 1) * W < e.reading) && decide (e.reading ≤ 1 * W)) = n + 1 + j * n := by
  induction j with
  | zero =>
    refine ⟨?_, by simp [readings, logAt], by simp [readings, logAt], by simp [Within, logAt, List.mem_replicate], ?_⟩
    · have h1 : Near W [1] := by
        intro pre t suf he
        cases pre with
        | nil => simp only [List.nil_append, List.cons.injEq] at he; exact ⟨by omega, fun _ => .inl (by omega), by simp⟩
        | cons a b => simp at he
      have := near_ones h1 (by simp) n
      simpa [readings, logAt, List.replicate_succ] using this
    · have : (1 - 1) * W < 1 := by omega
      have h2 : (1 : Int) ≤ 1 * W := by omega
      simp only [passed, logAt, List.countP_replicate]
      simp; omega
  | succ j ih =>
    obtain ⟨h1, h2, h3, h4, h5⟩ := ih
    have hjW : 0 ≤ (j : Int) * W := Int.mul_nonneg (by omega) (Int.le_of_lt hW)
    have ej : ((j : Int) + 1) * W = j * W + W := by ring
    have hrd : readings (logAt n W (j + 1)) = (readings (logAt n W j) ++ [1 + ((j : Int) + 1) * W]) ++ List.replicate n 1 := by
      simp [readings, logAt]
    have hn := near_snoc (t := 1 + ((j : Int) + 1) * W) h1 (by omega) h3 (by omega)
    refine ⟨?_, ?_, ?_, ?_, ?_⟩
    · rw [hrd]; exact near_ones hn (List.mem_append_left _ h2) n
    · rw [hrd]; simp [h2]
    · rw [hrd]; push_cast; simp
    · intro e he
      rw [logAt, List.mem_append, List.mem_cons, List.mem_replicate] at he
      push_cast
      rcases he with he | rfl | ⟨-, rfl⟩
      · have := h4 e he; omega
      · simp only; omega
      · simp only; omega
    · have e1 : ¬ (1 + ((j : Int) + 1) * W ≤ 1 * W) := by omega
      have e2 : (1 - 1) * W < 1 := by omega
      have e3 : (1 : Int) ≤ 1 * W := by omega
      unfold passed at h5 ⊢
      rw [logAt, List.countP_append, h5, List.countP_cons, List.countP_replicate]
      simp only [e1, e2, e3, decide_true, decide_false, Bool.and_true, Bool.and_false, if_true]
      simp only [Bool.false_eq_true, if_false, Nat.add_zero]
      ring

/-- The schedule of the witness: rounds. -/
def rounds (n m : Nat) (W : Nat) : Nat → List Action
  | 0 => []
  | j + 1 => rounds n m W j ++ (.tick W :: .read :: .enter ((m - j) * n) :: List.replicate n (.enter 0))

theorem rounds_exec (n m W : Nat) (hW : 0 < W) (hW2 : W < 2 ^ 52) (j : Nat) (hj : j ≤ m) :
    exec (step acq) ⟨⟨n + 1, W, W, n + 1⟩, 1, List.replicate (m * n) 1, logAt n W 0⟩ (rounds n m W j) =
      some ⟨⟨n + 1, W, (j + 1) * W, n + 1⟩, 1 + j * W, List.replicate ((m - j) * n) 1, logAt n W j⟩ := by
  induction j with
  | zero => simp [rounds, exec]
  | succ j ih =>
    rw [rounds, exec_append, ih (by omega)]
    have hsplit : (m - j) * n = n + (m - (j + 1)) * n := by
      have : m - j = (m - (j + 1)) + 1 := by omega
      rw [this]; ring_nf
    have hWi : (0 : Int) < W := by omega
    have hacq : acquire ⟨(n : Int) + 1, W, ((j : Int) + 1) * W, (n : Int) + 1⟩ (1 + (j : Int) * W + W) =
        (⟨(n : Int) + 1, W, ((j : Int) + 1 + 1) * W, 1⟩, true) := by
      have hg : goCeilDiv (1 + (j : Int) * W + W - ((j : Int) + 1) * W) W = 1 := by
        have : 1 + (j : Int) * W + W - ((j : Int) + 1) * W = 1 := by ring
        rw [this]
        exact goCeilDiv_small 1 W 1 (by decide) (by decide) hWi (by omega) (by omega) (by omega)
      have hcont : ¬ contains ⟨(n : Int) + 1, W, ((j : Int) + 1) * W, (n : Int) + 1⟩ (1 + (j : Int) * W + W) := by
        unfold contains
        have : ((j : Int) + 1) * W = j * W + W := by ring
        simp only; omega
      unfold acquire reset
      simp only [hcont, not_false_eq_true, if_true, if_false, hg]
      rw [if_pos (by omega)]
      simp only [Prod.mk.injEq, State.mk.injEq, true_and, and_true]
      exact ⟨by ring, by omega⟩
    simp only [exec, step, Option.bind_some]
    rw [List.getElem?_append_right (by simp)]
    simp only [List.length_replicate, Nat.sub_self, List.getElem?_cons_zero, acq, hacq]
    rw [List.eraseIdx_append_of_length_le (by simp)]
    simp only [List.length_replicate, Nat.sub_self, List.eraseIdx_cons_zero, List.append_nil, hsplit]
    have hT : 1 ≤ ((j : Int) + 1 + 1) * W := by
      have : ((j : Int) + 1 + 1) * W = j * W + W + W := by ring
      have : 0 ≤ (j : Int) * W := Int.mul_nonneg (by omega) (by omega)
      omega
    have hf := fill n (n + 1) W (((j : Int) + 1 + 1) * W) (1 + j * W + W) hT 1 (logAt n W j ++ [⟨1 + j * W + W, 1 + j * W + W, true⟩])
      ((m - (j + 1)) * n) (by omega)
    rw [hf]
    have e : (1 + (j : Int) * W + W) = 1 + ((j : Int) + 1) * W := by ring
    simp only [logAt, e]
    push_cast
    simp [Int.add_comm]

/-- **C137.**  The bound of `C137_fixed_partial` is attained, for every capacity, window and delay. -/
theorem C137_fixed_attained (c : Nat) (hc : 0 < c) (W : Nat) (hW : 0 < W) (hW2 : W < 2 ^ 52) (m : Nat) :
    ∃ as s, exec (step acq) (start (new c W) 1) as = some s ∧ Near W (readings s.log) ∧ Within (m * W) s.log ∧
      passed s.log (fun e => decide ((1 - 1) * (W : Int) < e.reading) && decide (e.reading ≤ 1 * W)) = c + m * (c - 1) := by
  obtain ⟨n, rfl⟩ := Nat.exists_eq_succ_of_ne_zero (Nat.pos_iff_ne_zero.mp hc)
  obtain ⟨h1, -, -, h4, h5⟩ := logAt_ok n (W := W) (by omega) (by omega) m
  refine ⟨List.replicate (n + 1 + m * n) .read ++ (.enter 0 :: List.replicate n (.enter 0)) ++ rounds n m W m,
    ⟨⟨n + 1, W, (m + 1) * W, n + 1⟩, 1 + m * W, List.replicate ((m - m) * n) 1, logAt n W m⟩, ?_, h1, h4, by simpa using h5⟩
  have hg : goCeilDiv (1 - 0) W = 1 := goCeilDiv_small _ W 1 (by decide) (by decide) (by omega) (by omega) (by omega) (by omega)
  have hacq : acquire (new ((n : Int) + 1) W) 1 = (⟨(n : Int) + 1, W, W, 1⟩, true) := by
    have hcont : ¬ contains (new ((n : Int) + 1) W) 1 := by unfold contains new; simp
    unfold acquire reset
    simp only [hcont, not_false_eq_true, if_true, if_false]
    simp only [new, hg]
    rw [if_pos (by omega)]
    simp
  rw [exec_append, exec_append, reads]
  have hrep : [] ++ List.replicate (n + 1 + m * n) (1 : Int) = 1 :: List.replicate (n + m * n) 1 := by
    rw [List.nil_append, Nat.add_right_comm, List.replicate_succ]
  have hcast : ((n.succ : Nat) : Int) = (n : Int) + 1 := by push_cast; rfl
  simp only [start, exec, step, hrep, hcast, Option.bind_some, List.getElem?_cons_zero, acq, hacq, List.eraseIdx_cons_zero]
  have hf := fill n (n + 1) W W 1 (by omega) 1 ([] ++ [⟨1, 1, true⟩]) (m * n) (by omega)
  rw [hf]
  simp only [Option.bind_some]
  have hst : (⟨⟨(n : Int) + 1, W, W, 1 + n⟩, 1, List.replicate (m * n) 1, [] ++ [⟨1, 1, true⟩] ++ List.replicate n ⟨1, 1, true⟩⟩ : Sys State) =
      ⟨⟨n + 1, W, W, n + 1⟩, 1, List.replicate (m * n) 1, logAt n W 0⟩ := by
    simp [logAt, List.replicate_succ, Int.add_comm]
  rw [hst]
  exact rounds_exec n m W hW hW2 m (Nat.le_refl _)

/-- With late calls an interval may contain more than `c` admitted ones. -/
theorem C137_fixed_violated : ¬ C137FixedClaim := by
  intro h
  obtain ⟨as, s, h1, h2, -, h4⟩ := C137_fixed_attained 2 (by decide) 10 (by decide) (by decide) 1
  have := h 2 10 1 as s 1 (by decide) (by decide) h1 h2
  have h5 : passed s.log (fun e => decide ((1 - 1) * (10 : Int) < e.reading) && decide (e.reading ≤ 1 * 10)) = 3 := h4
  omega

/-- Non-vacuity of `C137_fixed_refused`: the second of two calls is refused by a window of capacity 1. -/
example : ∃ s s', exec (step acq) (start (new 1 10) 1) [.read, .read, .enter 0] = some s ∧ step acq s (.enter 0) = some s' ∧
    s'.log = s.log ++ [⟨1, 1, false⟩] ∧ Near 10 (readings s'.log) ∧ Within 0 s'.log := by
  have hg : goCeilDiv (1 - 0) 10 = 1 := goCeilDiv_small _ 10 1 (by decide) (by decide) (by decide) (by decide) (by decide) (by decide)
  have h1 : acquire (new 1 10) 1 = (⟨1, 10, 10, 1⟩, true) := by
    have hcont : ¬ contains (new 1 10) 1 := by unfold contains new; simp
    unfold acquire reset
    simp only [hcont, not_false_eq_true, if_true, if_false]
    simp only [new, hg]
    simp
  have h2 : acquire ⟨1, 10, 10, 1⟩ 1 = (⟨1, 10, 10, 1⟩, false) := by
    have hcont : contains ⟨1, 10, 10, 1⟩ 1 := by unfold contains; decide
    unfold acquire
    simp [hcont]
  refine ⟨⟨⟨1, 10, 10, 1⟩, 1, [1], [⟨1, 1, true⟩]⟩, ⟨⟨1, 10, 10, 1⟩, 1, [], [⟨1, 1, true⟩, ⟨1, 1, false⟩]⟩, ?_, ?_, rfl, ?_, by decide⟩
  · simp [exec, step, start, acq, h1]
  · simp [step, acq, h2]
  · have h := near_ones (W := 10) (ts := [1]) (by
      intro pre t suf he
      cases pre with
      | nil => simp only [List.nil_append, List.cons.injEq] at he; exact ⟨by omega, fun _ => .inl (by omega), by simp⟩
      | cons a b => simp at he) (by simp) 1
    simpa [readings] using h

end Gears.FixedWindow
