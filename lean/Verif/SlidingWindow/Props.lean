import Verif.SlidingWindow.Lemmas

/-
Property theorems for SyncSlidingWindow (C08-C10).  `run s ops` executes the critical sections `ops` in order; it is
`none` if a call panics.
-/

namespace Gears.SlidingWindow

/-- **C08.** A fresh limiter of capacity `c > 0` and window `W`, for every sequence `ts` of clock readings in lock
order (in any order, repetitions allowed): no call panics and every closed interval of length `W` contains at most `c`
clock readings of admitted requests. -/
theorem C08_window_bound (c W : Int) (hc : 0 < c) (ts : List Int) (lo : Int) :
    ∃ s h, run (new c W) (acquires ts) = some (s, h) ∧ h.map (·.1) = ts ∧
      (admittedIn h lo (lo + W) : Int) ≤ c := by
  obtain ⟨n, rfl⟩ := Int.eq_ofNat_of_zero_le (Int.le_of_lt hc)
  have hn : 0 < n := by omega
  obtain ⟨s, h, hr, inv, hm⟩ := run_acquires_inv hn ts [] (new n W) (new_inv W)
  refine ⟨s, h, hr, hm, ?_⟩
  have := inv.hsp.count_le hn lo
  rw [List.nil_append] at this
  rw [admittedIn_eq]; omega

/-- Non-vacuity of C08, with an out-of-order clock: capacity 2, window 10. -/
example : (run (new 2 10) (acquires [5, 3, 9, 14, 16, 26])).map (·.2) =
    some [(5, true), (3, true), (9, false), (14, false), (16, true), (26, true)] := by decide

/-- The decision of `Acquire` when the records are the last admitted requests. -/
theorem exact_decision {n : Nat} (hn : 0 < n) {W : Int} {s : State} {P : List Int} {t : Int} (hcap : s.capacity = n) (hwin : s.windowSize = W)
    (hlen : s.records.length ≤ n) (hPf : P ≠ [] → s.records.length = n) (hsorted : (P ++ s.records ++ [t]).Pairwise (· ≤ ·)) :
    ∃ s' b, acquire s t = some (s', b) ∧
      (b = true ↔ ((P ++ s.records).countP (fun a => decide (t - W ≤ a) && decide (a ≤ t)) : Int) < n) := by
  have hc0 : ¬ s.capacity = 0 := by omega
  unfold acquire
  rw [if_neg hc0]
  by_cases hl : (s.records.length : Int) < s.capacity
  · rw [if_pos hl]
    have hPnil : P = [] := by
      apply Classical.byContradiction
      intro hne
      have := hPf hne; omega
    subst hPnil
    refine ⟨_, _, rfl, ?_⟩
    have := List.countP_le_length (p := fun a => decide (t - W ≤ a) && decide (a ≤ t)) (l := s.records)
    simp only [List.nil_append, true_iff]; omega
  · rw [if_neg hl]
    cases hrec : s.records with
    | nil => rw [hrec] at hl; simp at hl; omega
    | cons oldest rest =>
      rw [hrec] at hl hlen hsorted
      have hlen' : (oldest :: rest).length = n := by omega
      rw [List.pairwise_append] at hsorted
      obtain ⟨hPR, _, hlast⟩ := hsorted
      rw [List.pairwise_append] at hPR
      obtain ⟨_, hrr, hPold⟩ := hPR
      rw [List.pairwise_cons] at hrr
      have hle : ∀ x ∈ P ++ oldest :: rest, x ≤ t := fun x hx => hlast x hx t (by simp)
      simp only
      by_cases hw : t - oldest > s.windowSize
      · rw [if_pos hw]
        refine ⟨_, _, rfl, ?_⟩
        have hP0 : P.countP (fun a => decide (t - W ≤ a) && decide (a ≤ t)) = 0 := by
          rw [List.countP_eq_zero]
          intro a ha
          have := hPold a ha oldest (by simp)
          simp; omega
        have hrest := List.countP_le_length (p := fun a => decide (t - W ≤ a) && decide (a ≤ t)) (l := rest)
        have ho : (decide (t - W ≤ oldest) && decide (oldest ≤ t)) = false := by simp; omega
        simp only [List.countP_append, hP0, List.countP_cons, ho]
        simp at hlen' ⊢; omega
      · rw [if_neg hw]
        refine ⟨_, _, rfl, ?_⟩
        have hall : (oldest :: rest).countP (fun a => decide (t - W ≤ a) && decide (a ≤ t)) = n := by
          rw [← hlen', List.countP_eq_length]
          intro a ha
          have h1 := hle a (by simp only [List.mem_append]; exact Or.inr ha)
          have h2 : oldest ≤ a := by
            rcases List.mem_cons.mp ha with rfl | ha'
            · exact Int.le_refl _
            · exact hrr.1 a ha'
          simp; omega
        rw [List.countP_append, hall]
        simp; omega

/-- **C09.** With a non-decreasing clock, after the calls at `ts` a call at `t` is admitted iff fewer than `c` of the
admitted requests have a timestamp in `[t - W, t]`. -/
theorem C09_exact_log (c W : Int) (hc : 0 < c) (ts : List Int) (t : Int) (hm : NonDecreasing (ts ++ [t]))
    (s : State) (h : History) (hr : run (new c W) (acquires ts) = some (s, h)) :
    ∃ s' b, acquire s t = some (s', b) ∧ (b = true ↔ (admittedIn h (t - W) t : Int) < c) := by
  obtain ⟨n, rfl⟩ := Int.eq_ofNat_of_zero_le (Int.le_of_lt hc)
  have hn : 0 < n := by omega
  obtain ⟨s0, h0, hr0, inv, hts⟩ := run_acquires_inv hn ts [] (new n W) (new_inv W)
  rw [hr] at hr0
  simp at hr0
  obtain ⟨rfl, rfl⟩ := hr0
  rw [List.nil_append] at inv
  obtain ⟨hcap, hwin, hlen, ⟨P, hP, hPf⟩, hsp⟩ := inv
  have hsub : (admittedTimes h).Sublist ts := by
    rw [← hts, admittedTimes]
    exact (List.filter_sublist).map _
  have hsorted : (admittedTimes h ++ [t]).Pairwise (· ≤ ·) :=
    List.Pairwise.sublist (hsub.append (List.Sublist.refl _)) hm
  rw [admittedIn_eq]
  rw [← hP] at hsorted ⊢
  exact exact_decision hn hcap hwin hlen hPf hsorted

/-- Non-vacuity of C09: both outcomes occur. -/
example : (run (new 2 10) (acquires [0, 0, 10, 11, 11, 12])).map (·.2) =
    some [(0, true), (0, true), (10, false), (11, true), (11, true), (12, false)] := by decide

/-- **C10**, no panic: every sequence of `Acquire` and `UpdateConfig` calls runs to completion, on a limiter created
with any arguments. -/
theorem C10_never_panics (c W : Int) (ops : List Op) : ∃ s h, run (new c W) ops = some (s, h) := by
  have gen : ∀ s : State, 0 ≤ s.capacity → ∃ s' h, run s ops = some (s', h) := by
    induction ops with
    | nil => intro s _; exact ⟨s, [], rfl⟩
    | cons op ops ih =>
      intro s hs
      cases op with
      | acquire now =>
        obtain ⟨s1, b, he, hc1, _⟩ := acquire_total s hs now
        obtain ⟨s2, h, hr⟩ := ih s1 (by omega)
        exact ⟨s2, (now, b) :: h, by simp [run, he, hr]⟩
      | updateConfig c w =>
        exact ih (updateConfig s c w) (by simp only [updateConfig]; split <;> omega)
  exact gen _ (by simp only [new]; split <;> omega)

/-- The configuration in force after a sequence of calls: the last one given, the constructor's if none; a negative
capacity counts as 0. -/
def configured : Int × Int → List Op → Int × Int
  | cw, [] => (max cw.1 0, cw.2)
  | cw, .acquire _ :: ops => configured cw ops
  | _, .updateConfig c w :: ops => configured (c, w) ops

/-- **C10**, getters: `Capacity()` and `WindowSize()` return the last configured values. -/
theorem C10_getters (c W : Int) (ops : List Op) (s : State) (h : History) (hr : run (new c W) ops = some (s, h)) :
    (capacityOf s, windowSizeOf s) = configured (c, W) ops := by
  have gen : ∀ (cw : Int × Int) (s0 : State), 0 ≤ s0.capacity →
      (s0.capacity, s0.windowSize) = (max cw.1 0, cw.2) → ∀ h, run s0 ops = some (s, h) →
      (capacityOf s, windowSizeOf s) = configured cw ops := by
    clear hr h
    induction ops with
    | nil =>
      intro cw s0 _ h0 h hr
      simp [run] at hr
      obtain ⟨rfl, _⟩ := hr
      exact h0
    | cons op ops ih =>
      intro cw s0 hpos h0 h hr
      cases op with
      | acquire now =>
        obtain ⟨s1, b, he, hc1, hw1⟩ := acquire_total s0 hpos now
        simp only [run, he] at hr
        split at hr
        · simp at hr
        · rename_i s2 h2 hr2
          simp at hr
          obtain ⟨rfl, _⟩ := hr
          exact ih cw s1 (by omega) (by rw [hc1, hw1]; exact h0) h2 hr2
      | updateConfig c w =>
        simp only [run] at hr
        refine ih (c, w) _ ?_ ?_ h hr
        · simp only [updateConfig]; split <;> omega
        · simp only [updateConfig]
          congr 1
          split <;> omega
  refine gen (c, W) (new c W) ?_ ?_ h hr
  · simp only [new]; split <;> omega
  · simp only [new]
    congr 1
    split <;> omega

/-- **C10**, bound after reconfiguration: after any history `pre` of calls, from `UpdateConfig(c, W)` with `c > 0` on,
every closed interval of length `W` contains at most `c` admitted requests. -/
theorem C10_bound_after_update (c0 W0 c W : Int) (hc : 0 < c) (pre : List Op) (ts : List Int) (lo : Int)
    (s : State) (h : History) (_hr : run (new c0 W0) pre = some (s, h)) :
    ∃ s' h', run s (.updateConfig c W :: acquires ts) = some (s', h') ∧ h'.map (·.1) = ts ∧
      (admittedIn h' lo (lo + W) : Int) ≤ c := by
  obtain ⟨n, rfl⟩ := Int.eq_ofNat_of_zero_le (Int.le_of_lt hc)
  have hn : 0 < n := by omega
  obtain ⟨s', h', hr', inv, hm⟩ := run_acquires_inv hn ts _ _ (updateConfig_inv s W)
  refine ⟨s', h', hr', hm, ?_⟩
  have := inv.hsp.count_le hn lo
  rw [List.countP_append] at this
  rw [admittedIn_eq]; omega

theorem run_unlimited (ts : List Int) (s : State) (hs : s.capacity = 0) : run s (acquires ts) = some (s, ts.map (·, true)) := by
  induction ts with
  | nil => rfl
  | cons t ts ih =>
    simp only [acquires, List.map_cons, run] at ih ⊢
    simp [acquire, hs, ih]

/-- **C10**, capacity 0 (or negative) means unlimited: every request is admitted. -/
theorem C10_zero_unlimited (c0 W0 c W : Int) (hc : c ≤ 0) (pre : List Op) (ts : List Int)
    (s : State) (h : History) (_hr : run (new c0 W0) pre = some (s, h)) :
    ∃ s', run s (.updateConfig c W :: acquires ts) = some (s', ts.map (·, true)) := by
  refine ⟨_, run_unlimited ts _ ?_⟩
  simp only [updateConfig]; split <;> omega

/-- **C10**, the same for a limiter created with capacity 0 or less. -/
theorem C10_new_unlimited (c W : Int) (hc : c ≤ 0) (ts : List Int) :
    ∃ s, run (new c W) (acquires ts) = some (s, ts.map (·, true)) := by
  refine ⟨_, run_unlimited ts _ ?_⟩
  simp only [new]; split <;> omega

/-- The capacities a history configures. -/
def capacities : List Op → List Int
  | [] => []
  | .acquire _ :: ops => capacities ops
  | .updateConfig c _ :: ops => c :: capacities ops

/-- The times of the calls of a history. -/
def callTimes : List Op → List Int
  | [] => []
  | .acquire t :: ops => t :: callTimes ops
  | .updateConfig _ _ :: ops => callTimes ops

theorem shrink_split (c : Int) : ∀ l : List Int, ∃ Q, Q ++ shrink c l = l ∧ (Q ≠ [] → 0 ≤ c → ((shrink c l).length : Int) = c)
  | [] => ⟨[], rfl, by simp⟩
  | r :: rs => by
    rw [shrink]
    split
    · rename_i h
      obtain ⟨Q, hQ, hl⟩ := shrink_split c rs
      refine ⟨r :: Q, by simp [hQ], fun _ hc => ?_⟩
      by_cases hne : Q = []
      · subst hne
        simp at hQ h
        have : ¬ ((rs.length : Int) > c) := by
          intro hgt
          have h1 := shrink_length c hc rs
          rw [hQ] at h1; omega
        rw [hQ]; omega
      · exact hl hne hc
    · exact ⟨[], rfl, by simp⟩

/-- Capacities of at least `n`: the records are the last admitted requests, `n` at least if some were dropped. -/
structure Keeps (n : Nat) (A : List Int) (s : State) : Prop where
  hcap : (n : Int) ≤ s.capacity
  hlen : (s.records.length : Int) ≤ s.capacity
  hsuf : ∃ P, P ++ s.records = A ∧ (P ≠ [] → n ≤ s.records.length)

theorem keeps_acquire {n : Nat} (hn : 0 < n) {A : List Int} {s s' : State} {t : Int} {b : Bool} (k : Keeps n A s)
    (h : acquire s t = some (s', b)) : Keeps n (A ++ (if b then [t] else [])) s' := by
  obtain ⟨hcap, hlen, P, hP, hPf⟩ := k
  have hc0 : ¬ s.capacity = 0 := by omega
  unfold acquire at h
  rw [if_neg hc0] at h
  split at h
  · rename_i hl
    simp at h; obtain ⟨rfl, rfl⟩ := h
    exact ⟨hcap, by simp; omega, P, by simp [← hP], fun hne => by have := hPf hne; simp; omega⟩
  · rename_i hl
    split at h
    · simp at h
    · rename_i oldest rest hrec
      rw [hrec] at hlen hl hP
      split at h
      · simp at h; obtain ⟨rfl, rfl⟩ := h
        refine ⟨hcap, by simp at hlen ⊢; omega, P ++ [oldest], by simp [← hP], fun _ => ?_⟩
        simp at hl ⊢; omega
      · simp at h; obtain ⟨rfl, rfl⟩ := h
        exact ⟨hcap, by rw [hrec]; exact hlen, P, by simp [hrec, hP], fun hne => hPf hne⟩

theorem keeps_update {n : Nat} {A : List Int} {s : State} (k : Keeps n A s) {c : Int} (hc : (n : Int) ≤ c) (W : Int) :
    Keeps n A (updateConfig s c W) := by
  obtain ⟨hcap, hlen, P, hP, hPf⟩ := k
  have h0 : ¬ c < 0 := by omega
  simp only [updateConfig, h0, if_false]
  obtain ⟨Q, hQ, hl⟩ := shrink_split c s.records
  refine ⟨hc, shrink_length c (by omega) _, P ++ Q, by rw [List.append_assoc, hQ, hP], fun hne => ?_⟩
  by_cases hq : Q = []
  · subst hq
    simp at hne hQ
    have := hPf hne
    show n ≤ (shrink c s.records).length
    rw [hQ]; exact this
  · have := hl hq (by omega)
    show n ≤ (shrink c s.records).length
    omega

theorem keeps_run {n : Nat} (hn : 0 < n) : ∀ {ops : List Op} {A : List Int} {s s' : State} {h : History}, Keeps n A s →
    (∀ c ∈ capacities ops, (n : Int) ≤ c) → run s ops = some (s', h) → Keeps n (A ++ admittedTimes h) s' ∧ h.map (·.1) = callTimes ops
  | [], A, s, s', h, k, _, hr => by
    simp [run] at hr; obtain ⟨rfl, rfl⟩ := hr
    simpa [admittedTimes, callTimes] using k
  | .acquire t :: ops, A, s, s', h, k, hc, hr => by
    simp only [run] at hr
    split at hr
    · simp at hr
    rename_i s1 b ha
    split at hr
    · simp at hr
    rename_i s2 h2 hr2
    simp at hr; obtain ⟨rfl, rfl⟩ := hr
    obtain ⟨h3, h4⟩ := keeps_run (ops := ops) hn (keeps_acquire hn k ha) hc hr2
    refine ⟨?_, by simp [callTimes, h4]⟩
    cases b <;> simpa [admittedTimes, List.append_assoc] using h3
  | .updateConfig c w :: ops, A, s, s', h, k, hc, hr => by
    simp only [run] at hr
    exact keeps_run (ops := ops) hn (keeps_update k (hc c (by simp [capacities])) w) (fun x hx => hc x (by simp [capacities, hx])) hr

/-- **C10**, nothing is forgotten: if no capacity configured before was lower, then after any calls and reconfigurations, with a
non-decreasing clock, a call at `t` is admitted iff fewer than the present capacity of all requests admitted so far, also of
those before the reconfigurations, have a timestamp in the present window `[t - W, t]`. -/
theorem C10_exact_log (c0 W0 c W : Int) (hc : 0 < c) (ops : List Op) (t : Int) (h0 : c ≤ c0) (hcs : ∀ x ∈ capacities ops, c ≤ x)
    (hcfg : configured (c0, W0) ops = (c, W)) (hm : NonDecreasing (callTimes ops ++ [t]))
    (s : State) (h : History) (hr : run (new c0 W0) ops = some (s, h)) :
    ∃ s' b, acquire s t = some (s', b) ∧ (b = true ↔ (admittedIn h (t - W) t : Int) < c) := by
  have hg := C10_getters c0 W0 ops s h hr
  rw [hcfg] at hg
  simp only [capacityOf, windowSizeOf, Prod.mk.injEq] at hg
  obtain ⟨n, rfl⟩ := Int.eq_ofNat_of_zero_le (Int.le_of_lt hc)
  have hn : 0 < n := by omega
  have hneg : ¬ c0 < 0 := by omega
  have k0 : Keeps n [] (new c0 W0) := ⟨by simp [new, hneg]; omega, by simp [new, hneg]; omega, [], by simp [new], by simp⟩
  obtain ⟨⟨hcap, hlen, P, hP, hPf⟩, hts⟩ := keeps_run hn k0 hcs hr
  rw [List.nil_append] at hP
  have hsub : (admittedTimes h).Sublist (callTimes ops) := by
    rw [← hts, admittedTimes]
    exact (List.filter_sublist).map _
  have hsorted : (admittedTimes h ++ [t]).Pairwise (· ≤ ·) :=
    List.Pairwise.sublist (hsub.append (List.Sublist.refl _)) hm
  rw [admittedIn_eq]
  rw [← hP] at hsorted ⊢
  exact exact_decision hn hg.1 hg.2 (by omega) (fun hne => by have := hPf hne; omega) hsorted

/-- Non-vacuity: the window is changed, then the capacity is lowered. -/
example : (run (new 3 10) [.acquire 0, .acquire 1, .acquire 2, .updateConfig 3 20, .acquire 11, .updateConfig 2 10, .acquire 11,
    .acquire 12]).map (·.2) = some [(0, true), (1, true), (2, true), (11, false), (11, false), (12, true)] ∧
    configured (3, 10) [.updateConfig 3 20, .updateConfig 2 10] = (2, 10) := by decide

/-- Non-vacuity of C10: shrink, disable and grow. -/
example : (run (new 3 10) ([.acquire 0, .acquire 1, .acquire 2, .updateConfig 1 10, .acquire 11, .acquire 13,
    .updateConfig (-4) 10, .acquire 13, .updateConfig 2 5, .acquire 14, .acquire 15, .acquire 16])).map (·.2) =
    some [(0, true), (1, true), (2, true), (11, false), (13, true), (13, true), (14, true), (15, true), (16, false)] := by
  decide

end Gears.SlidingWindow
