import Verif.AtomicBucket.Props

/-
C07: how much `AtomicTokenBucket` over-admits, by the number of goroutines.

A call is admitted only while the counter is positive, and the counter exceeds what was issued properly (committed) by the
tokens of goroutines between their two CASes.  So the excess is at most what all other goroutines have pending at one
time, and each has at most `rate` times the seconds since the creation.  This is attained.
-/

namespace Gears.AtomicBucket

/-- Seconds from `t0` to `x`. -/
def secs (t0 x : Int) : Int := (x - t0) / 1000000000

theorem pending_le {M : Int} : ∀ (ps : List PC), (∀ (i : Nat) (p : PC), ps[i]? = some p → pend p ≤ M) → pending ps ≤ ps.length * M
  | [], _ => by simp [pending]
  | p :: ps, h => by
    have h1 := h 0 p rfl
    have h2 := pending_le ps fun i q hq => h (i + 1) q (by simpa using hq)
    have : pending (p :: ps) = pend p + pending ps := by simp [pending]
    have e : ((p :: ps).length : Int) * M = ps.length * M + M := by
      rw [List.length_cons, show ((ps.length + 1 : Nat) : Int) = ps.length + 1 by omega, Int.add_mul, Int.one_mul]
    omega

theorem pending_others {M : Int} : ∀ (ps : List PC) (i : Nat) (p : PC), ps[i]? = some p → pend p = 0 →
    (∀ (i : Nat) (p : PC), ps[i]? = some p → pend p ≤ M) → pending ps ≤ ((ps.length - 1 : Nat) : Int) * M
  | [], i, p, h, _, _ => by simp at h
  | q :: ps, 0, p, h, hp, hM => by
    have h2 := pending_le ps fun i q hq => hM (i + 1) q (by simpa using hq)
    simp at h
    have : pending (q :: ps) = pend q + pending ps := by simp [pending]
    simp only [List.length_cons, Nat.add_sub_cancel]
    rw [this, h, hp]
    omega
  | q :: ps, i + 1, p, h, hp, hM => by
    simp at h
    have h2 := pending_others ps i p h hp fun i q hq => hM (i + 1) q (by simpa using hq)
    have h1 := hM 0 q rfl
    have hl : 0 < ps.length := by
      have := (List.getElem?_eq_some_iff.1 h).1
      omega
    have : pending (q :: ps) = pend q + pending ps := by simp [pending]
    have e : (((q :: ps).length - 1 : Nat) : Int) * M = ((ps.length - 1 : Nat) : Int) * M + M := by
      rw [List.length_cons, show ((ps.length + 1 - 1 : Nat) : Int) = ((ps.length - 1 : Nat) : Int) + 1 by omega, Int.add_mul, Int.one_mul]
    omega

structure BInv (r t0 : Int) (n : Nat) (s : State) : Prop where
  each  : ∀ (i : Nat) (p : PC), s.pcs[i]? = some p → pend p ≤ r * secs t0 s.clock
  bound : pending s.pcs - s.tokens ≤ ((n - 1 : Nat) : Int) * (r * secs t0 s.clock)
  len   : s.pcs.length = n

theorem each_set {M : Int} {ps : List PC} {i : Nat} {q : PC} (h : ∀ (j : Nat) (p : PC), ps[j]? = some p → pend p ≤ M) (hq : pend q ≤ M) :
    ∀ (j : Nat) (p : PC), (ps.set i q)[j]? = some p → pend p ≤ M := by
  intro j p hj
  rw [List.getElem?_set] at hj
  split at hj
  · split at hj
    · simp at hj; subst hj; exact hq
    · simp at hj
  · exact h j p hj

theorem run_binv (c r t0 : Int) (hr : 0 ≤ r) (n : Nat) (s : State) (i : Nat) (p : PC) (hi : s.pcs[i]? = some p)
    (s' : State) (inv : Inv c r t0 s) (b : BInv r t0 n s) (h : runPc s i p = some s') : BInv r t0 n s' := by
  have hpi := inv.hpc i p hi
  have hei := b.each i p hi
  obtain ⟨hcap, hrate, htok, hlit0, hlit, hpc, hcons, hroll, hlow⟩ := inv
  obtain ⟨he, hb, hn⟩ := b
  have hset := fun q => pending_set s.pcs i p q hi
  have hk : 0 ≤ r * secs t0 s.clock := Int.mul_nonneg hr (by unfold secs; omega)
  have hpos : 0 ≤ ((n - 1 : Nat) : Int) * (r * secs t0 s.clock) := Int.mul_nonneg (by omega) hk
  cases p with
  | idle => simp [runPc] at h
  | issLoadTok =>
    simp only [runPc] at h
    split at h <;> simp at h <;> subst h <;> refine ⟨each_set he hk, ?_, by simpa [State.setPc] using hn⟩ <;> simp only [State.setPc, hset, pend] <;> omega
  | issLoadLit old =>
    simp [runPc] at h; subst h
    refine ⟨each_set he hk, ?_, by simpa [State.setPc] using hn⟩
    simp only [State.setPc, hset, pend]; omega
  | issNow old lit =>
    simp only [runPc] at h
    split at h <;> simp at h <;> subst h <;> refine ⟨each_set he hk, ?_, by simpa [State.setPc] using hn⟩ <;> simp only [State.setPc, hset, pend] <;> omega
  | issCas1 old lit now d =>
    obtain ⟨h1, h2, h3, h4, h5, h6⟩ := hpi
    have hd : d ≤ r * secs t0 s.clock := Int.le_trans h6 (Int.mul_le_mul_of_nonneg_left (by unfold secs; omega) hr)
    simp only [runPc] at h
    split at h <;> simp at h <;> subst h
    · refine ⟨each_set he hd, ?_, by simpa [State.setPc] using hn⟩
      simp only [State.setPc, hset, pend]; omega
    · refine ⟨each_set he hk, ?_, by simpa [State.setPc] using hn⟩
      simp only [State.setPc, hset, pend]; omega
  | issCas2 lit now d =>
    obtain ⟨h1, -⟩ := hpi
    simp only [runPc] at h
    split at h <;> simp at h <;> subst h
    · refine ⟨each_set he hk, ?_, by simpa [State.setPc] using hn⟩
      simp only [State.setPc, hset, pend]; omega
    · refine ⟨each_set he hei, ?_, by simpa [State.setPc] using hn⟩
      simp only [State.setPc, hset, pend]; omega
  | issRollback d =>
    simp [runPc] at h; subst h
    refine ⟨each_set he hk, ?_, by simpa [State.setPc] using hn⟩
    simp only [State.setPc, hset, pend]; omega
  | acqLoad =>
    simp only [runPc] at h
    split at h <;> simp at h <;> subst h <;> refine ⟨each_set he hk, ?_, by simpa [State.setPc] using hn⟩ <;> simp only [State.setPc, hset, pend] <;> omega
  | acqCas old =>
    have hold : 0 < old := hpi
    simp only [runPc] at h
    split at h <;> simp at h <;> subst h <;> refine ⟨each_set he hk, ?_, by simpa [State.setPc] using hn⟩ <;> simp only [State.setPc, hset, pend]
    · have := pending_others s.pcs i _ hi rfl he
      rw [hn] at this
      omega
    · omega

theorem step_binv (c r t0 : Int) (hr : 0 ≤ r) (n : Nat) (s : State) (a : Action) (s' : State) (hf : a.Forward)
    (inv : Inv c r t0 s) (b : BInv r t0 n s) (h : step s a = some s') : BInv r t0 n s' := by
  cases a with
  | tick d =>
    have hd : 0 ≤ d := hf
    simp [step] at h; subst h
    have hm : r * secs t0 s.clock ≤ r * secs t0 (s.clock + d) := Int.mul_le_mul_of_nonneg_left (by simp only [secs]; omega) hr
    exact ⟨fun i p hp => Int.le_trans (b.each i p hp) hm, Int.le_trans b.bound (Int.mul_le_mul_of_nonneg_left hm (by omega)), b.len⟩
  | call i =>
    have hk : 0 ≤ r * secs t0 s.clock := by
      have := inv.hlit0; have := inv.hlit
      exact Int.mul_nonneg hr (by unfold secs; omega)
    simp only [step] at h
    split at h
    · rename_i hi
      simp at h; subst h
      refine ⟨each_set b.each hk, ?_, by simpa [State.setPc] using b.len⟩
      have := b.bound
      simp only [State.setPc, pending_set s.pcs i _ _ hi, pend]
      omega
    · simp at h
  | run i =>
    simp only [step] at h
    split at h
    · rename_i p hp
      exact run_binv c r t0 hr n s i p hp s' inv b h
    · simp at h

/-- **C07, partial.** A bound on what callers see, for every schedule of `n` goroutines: with `S` full seconds since the creation at most
`capacity + n * rate * S` calls are admitted; so the claim holds for a single goroutine.  Missing: a factor `n`, which cannot be
made smaller (`C07_attained_violated`). -/
theorem C07_goroutines_bound_partial (c r t0 : Int) (hc : 0 ≤ c) (hr : 0 ≤ r) (n : Nat) (hn : 1 ≤ n) (as : List Action)
    (hf : ∀ a ∈ as, a.Forward) (s : State) (h : exec step (init c r t0 n) as = some s) :
    (s.admitted : Int) ≤ c + n * (r * ((s.clock - t0) / 1000000000)) := by
  have hall := exec_inv_on (I := fun x => Inv c r t0 x ∧ BInv r t0 n x)
    (fun a b c' hp hi hs => ⟨step_inv c r t0 hr a b c' hp hi.1 hs, step_binv c r t0 hr n a b c' hp hi.1 hi.2 hs⟩) as _ _ hf
    ⟨init_inv c r t0 hc n, ⟨?_, ?_, by simp [init]⟩⟩ h
  · obtain ⟨inv, b⟩ := hall
    have h1 := inv.hcons
    have h2 := b.bound
    have hlit := inv.hlit
    have h3 : r * ((s.lit - t0) / 1000000000) ≤ r * ((s.clock - t0) / 1000000000) := Int.mul_le_mul_of_nonneg_left (by omega) hr
    unfold secs at h2
    rw [show (n : Int) = ((n - 1 : Nat) : Int) + 1 by omega, Int.add_mul, Int.one_mul]
    omega
  · intro i p hp
    simp [init, List.getElem?_replicate] at hp
    obtain ⟨_, rfl⟩ := hp
    simp [init, secs, pend]
  · have h0 : pending (init c r t0 n).pcs = 0 := pending_zero _ (by intro p hp; simp [init] at hp; exact hp.2)
    rw [h0]
    simp [init, secs]
    omega

/-! ## The bound is attained -/

theorem set_self {ps : List PC} {i : Nat} {p : PC} (h : ps[i]? = some p) : ps.set i p = ps := by
  apply List.ext_getElem?
  intro j
  rw [List.getElem?_set]
  split
  · rename_i hij; subst hij
    split
    · exact h.symm
    · rename_i hl; rw [List.getElem?_eq_none (by omega)] 
  · rfl

/-- One call that finds a token and has nothing to issue. -/
theorem take_one (s : State) (j : Nat) (hj : s.pcs[j]? = some .idle) (ht : 0 < s.tokens) (h0 : s.lit ≤ s.clock) (h1 : s.clock - s.lit < 1000000000) :
    ∃ as : List Action, (∀ a ∈ as, a.Forward) ∧ exec step s as = some { s with tokens := s.tokens - 1, log := s.log ++ [true] } := by
  obtain ⟨hl, hj'⟩ := List.getElem?_eq_some_iff.1 hj
  have hself := set_self hj
  have hd : Int.tdiv (s.clock - s.lit) 1000000000 = 0 := by
    rw [Int.tdiv_eq_ediv_of_nonneg (by omega)]; omega
  by_cases hc : s.tokens ≥ s.capacity
  · refine ⟨[.call j, .run j, .run j, .run j], by simp [Action.Forward], ?_⟩
    simp [exec, step, hj', State.setPc, runPc, hl, hc, ht, hself]
  · refine ⟨[.call j, .run j, .run j, .run j, .run j, .run j], by simp [Action.Forward], ?_⟩
    have hc' : ¬ s.capacity ≤ s.tokens := hc
    simp [exec, step, hj', State.setPc, runPc, hl, hc', ht, hself, hd]

theorem take_all : ∀ (k : Nat) (s : State) (j : Nat), s.pcs[j]? = some .idle → k ≤ s.tokens → s.lit ≤ s.clock → s.clock - s.lit < 1000000000 →
    ∃ as : List Action, (∀ a ∈ as, a.Forward) ∧ exec step s as = some { s with tokens := s.tokens - k, log := s.log ++ List.replicate k true }
  | 0, s, j, _, _, _, _ => ⟨[], by simp, by simp [exec]⟩
  | k + 1, s, j, hj, ht, h0, h1 => by
    obtain ⟨as, hf, he⟩ := take_one s j hj (by omega) h0 h1
    obtain ⟨bs, hf', he'⟩ := take_all k { s with tokens := s.tokens - 1, log := s.log ++ [true] } j hj (by simp only; omega) h0 h1
    refine ⟨as ++ bs, ?_, ?_⟩
    · intro a ha
      rcases List.mem_append.1 ha with h | h
      · exact hf a h
      · exact hf' a h
    · rw [exec_append, he]
      simp only [Option.bind_some]
      rw [he']
      simp only [Option.some.injEq, State.mk.injEq, true_and, and_true]
      refine ⟨by omega, ?_⟩
      rw [List.append_assoc, List.replicate_succ]; rfl

/-- `k` goroutines get ready to add the same `d` tokens. -/
theorem ready (s : State) (d : Int) (hd : Int.tdiv (s.clock - s.lit) 1000000000 * s.rate = d) (hd0 : 0 < d) (hdc : d ≤ s.capacity) (ht : s.tokens = 0) :
    ∀ k : Nat, (∀ i < k, s.pcs[i]? = some .idle) → ∃ (as : List Action) (ps : List PC), (∀ a ∈ as, a.Forward) ∧
      exec step s as = some { s with pcs := ps } ∧ ps.length = s.pcs.length ∧ (∀ i < k, ps[i]? = some (.issCas1 0 s.lit s.clock d)) ∧ ∀ i, k ≤ i → ps[i]? = s.pcs[i]?
  | 0, _ => ⟨[], s.pcs, by simp, rfl, rfl, by simp, by simp⟩
  | k + 1, h => by
    obtain ⟨as, ps, hf, he, hl, h1, h2⟩ := ready s d hd hd0 hdc ht k (fun i hi => h i (by omega))
    have hk : ps[k]? = some .idle := by rw [h2 k (by omega)]; exact h k (by omega)
    obtain ⟨hkl, hk'⟩ := List.getElem?_eq_some_iff.1 hk
    refine ⟨as ++ [.call k, .run k, .run k, .run k], ps.set k (.issCas1 0 s.lit s.clock d), ?_, ?_, by simpa using hl, ?_, ?_⟩
    · intro a ha
      rcases List.mem_append.1 ha with h | h
      · exact hf a h
      · simp at h; rcases h with rfl | rfl | rfl | rfl <;> trivial
    · rw [exec_append, he]
      have e1 : ¬ s.capacity ≤ 0 := by omega
      have e2 : ¬ d = 0 := by omega
      have e3 : ¬ s.capacity < d := by omega
      have e4 : ¬ (Int.tdiv (s.clock - s.lit) 1000000000 = 0 ∨ s.rate = 0) := by
        intro h; apply e2; rcases h with h | h <;> rw [← hd, h] <;> simp
      simp [exec, step, hk', State.setPc, runPc, hkl, ht, e1, hd, e3, e4]
    · intro i hi
      rw [List.getElem?_set]
      split
      · rename_i hki; subst hki; simp [hkl]
      · exact h1 i (by omega)
    · intro i hi
      rw [List.getElem?_set, if_neg (by omega)]
      exact h2 i (by omega)

/-- One goroutine issues `d` tokens and takes one. -/
theorem issue_one (s : State) (d : Int) (hd : Int.tdiv (s.clock - s.lit) 1000000000 * s.rate = d) (hd0 : 0 < d) (hdc : d ≤ s.capacity) (ht : s.tokens = 0)
    (k : Nat) (hk : s.pcs[k]? = some .idle) :
    exec step s [.call k, .run k, .run k, .run k, .run k, .run k, .run k, .run k] =
      some { s with tokens := d - 1, issues := s.issues + 1, lit := s.clock, log := s.log ++ [true] } := by
  obtain ⟨hkl, hk'⟩ := List.getElem?_eq_some_iff.1 hk
  have e1 : ¬ s.capacity ≤ 0 := by omega
  have e2 : ¬ d = 0 := by omega
  have e3 : ¬ s.capacity < d := by omega
  have e4 : ¬ (Int.tdiv (s.clock - s.lit) 1000000000 = 0 ∨ s.rate = 0) := by
    intro h; apply e2; rcases h with h | h <;> rw [← hd, h] <;> simp
  simp [exec, step, hk', State.setPc, runPc, hkl, ht, e1, hd, e2, e3, e4, hd0, set_self hk]

/-- They add them one after the other, and another goroutine takes them each time. -/
theorem add_all (d : Nat) : ∀ (k : Nat) (s : State) (j : Nat) (lit now : Int), s.tokens = 0 → s.lit ≤ s.clock → s.clock - s.lit < 1000000000 →
    s.pcs[j]? = some .idle → k ≤ j → (∀ i < k, s.pcs[i]? = some (.issCas1 0 lit now d)) →
    ∃ (as : List Action) (s' : State), (∀ a ∈ as, a.Forward) ∧ exec step s as = some s' ∧ s'.clock = s.clock ∧ s'.tokens = 0 ∧
      s'.log = s.log ++ List.replicate (k * d) true
  | 0, s, j, lit, now, ht, h0, h1, hj, hk, hp => ⟨[], s, by simp, rfl, rfl, ht, by simp⟩
  | k + 1, s, j, lit, now, ht, h0, h1, hj, hk, hp => by
    have hpk := hp k (by omega)
    have hkl : k < s.pcs.length := (List.getElem?_eq_some_iff.1 hpk).1
    let s1 : State := { s with tokens := d, issues := s.issues + 1, pcs := s.pcs.set k (.issCas2 lit now d) }
    have e1 : exec step s [.run k] = some s1 := by
      simp [exec, step, hpk, runPc, ht, State.setPc, s1]
    have hj1 : s1.pcs[j]? = some .idle := by
      show (s.pcs.set k _)[j]? = _
      rw [List.getElem?_set, if_neg (by omega)]; exact hj
    obtain ⟨as, hf, he⟩ := take_all d s1 j hj1 (by simp [s1]) h0 h1
    have ht2 : s1.tokens - (d : Int) = 0 := by simp [s1]
    rw [ht2] at he
    obtain ⟨bs, s', hf', he', h3, h4, h5⟩ := add_all d k { s1 with tokens := 0, log := s1.log ++ List.replicate d true } j lit now rfl h0 h1 hj1 (by omega)
      (by
        intro i hi
        show (s.pcs.set k _)[i]? = _
        rw [List.getElem?_set, if_neg (by omega)]; exact hp i (by omega))
    refine ⟨[.run k] ++ (as ++ bs), s', ?_, ?_, h3, h4, ?_⟩
    · intro a ha
      rcases List.mem_append.1 ha with h | h
      · simp at h; subst h; trivial
      · rcases List.mem_append.1 h with h | h
        · exact hf a h
        · exact hf' a h
    · rw [exec_append, e1]
      simp only [Option.bind_some]
      rw [exec_append, he]
      simp only [Option.bind_some]
      exact he'
    · rw [h5]
      simp only [s1]
      rw [List.append_assoc, List.replicate_append_replicate, Nat.succ_mul, Nat.add_comm]

/-- **C07 is violated**, by a factor: for every number `n` of goroutines, rate, number of seconds and capacity that holds the tokens of that
time, there is a schedule that admits `capacity + n * rate * seconds` calls. -/
theorem C07_attained_violated (c r S : Nat) (hc : r * S ≤ c) (n : Nat) (hn : 1 ≤ n) (t0 : Int) :
    ∃ (as : List Action) (s : State), (∀ a ∈ as, a.Forward) ∧ exec step (init c r t0 n) as = some s ∧ (s.clock - t0) / 1000000000 = S ∧
      s.admitted = c + n * (r * S) := by
  obtain ⟨m, rfl⟩ : ∃ m, n = m + 1 := ⟨n - 1, by omega⟩
  have hidle : ∀ i < m + 1, (init c r t0 (m + 1)).pcs[i]? = some .idle := by
    intro i hi; simp [init, List.getElem?_replicate, hi]
  obtain ⟨as, hf, he⟩ := take_all c (init c r t0 (m + 1)) m (hidle m (by omega)) (by simp [init]) (by simp [init]) (by simp [init])
  let s1 : State := { init c r t0 (m + 1) with tokens := 0, log := List.replicate c true, clock := t0 + S * 1000000000 }
  have e1 : exec step (init c r t0 (m + 1)) (as ++ [.tick (S * 1000000000)]) = some s1 := by
    rw [exec_append, he]
    simp [exec, step, s1, init]
  have f1 : ∀ a ∈ as ++ [Action.tick (S * 1000000000)], a.Forward := by
    intro a ha
    rcases List.mem_append.1 ha with h | h
    · exact hf a h
    · simp at h; subst h; show (0 : Int) ≤ _; omega
  have hclk : (t0 + S * 1000000000 - t0) / 1000000000 = (S : Int) := by omega
  by_cases h0 : r * S = 0
  · exact ⟨_, s1, f1, e1, hclk, by simp [s1, State.admitted, List.countP_replicate, h0]⟩
  · have hd : Int.tdiv (s1.clock - s1.lit) 1000000000 * s1.rate = ((r * S : Nat) : Int) := by
      show Int.tdiv (t0 + S * 1000000000 - t0) 1000000000 * (r : Int) = _
      rw [Int.tdiv_eq_ediv_of_nonneg (by omega), hclk, Int.natCast_mul, Int.mul_comm]
    have hcap : ((r * S : Nat) : Int) ≤ s1.capacity := by show _ ≤ (c : Int); omega
    obtain ⟨bs, ps, f2, e2, hl, h1, h2⟩ := ready s1 _ hd (by omega) hcap rfl m (fun i hi => hidle i (by omega))
    have hm : ps[m]? = some .idle := by rw [h2 m (by omega)]; exact hidle m (by omega)
    obtain ⟨hml, hm'⟩ := List.getElem?_eq_some_iff.1 hm
    let s2 : State := { s1 with pcs := ps, tokens := ((r * S : Nat) : Int) - 1, issues := 1, lit := s1.clock, log := List.replicate c true ++ [true] }
    have e3 : exec step { s1 with pcs := ps } [.call m, .run m, .run m, .run m, .run m, .run m, .run m, .run m] = some s2 := by
      rw [issue_one { s1 with pcs := ps } _ hd (by omega) hcap rfl m hm]
      rfl
    obtain ⟨cs, f4, e4⟩ := take_all (r * S - 1) s2 m hm (by simp only [s2]; omega) (by simp [s2]) (by simp [s2])
    have ht : s2.tokens - ((r * S - 1 : Nat) : Int) = 0 := by simp only [s2]; omega
    rw [ht] at e4
    obtain ⟨ds, s', f5, e5, h3, h4, h5⟩ := add_all (r * S) m { s2 with tokens := 0, log := s2.log ++ List.replicate (r * S - 1) true } m t0 (t0 + S * 1000000000) rfl
      (by simp [s2]) (by simp [s2]) hm (Nat.le_refl _) h1
    refine ⟨(as ++ [.tick (S * 1000000000)]) ++ (bs ++ ([.call m, .run m, .run m, .run m, .run m, .run m, .run m, .run m] ++ (cs ++ ds))), s', ?_, ?_, ?_, ?_⟩
    · intro a ha
      simp only [List.mem_append] at ha
      rcases ha with h | h | h | h | h
      · exact f1 a (by simpa using h)
      · exact f2 a h
      · simp at h; rcases h with rfl | rfl | rfl | rfl | rfl | rfl | rfl | rfl <;> trivial
      · exact f4 a h
      · exact f5 a h
    · rw [exec_append, e1]
      simp only [Option.bind_some]
      rw [exec_append, e2]
      simp only [Option.bind_some]
      rw [exec_append, e3]
      simp only [Option.bind_some]
      rw [exec_append, e4]
      simp only [Option.bind_some]
      exact e5
    · rw [h3]; exact hclk
    · simp only [State.admitted, h5, s2, List.countP_append, List.countP_replicate]
      simp
      have : (m + 1) * (r * S) = m * (r * S) + r * S := Nat.succ_mul _ _
      omega

/-- Ten goroutines, capacity 100, rate 100: 1100 calls within a second instead of 200. -/
example : ∃ (as : List Action) (s : State), (∀ a ∈ as, a.Forward) ∧ exec step (init 100 100 0 10) as = some s ∧ (s.clock - 0) / 1000000000 = 1 ∧ s.admitted = 1100 :=
  C07_attained_violated 100 100 1 (by omega) 10 (by omega) 0

end Gears.AtomicBucket
