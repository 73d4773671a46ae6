import Verif.AtomicBucket.Model
import Verif.TokenBucket.Lemmas

namespace Gears.AtomicBucket

/-- Tokens added by a first CAS whose second CAS has not succeeded (yet). -/
def pend : PC → Int
  | .issCas2 _ _ d => d
  | .issRollback d => d
  | _ => 0

/-- Sum of the pending amounts of all goroutines. -/
def pending (ps : List PC) : Int := (ps.map pend).sum

theorem pending_set (ps : List PC) (i : Nat) (p q : PC) (h : ps[i]? = some p) :
    pending (ps.set i q) = pending ps - pend p + pend q := by
  unfold pending
  induction ps generalizing i with
  | nil => simp at h
  | cons a ps ih =>
    cases i with
    | zero => simp at h; subst h; simp; omega
    | succ i =>
      simp at h
      have := ih i h
      simp only [List.set, List.map_cons, List.sum_cons, this]; omega

/-- Facts about the local variables of a goroutine. -/
def PCok (c r t0 clock : Int) : PC → Prop
  | .issLoadLit old => old < c
  | .issNow old lit => old < c ∧ t0 ≤ lit ∧ lit ≤ clock
  | .issCas1 old lit now d =>
      0 < d ∧ old + d ≤ c ∧ t0 ≤ lit ∧ lit ≤ now ∧ now ≤ clock ∧ d ≤ r * ((now - lit) / 1000000000)
  | .issCas2 lit now d =>
      0 < d ∧ t0 ≤ lit ∧ lit ≤ now ∧ now ≤ clock ∧ d ≤ r * ((now - lit) / 1000000000)
  | .issRollback d => 0 < d
  | .acqCas old => 0 < old
  | _ => True

theorem PCok.mono {c r t0 k k' : Int} {p : PC} (h : PCok c r t0 k p) (hk : k ≤ k') :
    PCok c r t0 k' p := by
  cases p <;> simp only [PCok] at h ⊢ <;> (try exact h) <;> refine ⟨?_, ?_⟩ <;> omega

structure Inv (c r t0 : Int) (s : State) : Prop where
  hcap   : s.capacity = c
  hrate  : s.rate = r
  htok   : s.tokens ≤ c
  hlit0  : t0 ≤ s.lit
  hlit   : s.lit ≤ s.clock
  hpc    : ∀ (i : Nat) (p : PC), s.pcs[i]? = some p → PCok c r t0 s.clock p
  hcons  : (s.admitted : Int) + s.tokens ≤ c + r * ((s.lit - t0) / 1000000000) + pending s.pcs
  hroll  : 0 ≤ s.rolled
  hlow   : 0 ≤ s.tokens + s.rolled

theorem pcs_set {c r t0 k : Int} {ps : List PC} {i : Nat} {q : PC}
    (h : ∀ (j : Nat) (p : PC), ps[j]? = some p → PCok c r t0 k p) (hq : PCok c r t0 k q) :
    ∀ (j : Nat) (p : PC), (ps.set i q)[j]? = some p → PCok c r t0 k p := by
  intro j p hj
  rw [List.getElem?_set] at hj
  split at hj
  · split at hj
    · simp at hj; subst hj; exact hq
    · simp at hj
  · exact h j p hj

theorem init_inv (c r t0 : Int) (hc : 0 ≤ c) (n : Nat) : Inv c r t0 (init c r t0 n) := by
  refine ⟨rfl, rfl, by simp [init], by simp [init], by simp [init], ?_, ?_, by simp [init], ?_⟩
  · intro i p h
    simp [init, List.getElem?_replicate] at h
    obtain ⟨_, rfl⟩ := h
    trivial
  · have : pending (List.replicate n PC.idle) = 0 := by
      unfold pending; induction n with
      | zero => rfl
      | succ n ih => simp [List.replicate_succ, pend] at ih ⊢
    simp [init, State.admitted, this]
  · simp [init]; omega

theorem run_inv (c r t0 : Int) (hr : 0 ≤ r) (s : State) (i : Nat) (p : PC) (hi : s.pcs[i]? = some p)
    (s' : State) (inv : Inv c r t0 s) (h : runPc s i p = some s') : Inv c r t0 s' := by
  have hpi := inv.hpc i p hi
  obtain ⟨hcap, hrate, htok, hlit0, hlit, hpc, hcons, hroll, hlow⟩ := inv
  have hset := fun q => pending_set s.pcs i p q hi
  unfold State.admitted at *
  cases p with
  | idle => simp [runPc] at h
  | issLoadTok =>
    simp only [runPc] at h
    split at h <;> simp at h <;> subst h
    · refine ⟨hcap, hrate, htok, hlit0, hlit, pcs_set hpc trivial, ?_, hroll, hlow⟩
      simp only [State.setPc, State.admitted, hset, pend]; omega
    · rename_i hlt
      refine ⟨hcap, hrate, htok, hlit0, hlit, pcs_set hpc ?_, ?_, hroll, hlow⟩
      · simp only [PCok]; omega
      · simp only [State.setPc, State.admitted, hset, pend]; omega
  | issLoadLit old =>
    simp [runPc] at h; subst h
    refine ⟨hcap, hrate, htok, hlit0, hlit, pcs_set hpc ?_, ?_, hroll, hlow⟩
    · exact ⟨hpi, hlit0, hlit⟩
    · simp only [State.setPc, State.admitted, hset, pend]; omega
  | issNow old lit =>
    obtain ⟨h1, h2, h3⟩ := hpi
    simp only [runPc] at h
    have hd : Int.tdiv (s.clock - lit) 1000000000 = (s.clock - lit) / 1000000000 :=
      Int.tdiv_eq_ediv_of_nonneg (by omega)
    rw [hd, hrate] at h
    have hq : 0 ≤ (s.clock - lit) / 1000000000 := Int.ediv_nonneg (by omega) (by decide)
    have hnn : 0 ≤ (s.clock - lit) / 1000000000 * r := Int.mul_nonneg hq hr
    have hcomm := Int.mul_comm r ((s.clock - lit) / 1000000000)
    split at h <;> simp at h <;> subst h
    · refine ⟨hcap, hrate, htok, hlit0, hlit, pcs_set hpc trivial, ?_, hroll, hlow⟩
      simp only [State.setPc, State.admitted, hset, pend]; omega
    · refine ⟨hcap, hrate, htok, hlit0, hlit, pcs_set hpc ?_, ?_, hroll, hlow⟩
      · simp only [PCok, hcomm, hcap]
        rw [hcap] at *
        split <;> refine ⟨?_, ?_, h2, h3, Int.le_refl _, ?_⟩ <;> omega
      · simp only [State.setPc, State.admitted, hset, pend]; omega
  | issCas1 old lit now d =>
    obtain ⟨h1, h2, h3, h4, h5, h6⟩ := hpi
    simp only [runPc] at h
    split at h <;> simp at h <;> subst h
    · refine ⟨hcap, hrate, h2, hlit0, hlit, pcs_set hpc ⟨h1, h3, h4, h5, h6⟩, ?_, hroll, ?_⟩
      · simp only [State.setPc, State.admitted, hset, pend]; omega
      · simp only [State.setPc]; omega
    · refine ⟨hcap, hrate, htok, hlit0, hlit, pcs_set hpc trivial, ?_, hroll, hlow⟩
      simp only [State.setPc, State.admitted, hset, pend]; omega
  | issCas2 lit now d =>
    obtain ⟨h1, h3, h4, h5, h6⟩ := hpi
    simp only [runPc] at h
    split at h <;> simp at h <;> subst h
    · rename_i hl
      refine ⟨hcap, hrate, htok, ?_, h5, pcs_set hpc trivial, ?_, hroll, hlow⟩
      · simp only [State.setPc]; omega
      · simp only [State.setPc, State.admitted, hset, pend]
        have hfl : (lit - t0) / 1000000000 + (now - lit) / 1000000000 ≤ (now - t0) / 1000000000 := by
          omega
        have := Int.mul_le_mul_of_nonneg_left hfl hr
        rw [Int.mul_add] at this
        rw [hl] at hcons
        omega
    · refine ⟨hcap, hrate, htok, hlit0, hlit, pcs_set hpc h1, ?_, hroll, hlow⟩
      simp only [State.setPc, State.admitted, hset, pend]; omega
  | issRollback d =>
    have h1 : 0 < d := hpi
    simp [runPc] at h; subst h
    refine ⟨hcap, hrate, ?_, hlit0, hlit, pcs_set hpc trivial, ?_, ?_, ?_⟩
    · simp only [State.setPc]; omega
    · simp only [State.setPc, State.admitted, hset, pend]; omega
    · simp only [State.setPc]; omega
    · simp only [State.setPc]; omega
  | acqLoad =>
    simp only [runPc] at h
    split at h <;> simp at h <;> subst h
    · rename_i hp
      refine ⟨hcap, hrate, htok, hlit0, hlit, pcs_set hpc hp, ?_, hroll, hlow⟩
      simp only [State.setPc, State.admitted, hset, pend]; omega
    · refine ⟨hcap, hrate, htok, hlit0, hlit, pcs_set hpc trivial, ?_, hroll, hlow⟩
      simp only [State.setPc, State.admitted, hset, pend]
      simp; omega
  | acqCas old =>
    have h1 : 0 < old := hpi
    simp only [runPc] at h
    split at h <;> simp at h <;> subst h
    · refine ⟨hcap, hrate, ?_, hlit0, hlit, pcs_set hpc trivial, ?_, hroll, ?_⟩
      · simp only [State.setPc]; omega
      · simp only [State.setPc, State.admitted, hset, pend]
        simp; omega
      · simp only [State.setPc]; omega
    · refine ⟨hcap, hrate, htok, hlit0, hlit, pcs_set hpc trivial, ?_, hroll, hlow⟩
      simp only [State.setPc, State.admitted, hset, pend]; omega

theorem step_inv (c r t0 : Int) (hr : 0 ≤ r) (s : State) (a : Action) (s' : State) (hf : a.Forward)
    (inv : Inv c r t0 s) (h : step s a = some s') : Inv c r t0 s' := by
  cases a with
  | tick d =>
    have hd : 0 ≤ d := hf
    obtain ⟨hcap, hrate, htok, hlit0, hlit, hpc, hcons, hroll, hlow⟩ := inv
    simp [step] at h; subst h
    refine ⟨hcap, hrate, htok, hlit0, ?_, ?_, hcons, hroll, hlow⟩
    · simp only; omega
    · intro i p hp
      exact (hpc i p hp).mono (by simp only; omega)
  | call i =>
    obtain ⟨hcap, hrate, htok, hlit0, hlit, hpc, hcons, hroll, hlow⟩ := inv
    simp only [step] at h
    split at h
    · rename_i hi
      simp at h; subst h
      refine ⟨hcap, hrate, htok, hlit0, hlit, pcs_set hpc trivial, ?_, hroll, hlow⟩
      simp only [State.setPc, State.admitted, pending_set s.pcs i _ _ hi, pend]
      unfold State.admitted at hcons; omega
    · simp at h
  | run i =>
    simp only [step] at h
    split at h
    · rename_i p hp
      exact run_inv c r t0 hr s i p hp s' inv h
    · simp at h

/-- Between two issues the admissions are paid by the tokens present. -/
structure Spend (s0 s : State) : Prop where
  hiss : s0.issues ≤ s.issues
  hsp  : s.issues = s0.issues →
    (s.admitted : Int) + max s.tokens 0 ≤ (s0.admitted : Int) + max s0.tokens 0

theorem step_spend (c r t0 : Int) (s0 s : State) (a : Action) (s' : State)
    (inv : Inv c r t0 s) (sp : Spend s0 s) (h : step s a = some s') : Spend s0 s' := by
  obtain ⟨hiss, hsp⟩ := sp
  cases a with
  | tick d => simp [step] at h; subst h; exact ⟨hiss, hsp⟩
  | call i =>
    simp only [step] at h
    split at h
    · simp at h; subst h; exact ⟨hiss, hsp⟩
    · simp at h
  | run i =>
    simp only [step] at h
    split at h
    · rename_i p hp
      have hpi := inv.hpc i p hp
      unfold State.admitted at *
      cases p with
      | idle => simp [runPc] at h
      | issLoadTok =>
        simp only [runPc] at h
        split at h <;> simp at h <;> subst h <;> exact ⟨hiss, hsp⟩
      | issLoadLit old => simp [runPc] at h; subst h; exact ⟨hiss, hsp⟩
      | issNow old lit =>
        simp only [runPc] at h
        split at h <;> simp at h <;> subst h <;> exact ⟨hiss, hsp⟩
      | issCas1 old lit now d =>
        simp only [runPc] at h
        split at h <;> simp at h <;> subst h
        · refine ⟨by simp only [State.setPc]; omega, ?_⟩
          intro he; simp only [State.setPc] at he; omega
        · exact ⟨hiss, hsp⟩
      | issCas2 lit now d =>
        simp only [runPc] at h
        split at h <;> simp at h <;> subst h <;> exact ⟨hiss, hsp⟩
      | issRollback d =>
        have hd : 0 < d := hpi
        simp [runPc] at h; subst h
        refine ⟨hiss, ?_⟩
        intro he
        have := hsp he
        simp only [State.setPc, State.admitted]; omega
      | acqLoad =>
        simp only [runPc] at h
        split at h <;> simp at h <;> subst h
        · exact ⟨hiss, hsp⟩
        · refine ⟨hiss, ?_⟩
          intro he
          have := hsp he
          simp only [State.setPc, State.admitted]; simp; omega
      | acqCas old =>
        have ho : 0 < old := hpi
        simp only [runPc] at h
        split at h <;> simp at h <;> subst h
        · refine ⟨hiss, ?_⟩
          intro he
          have := hsp he
          simp only [State.setPc, State.admitted]; simp; omega
        · exact ⟨hiss, hsp⟩
    · simp at h

/-! ### Sequential use -/

/-- The shared state seen as a SyncTokenBucket. -/
def toSync (s : State) : TokenBucket.State :=
  { capacity := s.capacity, tokens := s.tokens, rate := s.rate, last := s.lit }

theorem set_set_self (ps : List PC) (i : Nat) (p q : PC) : (ps.set i p).set i q = ps.set i q := by
  simp [List.set_set]

theorem set_get_self {ps : List PC} {i : Nat} {p : PC} (h : ps[i]? = some p) : ps.set i p = ps := by
  apply List.ext_getElem?
  intro j
  rw [List.getElem?_set]
  split
  · rename_i hij; subst hij
    rw [h]
    have : i < ps.length := by
      rcases Nat.lt_or_ge i ps.length with h' | h'
      · exact h'
      · simp [List.getElem?_eq_none h'] at h
    simp [this]
  · rfl

theorem get_set_self {ps : List PC} {i : Nat} {p q : PC} (h : ps[i]? = some p) :
    (ps.set i q)[i]? = some q := by
  rw [List.getElem?_set]
  have : i < ps.length := by
    rcases Nat.lt_or_ge i ps.length with h' | h'
    · exact h'
    · simp [List.getElem?_eq_none h'] at h
  simp [this]

/-- A state in which goroutine `i` runs alone from program counter `p`. -/
theorem exec_run_cons (s s' : State) (i : Nat) (p : PC) (k : Nat) (h : s.pcs[i]? = some p)
    (hs : runPc s i p = some s') :
    exec step s (List.replicate (k + 1) (.run i)) = exec step s' (List.replicate k (.run i)) := by
  simp [List.replicate_succ, exec, step, h, hs]

/-- Goroutine `i` finishes the acquire loop alone. -/
theorem solo_acq (s : State) (i : Nat) (h : s.pcs[i]? = some .acqLoad) :
    ∃ k s', exec step s (List.replicate k (.run i)) = some s' ∧
      s'.pcs = s.pcs.set i .idle ∧ s'.capacity = s.capacity ∧ s'.rate = s.rate ∧ s'.lit = s.lit ∧
      s'.clock = s.clock ∧
      s'.tokens = (if s.tokens > 0 then s.tokens - 1 else s.tokens) ∧
      s'.log = s.log ++ [decide (s.tokens > 0)] := by
  by_cases hp : s.tokens > 0
  · refine ⟨2, { s with tokens := s.tokens - 1, log := s.log ++ [true], pcs := s.pcs.set i .idle }, ?_, ?_⟩
    · rw [exec_run_cons s (s.setPc i (.acqCas s.tokens)) i _ 1 h (by simp [runPc, hp])]
      have e := exec_run_cons (s.setPc i (.acqCas s.tokens))
        { s with tokens := s.tokens - 1, log := s.log ++ [true], pcs := s.pcs.set i .idle }
        i (.acqCas s.tokens) 0 (get_set_self h) (by simp [runPc, State.setPc])
      rw [e]
      rfl
    · simp [hp]
  · refine ⟨1, { s with log := s.log ++ [false], pcs := s.pcs.set i .idle }, ?_, ?_⟩
    · rw [exec_run_cons s { s with log := s.log ++ [false], pcs := s.pcs.set i .idle } i _ 0 h
        (by simp [runPc, hp, State.setPc])]
      rfl
    · simp [hp]

/-- One uncontended `Acquire` has exactly the effect of the mutex version. -/
theorem solo_call (s : State) (i : Nat) (h : s.pcs[i]? = some .idle) :
    ∃ k s', exec step s (.call i :: List.replicate k (.run i)) = some s' ∧
      s'.pcs = s.pcs ∧ s'.clock = s.clock ∧
      toSync s' = (TokenBucket.acquire (toSync s) s.clock).1 ∧
      s'.log = s.log ++ [(TokenBucket.acquire (toSync s) s.clock).2] := by
  have hcall : step s (.call i) = some (s.setPc i .issLoadTok) := by simp [step, h]
  have hg : (s.setPc i .issLoadTok).pcs[i]? = some .issLoadTok := get_set_self h
  -- run issueIfNecessary up to acqLoad
  have hiss : ∃ k s1, exec step (s.setPc i .issLoadTok) (List.replicate k (.run i)) = some s1 ∧
      s1.pcs = s.pcs.set i .acqLoad ∧ s1.clock = s.clock ∧ s1.log = s.log ∧
      toSync s1 = TokenBucket.issueIfNecessary (toSync s) s.clock := by
    by_cases h1 : s.tokens ≥ s.capacity
    · refine ⟨1, s.setPc i .acqLoad, ?_, rfl, rfl, rfl, ?_⟩
      · rw [exec_run_cons _ (s.setPc i .acqLoad) i _ 0 hg (by simp [runPc, State.setPc, h1])]
        rfl
      · simp [toSync, TokenBucket.issueIfNecessary, State.setPc, h1]
    · have e1 := exec_run_cons (s.setPc i .issLoadTok) (s.setPc i (.issLoadLit s.tokens)) i _ 
        (k := 2) hg (by simp [runPc, State.setPc, h1])
      have hg2 : (s.setPc i (.issLoadLit s.tokens)).pcs[i]? = some (.issLoadLit s.tokens) :=
        get_set_self h
      have e2 := exec_run_cons (s.setPc i (.issLoadLit s.tokens)) (s.setPc i (.issNow s.tokens s.lit)) i _
        (k := 1) hg2 (by simp [runPc, State.setPc])
      have hg3 : (s.setPc i (.issNow s.tokens s.lit)).pcs[i]? = some (.issNow s.tokens s.lit) :=
        get_set_self h
      by_cases h2 : Int.tdiv (s.clock - s.lit) 1000000000 * s.rate = 0
      · refine ⟨3, s.setPc i .acqLoad, ?_, rfl, rfl, rfl, ?_⟩
        · rw [e1, e2, exec_run_cons _ (s.setPc i .acqLoad) i _ 0 hg3 (by simp [runPc, State.setPc, h2])]
          rfl
        · simp only [toSync, TokenBucket.issueIfNecessary, State.setPc, TokenBucket.second, h1, h2]
          simp
      · -- amount added
        have e1' := exec_run_cons (s.setPc i .issLoadTok) (s.setPc i (.issLoadLit s.tokens)) i _ 
          (k := 4) hg (by simp [runPc, State.setPc, h1])
        have e2' := exec_run_cons (s.setPc i (.issLoadLit s.tokens)) (s.setPc i (.issNow s.tokens s.lit)) i _
          (k := 3) hg2 (by simp [runPc, State.setPc])
        let d := if s.tokens + Int.tdiv (s.clock - s.lit) 1000000000 * s.rate > s.capacity then
          s.capacity - s.tokens else Int.tdiv (s.clock - s.lit) 1000000000 * s.rate
        have e3 := exec_run_cons (s.setPc i (.issNow s.tokens s.lit))
          (s.setPc i (.issCas1 s.tokens s.lit s.clock d)) i _ (k := 2) hg3
          (by simp [runPc, State.setPc, h2, d])
        have hg4 : (s.setPc i (.issCas1 s.tokens s.lit s.clock d)).pcs[i]?
            = some (.issCas1 s.tokens s.lit s.clock d) := get_set_self h
        have e4 := exec_run_cons (s.setPc i (.issCas1 s.tokens s.lit s.clock d))
          ({ s with tokens := s.tokens + d, issues := s.issues + 1 }.setPc i (.issCas2 s.lit s.clock d))
          i _ (k := 1) hg4 (by simp [runPc, State.setPc])
        have hg5 : ({ s with tokens := s.tokens + d, issues := s.issues + 1 }.setPc i
            (.issCas2 s.lit s.clock d)).pcs[i]? = some (.issCas2 s.lit s.clock d) := get_set_self h
        have e5 := exec_run_cons ({ s with tokens := s.tokens + d, issues := s.issues + 1 }.setPc i
            (.issCas2 s.lit s.clock d))
          ({ s with tokens := s.tokens + d, issues := s.issues + 1, lit := s.clock }.setPc i .acqLoad)
          i _ (k := 0) hg5 (by simp [runPc, State.setPc])
        refine ⟨5, ({ s with tokens := s.tokens + d, issues := s.issues + 1, lit := s.clock }.setPc i .acqLoad),
          by rw [e1', e2', e3, e4, e5]; simp [exec], rfl, rfl, rfl, ?_⟩
        simp only [toSync, TokenBucket.issueIfNecessary, State.setPc, TokenBucket.second, h1, h2, d]
        simp only [if_false]
        split
        · simp only [TokenBucket.State.mk.injEq, and_true, true_and]; rename_i hn; simp only [hn, if_true]; omega
        · rename_i hn; simp only [hn, if_false]
  obtain ⟨k1, s1, x1, p1, c1, l1, y1⟩ := hiss
  have hga : s1.pcs[i]? = some .acqLoad := by rw [p1]; exact get_set_self h
  obtain ⟨k2, s2, x2, p2, cc2, r2, li2, c2, t2, l2⟩ := solo_acq s1 i hga
  refine ⟨k1 + k2, s2, ?_, ?_, by rw [c2, c1], ?_, ?_⟩
  · rw [← List.replicate_append_replicate, ← List.cons_append, exec_append]
    simp only [exec, hcall]
    rw [x1]; simpa using x2
  · rw [p2, p1, set_set_self, set_get_self h]
  · have : toSync s2 = { toSync s1 with tokens := (if s1.tokens > 0 then s1.tokens - 1 else s1.tokens) } := by
      simp [toSync, t2, cc2, r2, li2]
    rw [this, TokenBucket.acquire, ← y1]
    by_cases hp : s1.tokens > 0 <;> simp [toSync, hp]
  · rw [l2, l1, TokenBucket.acquire, ← y1]
    by_cases hp : s1.tokens > 0 <;> simp [toSync, hp]

/-- Running goroutine `i` alone reaches `idle` in a unique number of steps. -/
theorem solo_unique (i : Nat) : ∀ (k1 k2 : Nat) (s a b : State),
    exec step s (List.replicate k1 (.run i)) = some a → a.pcs[i]? = some .idle →
    exec step s (List.replicate k2 (.run i)) = some b → b.pcs[i]? = some .idle → a = b := by
  intro k1
  induction k1 with
  | zero =>
    intro k2 s a b ha hia hb hib
    simp [exec] at ha; subst ha
    cases k2 with
    | zero => simpa [exec] using hb
    | succ k2 => simp [List.replicate_succ, exec, step, hia, runPc] at hb
  | succ k1 ih =>
    intro k2 s a b ha hia hb hib
    simp only [List.replicate_succ, exec] at ha
    cases hst : step s (.run i) with
    | none => simp [hst] at ha
    | some s1 =>
      simp only [hst] at ha
      cases k2 with
      | zero =>
        simp [exec] at hb; subst hb
        simp [step, hib, runPc] at hst
      | succ k2 =>
        simp only [List.replicate_succ, exec, hst] at hb
        exact ih k2 s1 a b ha hia hb hib

end Gears.AtomicBucket
