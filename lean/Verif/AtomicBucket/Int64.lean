import Verif.AtomicBucket.Bound
import Verif.TokenBucket.Int64

/-
C121: AtomicTokenBucket (/repo/ratelimiter/tokenbucket.go:106-177) in the 64-bit arithmetic of Go, for any number of goroutines.

The model `step` computes in unbounded integers; `stepW` below wraps every sum, difference and product around at 2^63, as
Go does.  Clock readings (`UnixNano`) are taken to lie within 0 and 2^63 - 1 (until the year 2262).
-/

namespace Gears.AtomicBucket

open Gears.Procs (wrap wrap_of)

/-- `runPc` (tokenbucket.go:119-177) in 64-bit arithmetic. -/
def runPcW (s : State) (i : Nat) : PC → Option State
  | .idle => none
  | .issLoadTok =>
    if s.tokens ≥ s.capacity then some (s.setPc i .acqLoad)
    else some (s.setPc i (.issLoadLit s.tokens))
  | .issLoadLit old => some (s.setPc i (.issNow old s.lit))
  -- 149-159
  | .issNow old lit =>
    let delta := wrap (Int.tdiv (wrap (s.clock - lit)) 1000000000 * s.rate)
    if delta = 0 then some (s.setPc i .acqLoad)
    else
      let delta := if wrap (old + delta) > s.capacity then wrap (s.capacity - old) else delta
      some (s.setPc i (.issCas1 old lit s.clock delta))
  -- 161
  | .issCas1 old lit now delta =>
    if s.tokens = old then
      some ({ s with tokens := wrap (old + delta), issues := s.issues + 1 }.setPc i (.issCas2 lit now delta))
    else some (s.setPc i .issLoadTok)
  | .issCas2 lit now delta =>
    if s.lit = lit then some ({ s with lit := now }.setPc i .acqLoad)
    else some (s.setPc i (.issRollback delta))
  -- 169
  | .issRollback delta =>
    some ({ s with tokens := wrap (s.tokens + wrap (-delta)), rolled := s.rolled + delta }.setPc i .issLoadTok)
  | .acqLoad =>
    if s.tokens > 0 then some (s.setPc i (.acqCas s.tokens))
    else some ({ s with log := s.log ++ [false] }.setPc i .idle)
  -- 126
  | .acqCas old =>
    if s.tokens = old then
      some ({ s with tokens := wrap (old - 1), log := s.log ++ [true] }.setPc i .idle)
    else some (s.setPc i .acqLoad)

/-- One scheduler step in 64-bit arithmetic. -/
def stepW (s : State) : Action → Option State
  | .tick d => some { s with clock := s.clock + d }
  | .call i =>
    match s.pcs[i]? with
    | some .idle => some (s.setPc i .issLoadTok)
    | _ => none
  | .run i =>
    match s.pcs[i]? with
    | some p => runPcW s i p
    | none => none

/-- Specification: nanoseconds that pass during a schedule. -/
def elapsed (as : List Action) : Int := (as.map fun | .tick d => d | _ => 0).sum

/-- The number of tokens a goroutine has read and not yet used. -/
def seen : PC → Int
  | .issLoadLit old => old
  | .issNow old _ => old
  | .issCas1 old _ _ _ => old
  | _ => 0

/-- After `N` steps: no counter is below `-N`. -/
structure Low (c N : Int) (s : State) : Prop where
  adm  : (s.admitted : Int) ≤ N
  cons : c + pending s.pcs ≤ s.tokens + s.admitted
  seen : ∀ (i : Nat) (p : PC), s.pcs[i]? = some p → -N ≤ seen p

theorem pending_nonneg {c r t0 k : Int} : ∀ (ps : List PC), (∀ (i : Nat) (p : PC), ps[i]? = some p → PCok c r t0 k p) → 0 ≤ pending ps
  | [], _ => by simp [pending]
  | p :: ps, h => by
    have h1 : 0 ≤ pend p := by
      have := h 0 p rfl
      cases p <;> simp only [PCok, pend] at this ⊢ <;> omega
    have h2 := pending_nonneg ps fun i q hq => h (i + 1) q (by simpa using hq)
    have : pending (p :: ps) = pend p + pending ps := by simp [pending]
    omega

theorem seen_set {N N' : Int} (hN : N ≤ N') {ps : List PC} {i : Nat} {q : PC}
    (h : ∀ (j : Nat) (p : PC), ps[j]? = some p → -N ≤ seen p) (hq : -N' ≤ seen q) :
    ∀ (j : Nat) (p : PC), (ps.set i q)[j]? = some p → -N' ≤ seen p := by
  intro j p hj
  rw [List.getElem?_set] at hj
  split at hj
  · split at hj
    · simp at hj; subst hj; exact hq
    · simp at hj
  · have := h j p hj; omega

theorem run_low {c r t0 N : Int} {s : State} {i : Nat} {p : PC} (hi : s.pcs[i]? = some p) {s' : State} (hc : 0 ≤ c) (hN : 0 ≤ N)
    (inv : Inv c r t0 s) (low : Low c N s) (h : runPc s i p = some s') : Low c (N + 1) s' := by
  have hset := fun q => pending_set s.pcs i p q hi
  have hp0 := pending_nonneg s.pcs inv.hpc
  have hsi := low.seen i p hi
  obtain ⟨ha, hco, hse⟩ := low
  unfold State.admitted at *
  have htok : -N ≤ s.tokens := by omega
  have hss : ∀ q, -(N + 1) ≤ seen q → ∀ (j : Nat) (p : PC), (s.pcs.set i q)[j]? = some p → -(N + 1) ≤ seen p :=
    fun q hq => seen_set (by omega) hse hq
  cases p with
  | idle => simp [runPc] at h
  | issLoadTok =>
    simp only [runPc] at h
    split at h <;> simp at h <;> subst h <;> refine ⟨?_, ?_, hss _ ?_⟩ <;> simp only [State.setPc, State.admitted, hset, pend, seen] <;> omega
  | issLoadLit old =>
    simp [runPc] at h; subst h
    simp only [seen] at hsi
    refine ⟨?_, ?_, hss _ ?_⟩ <;> simp only [State.setPc, State.admitted, hset, pend, seen] <;> omega
  | issNow old lit =>
    simp only [runPc] at h
    simp only [seen] at hsi
    split at h <;> simp at h <;> subst h <;> refine ⟨?_, ?_, hss _ ?_⟩ <;> simp only [State.setPc, State.admitted, hset, pend, seen] <;> omega
  | issCas1 old lit now d =>
    simp only [runPc] at h
    split at h <;> simp at h <;> subst h <;> refine ⟨?_, ?_, hss _ ?_⟩ <;> simp only [State.setPc, State.admitted, hset, pend, seen] <;> omega
  | issCas2 lit now d =>
    obtain ⟨h1, -⟩ := inv.hpc i _ hi
    simp only [runPc] at h
    split at h <;> simp at h <;> subst h <;> refine ⟨?_, ?_, hss _ ?_⟩ <;> simp only [State.setPc, State.admitted, hset, pend, seen] <;> omega
  | issRollback d =>
    simp [runPc] at h; subst h
    refine ⟨?_, ?_, hss _ ?_⟩ <;> simp only [State.setPc, State.admitted, hset, pend, seen] <;> omega
  | acqLoad =>
    simp only [runPc] at h
    split at h <;> simp at h <;> subst h <;> refine ⟨?_, ?_, hss _ ?_⟩ <;> simp [State.setPc, State.admitted, hset, pend, seen] <;> omega
  | acqCas old =>
    simp only [runPc] at h
    split at h <;> simp at h <;> subst h <;> refine ⟨?_, ?_, hss _ ?_⟩ <;> simp [State.setPc, State.admitted, hset, pend, seen] <;> omega

theorem Low.mono {c N N' : Int} {s : State} (h : Low c N s) (hN : N ≤ N') : Low c N' s :=
  ⟨by have := h.adm; omega, h.cons, fun i p hp => by have := h.seen i p hp; omega⟩

theorem step_low {c r t0 N : Int} {s s' : State} {a : Action} (hc : 0 ≤ c) (hN : 0 ≤ N)
    (inv : Inv c r t0 s) (low : Low c N s) (h : step s a = some s') : Low c (N + 1) s' := by
  cases a with
  | tick d =>
    simp [step] at h; subst h
    exact ⟨by have := low.adm; unfold State.admitted at *; simp; omega, low.cons, fun i p hp => by have := low.seen i p hp; omega⟩
  | call i =>
    simp only [step] at h
    split at h
    · rename_i hi
      simp at h; subst h
      have h1 := low.adm
      have h2 := low.cons
      refine ⟨?_, ?_, seen_set (by omega) low.seen ?_⟩ <;>
        simp only [State.setPc, State.admitted, pending_set s.pcs i _ _ hi, pend, seen] at * <;> omega
    · simp at h
  | run i =>
    simp only [step] at h
    split at h
    · rename_i p hp
      exact run_low hp hc hN inv low h
    · simp at h

theorem runW_eq {c r t0 T N : Int} {s : State} {i : Nat} {p : PC} (hi : s.pcs[i]? = some p) (hc : 0 ≤ c) (hr : 0 ≤ r) (h0 : 0 ≤ t0)
    (hT : s.clock ≤ T) (hT63 : T < 2 ^ 63) (hfit : c + r * ((T - t0) / 1000000000) < 2 ^ 63) (hN0 : 0 ≤ N) (hN : N < 2 ^ 63)
    (inv : Inv c r t0 s) (low : Low c N s) : runPcW s i p = runPc s i p := by
  have hpi := inv.hpc i p hi
  have hsi := low.seen i p hi
  have hp0 := pending_nonneg s.pcs inv.hpc
  have htok : -N ≤ s.tokens := by have := low.adm; have := low.cons; omega
  have hcap := inv.hcap
  have hrate := inv.hrate
  have htc := inv.htok
  have hS : ∀ now lit : Int, t0 ≤ lit → lit ≤ now → now ≤ T → r * ((now - lit) / 1000000000) ≤ r * ((T - t0) / 1000000000) :=
    fun now lit h1 h2 h3 => Int.mul_le_mul_of_nonneg_left (by omega) hr
  have hR : 0 ≤ r * ((T - t0) / 1000000000) := by
    have := inv.hlit0; have := inv.hlit
    exact Int.mul_nonneg hr (Int.ediv_nonneg (by omega) (by decide))
  cases p with
  | idle => rfl
  | issLoadTok => rfl
  | issLoadLit old => rfl
  | issNow old lit =>
    obtain ⟨h1, h2, h3⟩ := hpi
    simp only [seen] at hsi
    have hd : Int.tdiv (s.clock - lit) 1000000000 = (s.clock - lit) / 1000000000 :=
      Int.tdiv_eq_ediv_of_nonneg (by omega)
    have hq : 0 ≤ (s.clock - lit) / 1000000000 := Int.ediv_nonneg (by omega) (by decide)
    have hA : 0 ≤ (s.clock - lit) / 1000000000 * r := Int.mul_nonneg hq hr
    have hle := hS s.clock lit h2 h3 hT
    rw [Int.mul_comm] at hle
    have e1 : wrap (s.clock - lit) = s.clock - lit := wrap_of (by omega) (by omega)
    have e2 : wrap ((s.clock - lit) / 1000000000 * r) = (s.clock - lit) / 1000000000 * r := wrap_of (by omega) (by omega)
    have e3 : wrap (old + (s.clock - lit) / 1000000000 * r) = old + (s.clock - lit) / 1000000000 * r := wrap_of (by omega) (by omega)
    simp only [runPcW, runPc, e1, hd, hrate, e2, e3]
    by_cases hgt : old + (s.clock - lit) / 1000000000 * r > s.capacity
    · rw [if_pos hgt, if_pos hgt, wrap_of (x := s.capacity - old) (by omega) (by omega)]
    · rw [if_neg hgt, if_neg hgt]
  | issCas1 old lit now d =>
    obtain ⟨h1, h2, h3, h4, h5, h6⟩ := hpi
    simp only [seen] at hsi
    simp only [runPcW, runPc]
    rw [wrap_of (x := old + d) (by omega) (by omega)]
  | issCas2 lit now d => rfl
  | issRollback d =>
    have hl := (run_low hi hc hN0 inv low (s' := { s with tokens := s.tokens - d, rolled := s.rolled + d }.setPc i .issLoadTok) rfl)
    have h1 := hl.adm
    have h2 := hl.cons
    have hd : 0 < d := hpi
    have h3 : 0 ≤ pending (s.pcs.set i .issLoadTok) := pending_nonneg _ (pcs_set inv.hpc (q := .issLoadTok) trivial)
    simp only [State.setPc, State.admitted] at h1 h2
    have e : wrap (s.tokens + wrap (-d)) = wrap (s.tokens - d) := by unfold wrap; omega
    simp only [runPcW, runPc]
    rw [e, wrap_of (x := s.tokens - d) (by omega) (by omega)]
  | acqLoad => rfl
  | acqCas old =>
    have : 0 < old := hpi
    simp only [runPcW, runPc]
    split
    · rw [wrap_of (x := old - 1) (by omega) (by omega)]
    · rfl

theorem elapsed_nonneg : ∀ as : List Action, (∀ a ∈ as, a.Forward) → 0 ≤ elapsed as
  | [], _ => by simp [elapsed]
  | a :: as, h => by
    have h1 := elapsed_nonneg as fun x hx => h x (by simp [hx])
    have h2 := h a (by simp)
    cases a <;> simp [elapsed, Action.Forward] at h1 h2 ⊢ <;> omega

theorem execW_eq {c r t0 T : Int} (hc : 0 ≤ c) (hr : 0 ≤ r) (h0 : 0 ≤ t0) (hT63 : T < 2 ^ 63) (hfit : c + r * ((T - t0) / 1000000000) < 2 ^ 63) :
    ∀ (as : List Action) (s : State) (N : Int), (∀ a ∈ as, a.Forward) → 0 ≤ N → N + as.length ≤ 2 ^ 63 → s.clock + elapsed as ≤ T →
      Inv c r t0 s → Low c N s → exec stepW s as = exec step s as
  | [], _, _, _, _, _, _, _, _ => rfl
  | a :: as, s, N, hf, hN0, hN, hT, inv, low => by
    have hfa := hf a (by simp)
    have hel := elapsed_nonneg as fun x hx => hf x (by simp [hx])
    have hcl : s.clock ≤ T := by
      have := elapsed_nonneg (a :: as) hf
      omega
    simp only [List.length_cons] at hN
    have he : stepW s a = step s a := by
      cases a with
      | tick d => rfl
      | call i => rfl
      | run i =>
        simp only [stepW, step]
        cases hi : s.pcs[i]? with
        | none => rfl
        | some p => exact runW_eq hi hc hr h0 hcl hT63 hfit hN0 (by omega) inv low
    simp only [exec, he]
    cases hs : step s a with
    | none => rfl
    | some s' =>
      have hclock : s'.clock + elapsed as ≤ T := by
        have : s'.clock + elapsed as = s.clock + elapsed (a :: as) := by
          cases a with
          | tick d => simp [step] at hs; subst hs; simp [elapsed]; omega
          | call i =>
            simp only [step] at hs
            split at hs <;> simp at hs
            subst hs; simp [elapsed, State.setPc]
          | run i =>
            have hk : s'.clock = s.clock := by
              simp only [step] at hs
              split at hs
              · rename_i p hp
                cases p <;> simp only [runPc] at hs <;> (try split at hs) <;> simp at hs <;> subst hs <;> rfl
              · simp at hs
            simp [elapsed, hk]
        omega
      exact execW_eq hc hr h0 hT63 hfit as s' (N + 1) (fun x hx => hf x (by simp [hx])) (by omega) (by omega) hclock
        (step_inv c r t0 hr s a s' hfa inv hs) (step_low hc hN0 inv low hs)

/-- The full statement of C121: in 64-bit arithmetic the bucket decides as without bounds, whatever the goroutines do. -/
def C121Claim : Prop := ∀ (c r t0 : Int) (n : Nat) (as : List Action), 0 ≤ c → c < 2 ^ 63 → 0 ≤ r → r < 2 ^ 63 → 0 ≤ t0 →
  (∀ a ∈ as, a.Forward) → t0 + elapsed as < 2 ^ 63 → as.length ≤ 2 ^ 63 →
  (exec stepW (init c r t0 n) as).map State.log = (exec step (init c r t0 n) as).map State.log

/-- **C121** (partial): as long as capacity + rate · seconds fits into 63 bits, for any number of goroutines and every schedule of at
most 2^63 steps, no counter wraps around: the runs are the same.  So C05, C06, C07 and C118, proved without bounds, hold of the code.
Missing: larger rates. -/
theorem C121_exact_partial (c r t0 : Int) (hc : 0 ≤ c) (hr : 0 ≤ r) (h0 : 0 ≤ t0) (n : Nat) (as : List Action) (hf : ∀ a ∈ as, a.Forward)
    (hT : t0 + elapsed as < 2 ^ 63) (hlen : as.length ≤ 2 ^ 63) (hfit : c + r * (elapsed as / 1000000000) < 2 ^ 63) :
    exec stepW (init c r t0 n) as = exec step (init c r t0 n) as := by
  refine execW_eq (T := t0 + elapsed as) hc hr h0 hT (by rwa [show t0 + elapsed as - t0 = elapsed as by omega]) as _ 0 hf (by omega) (by omega)
    (by simp [init]) (init_inv c r t0 hc n) ⟨?_, ?_, ?_⟩
  · simp [init, State.admitted]
  · have h0 : pending (init c r t0 n).pcs = 0 := pending_zero _ (by intro p hp; simp [init] at hp; exact hp.2)
    rw [h0]
    simp [init]
  · intro i p hp
    simp [init, List.getElem?_replicate] at hp
    obtain ⟨_, rfl⟩ := hp
    simp [seen]

/-- What callers see of it: at most `capacity + n · rate · seconds` calls are admitted, in 64-bit arithmetic too. -/
theorem C121_bound_partial (c r t0 : Int) (hc : 0 ≤ c) (hr : 0 ≤ r) (h0 : 0 ≤ t0) (n : Nat) (hn : 1 ≤ n) (as : List Action)
    (hf : ∀ a ∈ as, a.Forward) (hT : t0 + elapsed as < 2 ^ 63) (hlen : as.length ≤ 2 ^ 63)
    (hfit : c + r * (elapsed as / 1000000000) < 2 ^ 63) (s : State) (h : exec stepW (init c r t0 n) as = some s) :
    s.tokens ≤ c ∧ (s.admitted : Int) ≤ c + n * (r * ((s.clock - t0) / 1000000000)) := by
  rw [C121_exact_partial c r t0 hc hr h0 n as hf hT hlen hfit] at h
  exact ⟨(exec_inv_on (I := Inv c r t0) (fun a b c' hp hi hs => step_inv c r t0 hr a b c' hp hi hs) as _ _ hf (init_inv c r t0 hc n) h).htok,
    C07_goroutines_bound_partial c r t0 hc hr n hn as hf s h⟩

/-- One undisturbed call of goroutine 0 that issues, and finds tokens. -/
def callIssue : List Action := [.call 0, .run 0, .run 0, .run 0, .run 0, .run 0, .run 0]

/-- **C121** (violated): a single goroutine and 2^62 tokens per second: after two idle seconds the call is refused; without bounds it is
    admitted. -/
theorem C121_violated : ¬ C121Claim ∧
    (exec stepW (init 2 (2 ^ 62) 0 1) ([.call 0, .run 0, .run 0, .run 0, .tick 2000000000] ++ callIssue)).map State.log = some [true, false] ∧
    (exec step (init 2 (2 ^ 62) 0 1) ([.call 0, .run 0, .run 0, .run 0, .tick 2000000000] ++ callIssue ++ [.run 0])).map State.log =
      some [true, true] := by
  refine ⟨fun h => ?_, by decide, by decide⟩
  have := h 2 (2 ^ 62) 0 1 ([.call 0, .run 0, .run 0, .run 0, .tick 2000000000] ++ callIssue) (by decide) (by decide) (by decide) (by decide)
    (by decide) (by simp [callIssue, Action.Forward]) (by decide) (by decide)
  revert this
  decide

/-- **C121** (violated): with the greatest rate and two goroutines the bucket comes to hold more than its capacity (against C06): the first
    issues -2 tokens, the second fills the bucket, the first takes its -2 tokens back. -/
theorem C121_overfull_violated :
    (exec stepW (init 5 (2 ^ 63 - 1) 0 2) ([.call 0, .run 0, .run 0, .run 0, .call 0, .run 0, .run 0, .run 0, .run 0, .run 0] ++
      [.tick 2000000000, .call 0, .run 0, .run 0, .run 0, .run 0] ++ [.tick 1000000000, .call 1, .run 1, .run 1, .run 1, .run 1, .run 1] ++
      [.run 0, .run 0])).map (·.tokens) = some 7 := by decide

example : C121Claim → False := C121_violated.1

/-- A day with a million tokens per second is far from the limit. -/
example : (1000000 : Int) + 1000000 * (86400000000000 / 1000000000) < 2 ^ 63 := by decide

end Gears.AtomicBucket
