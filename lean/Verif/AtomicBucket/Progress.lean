import Verif.AtomicBucket.Bound

/-
Property C118: calls of `AtomicTokenBucket` cannot keep each other from finishing.

A potential that decreases with every atomic operation.  A failed CAS is paid by the operation that changed the counter, a
roll-back by the commit that moved `lastIssueTimestamp`, and a commit by a second of the clock.
-/

namespace Gears.AtomicBucket

/-! ## Specification -/

/-- Number of calls started in a schedule. -/
def calls (as : List Action) : Nat := as.countP fun a => match a with | .call _ => true | _ => false

/-- Number of atomic operations in a schedule. -/
def runs (as : List Action) : Nat := as.countP fun a => match a with | .run _ => true | _ => false

/-! ## The potential -/

/-- What a goroutine that will fail its CAS of the counter needs more. -/
def late (tok old : Int) : Int := if old = tok then 0 else 5

/-- What a goroutine that will fail its CAS of `lastIssueTimestamp` needs more. -/
def behind (n : Nat) (cur lit : Int) : Int := if lit = cur then 0 else 6 + 10 * n

/-- An upper bound of the operations that a goroutine still needs, and causes others to need, if nothing happens before. -/
def rank (n : Nat) (tok cur : Int) : PC → Int
  | .idle => 0
  | .acqCas old => 1 + 5 * n + late tok old
  | .acqLoad => 2 + 5 * n
  | .issCas2 lit _ _ => 3 + 5 * n + behind n cur lit
  | .issCas1 old lit _ _ => 4 + 10 * n + late tok old + behind n cur lit
  | .issNow old lit => 5 + 10 * n + late tok old + behind n cur lit
  | .issLoadLit old => 6 + 10 * n + late tok old
  | .issLoadTok => 7 + 10 * n
  | .issRollback _ => 8 + 15 * n

def ranks (n : Nat) (tok cur : Int) (ps : List PC) : Int := (ps.map (rank n tok cur)).sum

theorem rank_nonneg (n : Nat) (tok cur : Int) (p : PC) : 0 ≤ rank n tok cur p := by
  cases p <;> simp only [rank, late, behind] <;> (repeat' split) <;> omega

theorem ranks_nonneg (n : Nat) (tok cur : Int) (ps : List PC) : 0 ≤ ranks n tok cur ps := by
  unfold ranks
  induction ps with
  | nil => simp
  | cons p ps ih =>
    have := rank_nonneg n tok cur p
    simp only [List.map_cons, List.sum_cons]; omega

theorem rank_tok (n : Nat) (tok tok' cur : Int) (p : PC) : rank n tok' cur p ≤ rank n tok cur p + 5 := by
  cases p <;> simp only [rank, late, behind] <;> (repeat' split) <;> omega

theorem rank_cur (n : Nat) (tok cur cur' : Int) (p : PC) : rank n tok cur' p ≤ rank n tok cur p + (6 + 10 * n) := by
  cases p <;> simp only [rank, late, behind] <;> (repeat' split) <;> omega

theorem ranks_tok (n : Nat) (tok tok' cur : Int) (ps : List PC) : ranks n tok' cur ps ≤ ranks n tok cur ps + 5 * ps.length := by
  unfold ranks
  induction ps with
  | nil => simp
  | cons p ps ih =>
    have := rank_tok n tok tok' cur p
    simp only [List.map_cons, List.sum_cons, List.length_cons]; omega

theorem ranks_cur (n : Nat) (tok cur cur' : Int) (ps : List PC) : ranks n tok cur' ps ≤ ranks n tok cur ps + (6 + 10 * n) * ps.length := by
  unfold ranks
  induction ps with
  | nil => simp
  | cons p ps ih =>
    have := rank_cur n tok cur cur' p
    simp only [List.map_cons, List.sum_cons, List.length_cons]
    have e : (6 + 10 * (n : Int)) * ((ps.length + 1 : Nat) : Int) = (6 + 10 * n) * ps.length + (6 + 10 * n) := by
      rw [show ((ps.length + 1 : Nat) : Int) = ps.length + 1 by omega, Int.mul_add, Int.mul_one]
    omega

theorem ranks_set (n : Nat) (tok cur : Int) (ps : List PC) (i : Nat) (p q : PC) (h : ps[i]? = some p) :
    ranks n tok cur (ps.set i q) = ranks n tok cur ps - rank n tok cur p + rank n tok cur q := by
  unfold ranks
  induction ps generalizing i with
  | nil => simp at h
  | cons a ps ih =>
    cases i with
    | zero => simp at h; subst h; simp; omega
    | succ i =>
      simp at h
      have := ih i h
      simp only [List.set, List.map_cons, List.sum_cons, this]; omega

/-- Commits that the clock allows, and the goroutines. -/
def potential (t0 : Int) (s : State) : Int :=
  (6 + 10 * s.pcs.length) * s.pcs.length * (secs t0 s.clock - secs t0 s.lit) + ranks s.pcs.length s.tokens s.lit s.pcs

theorem run_potential (c r t0 : Int) (hr : 0 ≤ r) (s : State) (i : Nat) (p : PC) (hi : s.pcs[i]? = some p)
    (s' : State) (inv : Inv c r t0 s) (h : runPc s i p = some s') : potential t0 s' + 1 ≤ potential t0 s := by
  have hpi := inv.hpc i p hi
  have hset := fun q => ranks_set s.pcs.length s.tokens s.lit s.pcs i p q hi
  unfold potential
  cases p with
  | idle => simp [runPc] at h
  | issLoadTok =>
    simp only [runPc] at h
    split at h <;> simp at h <;> subst h <;> simp only [State.setPc, List.length_set, hset, rank, late] <;> simp <;> omega
  | issLoadLit old =>
    simp [runPc] at h; subst h
    simp only [State.setPc, List.length_set, hset, rank, behind]; simp; omega
  | issNow old lit =>
    simp only [runPc] at h
    split at h <;> simp at h <;> subst h <;> simp only [State.setPc, List.length_set, hset, rank, late, behind] <;> (repeat' split) <;> omega
  | issCas1 old lit now d =>
    simp only [runPc] at h
    split at h <;> simp at h <;> subst h
    · have h1 := ranks_tok s.pcs.length s.tokens (old + d) s.lit (s.pcs.set i (.issCas2 lit now d))
      simp only [State.setPc, List.length_set] at h1 ⊢
      rw [hset] at h1
      simp only [rank, late, behind] at h1 ⊢
      (repeat' split at h1) <;> omega
    · rename_i hne
      simp only [State.setPc, List.length_set, hset, rank, late, behind]
      rw [if_neg (fun e => hne e.symm)]
      split <;> omega
  | issCas2 lit now d =>
    obtain ⟨h1, h3, h4, h5, h6⟩ := hpi
    simp only [runPc] at h
    split at h <;> simp at h <;> subst h
    · rename_i hl
      have hs : 1 ≤ (now - lit) / 1000000000 := by
        by_contra hc
        have : r * ((now - lit) / 1000000000) ≤ 0 := Int.mul_nonpos_of_nonneg_of_nonpos hr (by omega)
        omega
      have h2 := ranks_cur s.pcs.length s.tokens s.lit now (s.pcs.set i .acqLoad)
      simp only [State.setPc, List.length_set] at h2 ⊢
      rw [hset] at h2
      simp only [rank, behind, hl] at h2 ⊢
      simp only [if_true] at h2
      have h7 : secs t0 lit + 1 ≤ secs t0 now := by unfold secs; omega
      have h8 : (6 + 10 * (s.pcs.length : Int)) * s.pcs.length * (secs t0 s.clock - secs t0 now) + (6 + 10 * (s.pcs.length : Int)) * s.pcs.length ≤
          (6 + 10 * (s.pcs.length : Int)) * s.pcs.length * (secs t0 s.clock - secs t0 lit) := by
        have h0 : 0 ≤ (6 + 10 * (s.pcs.length : Int)) * s.pcs.length := Int.mul_nonneg (by omega) (by omega)
        have := Int.mul_le_mul_of_nonneg_left (show secs t0 s.clock - secs t0 now + 1 ≤ secs t0 s.clock - secs t0 lit by omega) h0
        rw [Int.mul_add, Int.mul_one] at this
        exact this
      omega
    · rename_i hne
      simp only [State.setPc, List.length_set, hset, rank, behind]
      rw [if_neg (fun e => hne e.symm)]
      omega
  | issRollback d =>
    simp [runPc] at h; subst h
    have h1 := ranks_tok s.pcs.length s.tokens (s.tokens - d) s.lit (s.pcs.set i .issLoadTok)
    simp only [State.setPc, List.length_set] at h1 ⊢
    rw [hset] at h1
    simp only [rank] at h1 ⊢
    omega
  | acqLoad =>
    simp only [runPc] at h
    split at h <;> simp at h <;> subst h <;> simp only [State.setPc, List.length_set, hset, rank, late] <;> simp <;> omega
  | acqCas old =>
    simp only [runPc] at h
    split at h <;> simp at h <;> subst h
    · have h1 := ranks_tok s.pcs.length s.tokens (old - 1) s.lit (s.pcs.set i .idle)
      simp only [State.setPc, List.length_set] at h1 ⊢
      rw [hset] at h1
      simp only [rank, late] at h1 ⊢
      split at h1 <;> omega
    · rename_i hne
      simp only [State.setPc, List.length_set, hset, rank, late]
      rw [if_neg (fun e => hne e.symm)]
      omega

theorem step_length {s s' : State} {a : Action} (h : step s a = some s') : s'.pcs.length = s.pcs.length := by
  cases a with
  | tick d => simp [step] at h; subst h; rfl
  | call i =>
    simp only [step] at h
    split at h
    · simp at h; subst h; simp [State.setPc]
    · simp at h
  | run i =>
    simp only [step] at h
    split at h
    · rename_i p hp
      cases p <;> simp only [runPc] at h <;> (try split at h) <;> simp at h <;> subst h <;> simp [State.setPc]
    · simp at h

/-- The potential pays for a schedule. -/
theorem exec_potential (c r t0 : Int) (hr : 0 ≤ r) (n : Nat) : ∀ (as : List Action) (s s' : State), (∀ a ∈ as, a.Forward) → Inv c r t0 s → s.pcs.length = n →
    exec step s as = some s' →
    potential t0 s' + runs as ≤ potential t0 s + calls as * (7 + 10 * n) + (6 + 10 * n) * n * (secs t0 s'.clock - secs t0 s.clock)
  | [], s, s', _, _, _, h => by
    simp [exec] at h; subst h
    simp [runs, calls]
  | a :: as, s, s', hf, inv, hn, h => by
    simp only [exec] at h
    split at h
    · rename_i s1 h1
      have hfa := hf a (by simp)
      have inv1 := step_inv c r t0 hr s a s1 hfa inv h1
      have hn1 := (step_length h1).trans hn
      have ih := exec_potential c r t0 hr n as s1 s' (fun b hb => hf b (by simp [hb])) inv1 hn1 h
      cases a with
      | tick d =>
        simp [step] at h1; subst h1
        have e1 : runs (.tick d :: as) = runs as := by simp [runs]
        have e2 : calls (.tick d :: as) = calls as := by simp [calls]
        rw [e1, e2]
        simp only [potential, hn] at ih ⊢
        have e : (6 + 10 * (n : Int)) * n * (secs t0 s'.clock - secs t0 s.clock) =
          (6 + 10 * n) * n * (secs t0 s'.clock - secs t0 (s.clock + d)) + ((6 + 10 * n) * n * (secs t0 (s.clock + d) - secs t0 s.lit) -
            (6 + 10 * n) * n * (secs t0 s.clock - secs t0 s.lit)) := by
          simp only [Int.mul_sub]; omega
        omega
      | call i =>
        have e1 : runs (.call i :: as) = runs as := by simp [runs]
        have e2 : calls (.call i :: as) = calls as + 1 := by simp [calls]
        rw [e1, e2]
        simp only [step] at h1
        split at h1
        · rename_i hi
          simp at h1; subst h1
          have e3 : potential t0 (s.setPc i .issLoadTok) = potential t0 s + (7 + 10 * n) := by
            have := ranks_set s.pcs.length s.tokens s.lit s.pcs i _ .issLoadTok hi
            simp only [rank, hn] at this
            simp only [potential, State.setPc, List.length_set, hn, this]; omega
          have e4 : ((calls as + 1 : Nat) : Int) * (7 + 10 * n) = calls as * (7 + 10 * n) + (7 + 10 * n) := by
            rw [show ((calls as + 1 : Nat) : Int) = calls as + 1 by omega, Int.add_mul, Int.one_mul]
          have e5 : (s.setPc i .issLoadTok).clock = s.clock := rfl
          rw [e3, e5] at ih
          omega
        · simp at h1
      | run i =>
        have e1 : runs (.run i :: as) = runs as + 1 := by simp [runs]
        have e2 : calls (.run i :: as) = calls as := by simp [calls]
        rw [e1, e2]
        simp only [step] at h1
        split at h1
        · rename_i p hp
          have h2 := run_potential c r t0 hr s i p hp s1 inv h1
          have e5 : s1.clock = s.clock := by
            cases p <;> simp only [runPc] at h1 <;> (try split at h1) <;> simp at h1 <;> subst h1 <;> rfl
          rw [e5] at ih
          omega
        · simp at h1
    · simp at h

/-! ## C118 -/

/-- **C118**: whatever the schedule, `k` calls of `n` goroutines take at most `(7 + 10n)k` atomic operations, and `(6 + 10n)n` for every second
since the creation of the bucket. -/
theorem C118_operations (c r t0 : Int) (hc : 0 ≤ c) (hr : 0 ≤ r) (n : Nat) (as : List Action) (hf : ∀ a ∈ as, a.Forward) (s : State)
    (h : exec step (init c r t0 n) as = some s) :
    (runs as : Int) ≤ calls as * (7 + 10 * n) + (6 + 10 * n) * n * ((s.clock - t0) / 1000000000) := by
  have inv := exec_inv_on (I := Inv c r t0) (fun a b c' hp hi hs => step_inv c r t0 hr a b c' hp hi hs) as _ _ hf (init_inv c r t0 hc n) h
  have h1 := exec_potential c r t0 hr n as _ _ hf (init_inv c r t0 hc n) (by simp [init]) h
  have h2 : potential t0 (init c r t0 n) = 0 := by
    simp only [potential, init, secs, ranks, List.length_replicate]
    simp [rank]
  have h3 : 0 ≤ potential t0 s := by
    have := ranks_nonneg s.pcs.length s.tokens s.lit s.pcs
    have h0 : 0 ≤ (6 + 10 * (s.pcs.length : Int)) * s.pcs.length * (secs t0 s.clock - secs t0 s.lit) := by
      have := inv.hlit; have := inv.hlit0
      exact Int.mul_nonneg (Int.mul_nonneg (by omega) (by omega)) (by unfold secs; omega)
    unfold potential
    omega
  have e : secs t0 (init c r t0 n).clock = 0 := by simp [init, secs]
  rw [h2, e] at h1
  unfold secs at h1
  rw [Int.sub_zero] at h1
  omega

/-- A goroutine inside a call can always execute its next operation: there is nothing to wait for. -/
theorem C118_enabled (s : State) (i : Nat) (p : PC) (hi : s.pcs[i]? = some p) (hp : p ≠ .idle) : ∃ s', step s (.run i) = some s' := by
  cases p with
  | idle => exact absurd rfl hp
  | _ => simp only [step, hi, runPc]; (repeat' split) <;> exact ⟨_, rfl⟩

/-! ### Every call returns -/

/-- Number of goroutines inside a call. -/
def busy (ps : List PC) : Nat := ps.countP fun p => decide (p ≠ .idle)

theorem busy_set {ps : List PC} {i : Nat} {p : PC} (q : PC) (h : ps[i]? = some p) :
    busy (ps.set i q) + (if p = .idle then 0 else 1) = busy ps + (if q = .idle then 0 else 1) := by
  unfold busy
  induction ps generalizing i with
  | nil => simp at h
  | cons a ps ih =>
    cases i with
    | zero =>
      simp at h; subst h
      simp only [List.set, List.countP_cons]
      by_cases h1 : a = .idle <;> by_cases h2 : q = .idle <;> simp [h1, h2]
    | succ i =>
      simp at h
      have := ih h
      simp only [List.set, List.countP_cons]
      omega

theorem exec_returned : ∀ (as : List Action) (s s' : State), exec step s as = some s' →
    s'.log.length + busy s'.pcs = s.log.length + busy s.pcs + calls as
  | [], s, s', h => by simp [exec] at h; subst h; simp [calls]
  | a :: as, s, s', h => by
    simp only [exec] at h
    split at h
    · rename_i s1 h1
      have ih := exec_returned as s1 s' h
      cases a with
      | tick d =>
        simp [step] at h1; subst h1
        have e2 : calls (.tick d :: as) = calls as := by simp [calls]
        rw [e2]; exact ih
      | call i =>
        have e2 : calls (.call i :: as) = calls as + 1 := by simp [calls]
        simp only [step] at h1
        split at h1
        · rename_i hi
          simp at h1; subst h1
          have := busy_set .issLoadTok hi
          simp only [State.setPc] at ih
          simp at this
          omega
        · simp at h1
      | run i =>
        have e2 : calls (.run i :: as) = calls as := by simp [calls]
        rw [e2, ih]
        simp only [step] at h1
        split at h1
        · rename_i p hp
          have hb := fun q => busy_set q hp
          by_cases hpi : p = .idle
          · subst hpi; simp [runPc] at h1
          · simp only [if_neg hpi] at hb
            have hb0 := hb .idle
            have hb1 : ∀ q, q ≠ .idle → busy (s.pcs.set i q) = busy s.pcs := by
              intro q hq
              have := hb q
              rw [if_neg hq] at this
              omega
            simp at hb0
            cases p <;> simp only [runPc] at h1 <;> (try split at h1) <;> simp at h1 <;> subst h1 <;> simp only [State.setPc] <;>
              first
              | (simp only [List.length_append, List.length_cons, List.length_nil]; omega)
              | (rw [hb1 _ (by simp)])
        · simp at h1
    · simp at h

/-- **C118**: goroutines that go on finish their calls.  `as` is any schedule, `is` what happens after the last call and the last
movement of the clock: it is short, and when no goroutine can go on, all calls have returned, each with one answer. -/
theorem C118_return (c r t0 : Int) (hc : 0 ≤ c) (hr : 0 ≤ r) (n : Nat) (as : List Action) (hf : ∀ a ∈ as, a.Forward) (s : State)
    (h : exec step (init c r t0 n) as = some s) (is : List Nat) (s' : State) (h' : exec step s (is.map .run) = some s') :
    (is.length : Int) ≤ calls as * (7 + 10 * n) + (6 + 10 * n) * n * ((s.clock - t0) / 1000000000) ∧
    ((∀ i, step s' (.run i) = none) → (∀ p ∈ s'.pcs, p = .idle) ∧ s'.log.length = calls as) := by
  have hall : exec step (init c r t0 n) (as ++ is.map .run) = some s' := by rw [exec_append, h]; exact h'
  have hr1 : ∀ is : List Nat, runs (is.map .run) = is.length := by
    intro is; induction is with
    | nil => rfl
    | cons i is ih => simpa [runs] using ih
  have hc1 : ∀ is : List Nat, calls (is.map .run) = 0 := by
    intro is; induction is with
    | nil => rfl
    | cons i is ih => simpa [calls] using ih
  have hc2 : calls (as ++ is.map .run) = calls as := by
    have := hc1 is
    unfold calls at this ⊢
    rw [List.countP_append, this]; rfl
  have hr2 : runs (as ++ is.map .run) = runs as + is.length := by
    have := hr1 is
    unfold runs at this ⊢
    rw [List.countP_append, this]
  have hclock : s'.clock = s.clock := by
    refine exec_inv_on (P := fun a => ∃ i, a = .run i) (I := fun x => x.clock = s.clock) ?_ _ _ _ ?_ rfl h'
    · rintro x _ y ⟨i, rfl⟩ hx h1
      simp only [step] at h1
      split at h1
      · rename_i p hp
        rw [← hx]
        cases p <;> simp only [runPc] at h1 <;> (try split at h1) <;> simp at h1 <;> subst h1 <;> rfl
      · simp at h1
    · intro a ha
      obtain ⟨i, -, rfl⟩ := List.mem_map.1 ha
      exact ⟨i, rfl⟩
  refine ⟨?_, ?_⟩
  · have h1 := C118_operations c r t0 hc hr n _ (fun a ha => by
      rcases List.mem_append.1 ha with h1 | h1
      · exact hf a h1
      · obtain ⟨i, -, rfl⟩ := List.mem_map.1 h1
        trivial) s' hall
    rw [hc2, hr2, hclock] at h1
    omega
  · intro hno
    have hidle : ∀ p ∈ s'.pcs, p = .idle := by
      intro p hp
      obtain ⟨i, hi⟩ := List.mem_iff_getElem?.1 hp
      by_contra hne
      obtain ⟨s2, h2⟩ := C118_enabled s' i p hi hne
      rw [hno i] at h2
      cases h2
    refine ⟨hidle, ?_⟩
    have h1 := exec_returned _ _ _ hall
    have h2 : busy s'.pcs = 0 := by
      unfold busy
      rw [List.countP_eq_zero]
      intro p hp
      simp [hidle p hp]
    have h3 : busy (init c r t0 n).pcs = 0 := by
      unfold busy
      rw [List.countP_eq_zero]
      intro p hp
      simp [init] at hp
      simp [hp.2]
    have h4 : (init c r t0 n).log.length = 0 := rfl
    omega

/-! ### No bound for a single call -/

/-- A round: goroutine 1 takes a token, so goroutine 0 has to load the counter again. -/
theorem lose (s : State) (hp : s.pcs = [.acqCas s.tokens, .idle]) (ht : 1 < s.tokens) (h0 : s.lit = s.clock) :
    ∃ bs : List Nat, (∀ b ∈ bs, b = 1) ∧ exec step s (.call 1 :: (bs.map .run ++ [.run 0, .run 0])) =
      some { s with tokens := s.tokens - 1, log := s.log ++ [true], pcs := [.acqCas (s.tokens - 1), .idle] } := by
  have hd : Int.tdiv (s.clock - s.lit) 1000000000 = 0 := by rw [h0, Int.sub_self]; rfl
  have e1 : ¬ s.tokens - 1 = s.tokens := by omega
  have e2 : 0 < s.tokens - 1 := by omega
  by_cases hc : s.capacity ≤ s.tokens
  · refine ⟨[1, 1, 1], by simp, ?_⟩
    simp [exec, step, hp, State.setPc, runPc, hc, show 0 < s.tokens by omega, ht]
  · refine ⟨[1, 1, 1, 1, 1], by simp, ?_⟩
    simp [exec, step, hp, State.setPc, runPc, hc, show 0 < s.tokens by omega, ht, hd]

/-- Operations of goroutine `i` in a schedule. -/
def ops (i : Nat) (as : List Action) : Nat := as.countP fun a => decide (a = .run i)

theorem lose_all : ∀ (k : Nat) (s : State), s.pcs = [.acqCas s.tokens, .idle] → k < s.tokens → s.lit = s.clock →
    ∃ (as : List Action) (s' : State), (∀ a ∈ as, (∀ d, a ≠ .tick d) ∧ a ≠ .call 0) ∧ exec step s as = some s' ∧ ops 0 as = 2 * k ∧ s'.pcs[0]? = some (.acqCas (s.tokens - k))
  | 0, s, hp, _, _ => ⟨[], s, by simp, rfl, rfl, by simp [hp]⟩
  | k + 1, s, hp, hk, h0 => by
    obtain ⟨bs, hb, h1⟩ := lose s hp (by omega) h0
    obtain ⟨as, s', ha, h2, h3, h4⟩ := lose_all k { s with tokens := s.tokens - 1, log := s.log ++ [true], pcs := [.acqCas (s.tokens - 1), .idle] } rfl
      (by simp only; omega) h0
    refine ⟨(.call 1 :: (bs.map .run ++ [.run 0, .run 0])) ++ as, s', ?_, by rw [exec_append, h1]; exact h2, ?_, ?_⟩
    · intro a hm
      rcases List.mem_append.1 hm with hm | hm
      · simp at hm
        rcases hm with rfl | ⟨b, -, rfl⟩ | rfl <;> simp
      · exact ha a hm
    · have h5 : ops 0 (bs.map .run) = 0 := by
        unfold ops
        rw [List.countP_eq_zero]
        intro a hm
        obtain ⟨b, hb', rfl⟩ := List.mem_map.1 hm
        simp [hb b hb']
      unfold ops at h3 h5 ⊢
      simp only [List.countP_append, List.countP_cons, List.countP_nil, h5, h3]
      simp; omega
    · rw [h4]; simp only; congr 2; omega

/-- **C118**: the bound is one for all calls together; a single call has none: others can make it try again as often as there are tokens. -/
theorem C118_individual (c k : Nat) (hk : k < c) (r t0 : Int) :
    ∃ (as : List Action) (s : State), (∀ a ∈ as, ∀ d, a ≠ .tick d) ∧ exec step (init c r t0 2) (.call 0 :: as) = some s ∧ Action.call 0 ∉ as ∧
      ops 0 as = 2 * k + 2 ∧ ∃ p, s.pcs[0]? = some p ∧ p ≠ .idle := by
  obtain ⟨as, s, h1, h2, h3, h4⟩ := lose_all k { init c r t0 2 with pcs := [.acqCas c, .idle] } rfl (by simp [init]; omega) rfl
  refine ⟨.run 0 :: .run 0 :: as, s, ?_, ?_, ?_, ?_, _, h4, by simp⟩
  · intro a ha d
    simp at ha
    rcases ha with rfl | ha
    · simp
    · exact (h1 a ha).1 d
  · rw [← h2]
    have : 0 < c := by omega
    simp [exec, step, init, State.setPc, runPc, List.replicate, this]
  · intro hm
    simp at hm
    exact (h1 _ hm).2 rfl
  · unfold ops at h3 ⊢
    simp [List.countP_cons, h3]

/-- Two goroutines, capacity 1: both load the only token, one CAS fails, its goroutine reloads and is rejected: 2 calls, 7 operations. -/
example : ∃ s, exec step (init 1 1 0 2) [.call 0, .call 1, .run 0, .run 1, .run 0, .run 1, .run 0, .run 1, .run 1] = some s ∧
    s.log = [true, false] ∧ s.pcs = [.idle, .idle] := by
  exact ⟨_, rfl, rfl, rfl⟩

end Gears.AtomicBucket
