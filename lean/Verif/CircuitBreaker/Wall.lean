import Verif.CircuitBreaker.Props
import Verif.Common.Wall

/-
C146 for the circuit breaker (circuitbreaker/circuitbreaker.go:75-119): a wall clock that is set.
-/

namespace Gears.CircuitBreaker

/-- A call: when it decides, what its task would do, when it would record a failure. -/
structure WallCall where
  moment : Wall
  task   : Outcome
  failAt : Wall

def WallCall.clocks (c : WallCall) : Int × Outcome × Int := (c.moment.reading, c.task, c.failAt.reading)

/-- The breaker and the events after some calls. -/
def after (th to : Int) (cs : List WallCall) : Breaker × List Ev := (new th to).runSeq 0 (cs.map WallCall.clocks)

/-- Whether the task of a further call is run. -/
def Runs (th to : Int) (cs : List WallCall) (c : WallCall) : Prop :=
  ∃ rest, ((after th to cs).1.doSeq cs.length c.moment.reading c.task c.failAt.reading).2 =
    .start cs.length c.moment.reading :: .finish cs.length c.task :: rest

/-- **C146**, the claim for the breaker: when the timeout has passed in real time since every failure, the task is run;
and while it has not passed since the last one of at least `threshold` failures since the last success, it is not. -/
def C146BreakerClaim : Prop :=
  ∀ (th to : Int) (cs : List WallCall) (c : WallCall), 1 ≤ th → 0 ≤ to →
    ((∀ d ∈ cs, (∃ e, d.task = .err e) → d.failAt.real + to < c.moment.real) → Runs th to cs c) ∧
    (∀ d ∈ cs, (failuresSince (after th to cs).2).head? = some d.failAt.reading →
      th ≤ (failuresSince (after th to cs).2).length → c.moment.real ≤ d.failAt.real + to → ¬ Runs th to cs c)

theorem runSeq_failTs : ∀ (cs : List (Int × Outcome × Int)) (b : Breaker) (i : Nat), ∀ e ∈ (b.runSeq i cs).2, ∀ t, e.failTs = some t →
    ∃ c ∈ cs, c.2.2 = t ∧ ∃ e, c.2.1 = .err e
  | [], b, i, e, he, _, _ => by simp [Breaker.runSeq] at he
  | (now, o, now2) :: cs, b, i, e, he, t, ht => by
    simp only [Breaker.runSeq, List.mem_append] at he
    rcases he with he | he
    · refine ⟨(now, o, now2), by simp, ?_⟩
      unfold Breaker.doSeq at he
      cases hm : b.mode now <;> rw [hm] at he <;> cases o <;> simp at he <;> grind [Ev.failTs]
    · obtain ⟨c, hc, h⟩ := runSeq_failTs cs _ _ e he t ht
      exact ⟨c, List.mem_cons_of_mem _ hc, h⟩

/-- The recorded failures are readings of the clock of some call. -/
theorem failure_of (th to : Int) (cs : List WallCall) (t : Int) (h : t ∈ failuresSince (after th to cs).2) :
    ∃ d ∈ cs, d.failAt.reading = t ∧ ∃ e, d.task = .err e := by
  unfold failuresSince at h
  obtain ⟨e, he, ht⟩ := List.mem_filterMap.1 h
  have hm : e ∈ (after th to cs).2 := by
    unfold sinceSuccess at he
    exact List.mem_reverse.1 ((List.takeWhile_sublist _).subset he)
  obtain ⟨c, hc, h2⟩ := runSeq_failTs _ _ _ e hm t ht
  obtain ⟨d, hd, rfl⟩ := List.mem_map.1 hc
  exact ⟨d, hd, h2⟩

theorem runs_iff (th to : Int) (cs : List WallCall) (c : WallCall) :
    Runs th to cs c ↔ ((failuresSince (after th to cs).2).length < th ∨
      c.moment.reading - (failuresSince (after th to cs).2).head?.getD 0 > to) := by
  have := (C23_sequential th to (cs.map WallCall.clocks) c.moment.reading c.task c.failAt.reading).1
  simpa [Runs, after] using this

/-- **C146, partial**: the task is run when the timeout and `B` have passed in real time since every call with a failing
task, `B` being at least what the clock was set back since. -/
theorem C146_breaker_recovers_partial (th to B : Int) (hth : 1 ≤ th) (cs : List WallCall) (c : WallCall)
    (h : ∀ d ∈ cs, (∃ e, d.task = .err e) → d.failAt.real + to + B < c.moment.real ∧ d.failAt.off ≤ c.moment.off + B) : Runs th to cs c := by
  rw [runs_iff]
  cases hf : failuresSince (after th to cs).2 with
  | nil => left; simp; omega
  | cons t ts =>
    right
    obtain ⟨d, hd, rfl, he⟩ := failure_of th to cs t (by rw [hf]; simp)
    have := h d hd he
    simp only [List.head?_cons, Option.getD_some]
    unfold Wall.reading
    omega

/-- **C146, partial**: the breaker stays open for the timeout less `B`, `B` being at least what the clock was set ahead
since. -/
theorem C146_breaker_open_partial (th to B : Int) (cs : List WallCall) (c d : WallCall)
    (hlast : (failuresSince (after th to cs).2).head? = some d.failAt.reading)
    (hth : th ≤ (failuresSince (after th to cs).2).length)
    (h1 : c.moment.real ≤ d.failAt.real + to - B) (h2 : c.moment.off ≤ d.failAt.off + B) : ¬ Runs th to cs c := by
  rw [runs_iff, hlast]
  simp only [Option.getD_some]
  unfold Wall.reading
  omega

theorem fail_until (to : Int) (n : Nat) : ∀ (k i : Nat) (b : Breaker), b.timeout = to → b.threshold = n → 0 ≤ to →
    b.failures + k = n → (b.lastTs = 0) →
    (b.runSeq i (List.replicate k ((0 : Int), Outcome.err 0, (0 : Int)))).1 = { b with failures := n, lastTs := 0 }
  | 0, i, b, _, _, _, h, h0 => by
    obtain ⟨a1, a2, a3, a4⟩ := b
    simp only [Int.natCast_zero, Int.add_zero] at h h0
    subst h h0
    rfl
  | k + 1, i, b, h1, h2, h3, h4, h5 => by
    have hm : b.mode 0 = .closed := by
      unfold Breaker.mode
      rw [if_neg (by omega), if_neg (by omega)]
    simp only [List.replicate_succ, Breaker.runSeq, Breaker.doSeq, hm]
    rw [fail_until to n k (i + 1) (b.recordFailure 0) h1 h2 h3 (by simp only [Breaker.recordFailure]; omega) rfl]
    rfl

/-- **C146 is violated**: after `n` failures at one moment, a clock that is set back by `B` keeps the breaker open for the
timeout and `B` more. -/
theorem C146_breaker_refuses_violated (n : Nat) (to B : Int) (hto : 0 ≤ to) (x : Int) (hx : x ≤ to + B) (c : WallCall)
    (hc : c.moment = ⟨x, -B⟩) : ¬ Runs n to (List.replicate n ⟨⟨0, 0⟩, .err 0, ⟨0, 0⟩⟩) c := by
  have hb : (after n to (List.replicate n ⟨⟨0, 0⟩, .err 0, ⟨0, 0⟩⟩)).1 = ⟨n, to, n, 0⟩ := by
    unfold after
    have := fail_until to n n 0 (new n to) rfl rfl hto (by simp [new]) rfl
    simpa [WallCall.clocks, Wall.reading, new] using this
  rintro ⟨rest, h⟩
  rw [hb, hc] at h
  have hm : (⟨n, to, n, 0⟩ : Breaker).mode (Wall.reading ⟨x, -B⟩) = .opened := by
    unfold Breaker.mode Wall.reading
    rw [if_neg (by simp only; omega), if_pos (by simp)]
  unfold Breaker.doSeq at h
  rw [hm] at h
  simp at h

/-- **C146 is violated**: a clock that is set ahead by more than the timeout ends it at once. -/
theorem C146_breaker_open_violated (n : Nat) (to B : Int) (hto : 0 ≤ to) (hB : to < B) (c : WallCall) (hc : c.moment = ⟨0, B⟩) :
    Runs n to (List.replicate n ⟨⟨0, 0⟩, .err 0, ⟨0, 0⟩⟩) c := by
  have hb : (after n to (List.replicate n ⟨⟨0, 0⟩, .err 0, ⟨0, 0⟩⟩)).1 = ⟨n, to, n, 0⟩ := by
    unfold after
    have := fail_until to n n 0 (new n to) rfl rfl hto (by simp [new]) rfl
    simpa [WallCall.clocks, Wall.reading, new] using this
  unfold Runs
  rw [hb, hc]
  have hm : (⟨n, to, n, 0⟩ : Breaker).mode (Wall.reading ⟨0, B⟩) = .halfOpen := by
    unfold Breaker.mode Wall.reading
    rw [if_pos (by simp only; omega)]
  unfold Breaker.doSeq
  rw [hm]
  cases c.task <;> simp

/-- The claim for the breaker does not hold. -/
theorem C146_breaker_claim_violated : ¬ C146BreakerClaim := by
  intro h
  refine C146_breaker_refuses_violated 1 5 10 (by decide) 15 (by decide) ⟨⟨15, -10⟩, .ok, ⟨0, 0⟩⟩ rfl ?_
  refine (h 1 5 _ _ (by decide) (by decide)).1 ?_
  intro d hd _
  have : d = ⟨⟨0, 0⟩, .err 0, ⟨0, 0⟩⟩ := by simpa using hd
  subst this
  decide

-- Not vacuous: set back by 3, timeout 5: refused at 8, run at 9.
example : ¬ Runs 1 5 [⟨⟨0, 0⟩, .err 0, ⟨0, 0⟩⟩] ⟨⟨8, -3⟩, .ok, ⟨8, -3⟩⟩ :=
  C146_breaker_refuses_violated 1 5 3 (by decide) 8 (by decide) _ rfl
example : Runs 1 5 [⟨⟨0, 0⟩, .err 0, ⟨0, 0⟩⟩] ⟨⟨9, -3⟩, .ok, ⟨9, -3⟩⟩ :=
  C146_breaker_recovers_partial 1 5 3 (by decide) _ _ (by
    intro d hd _
    have : d = ⟨⟨0, 0⟩, .err 0, ⟨0, 0⟩⟩ := by simpa using hd
    subst this
    decide)

end Gears.CircuitBreaker
