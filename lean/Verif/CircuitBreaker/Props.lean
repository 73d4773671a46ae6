import Verif.CircuitBreaker.Model

/-
Property theorems for the circuit breaker (C23-C27).  The specification only looks at event logs.
-/

namespace Gears.CircuitBreaker

/-! ### Specification -/

def Ev.isRecOk : Ev → Bool
  | .recOk _ => true
  | _ => false

/-- The instant of a recorded failure. -/
def Ev.failTs : Ev → Option Int
  | .recFail _ t => some t
  | _ => none

/-- The events since the last recorded success, newest first. -/
def sinceSuccess (log : List Ev) : List Ev := log.reverse.takeWhile (fun e => !e.isRecOk)

/-- Instants of the failures recorded since the last recorded success, newest first. -/
def failuresSince (log : List Ev) : List Int := (sinceSuccess log).filterMap Ev.failTs

/-- At least `threshold` failures since the last success, and no more than `timeout` since the last of them.  (Without
any failure, which matters only for a threshold ≤ 0, the epoch stands for the last failure.) -/
def MustRefuse (threshold timeout : Int) (log : List Ev) (now : Int) : Prop :=
  threshold ≤ (failuresSince log).length ∧ now - (failuresSince log).head?.getD 0 ≤ timeout

/-- The events of call `i`. -/
def Ev.of : Ev → Nat
  | .start i _ | .refuse i _ | .finish i _ | .recFail i _ | .recOk i | .onError i _ | .onOpen i => i

def trace (i : Nat) (log : List Ev) : List Ev := log.filter (fun e => e.of = i)

/-- The complete courses of a call. -/
inductive Complete (i : Nat) : List Ev → Prop
  | refused (now : Int) : Complete i [.refuse i now, .onOpen i]
  | succeeded (now : Int) : Complete i [.start i now, .finish i .ok, .recOk i]
  | failed (now : Int) (e : Nat) (t : Int) : Complete i [.start i now, .finish i (.err e), .recFail i t, .onError i e]
  | panicked (now : Int) : Complete i [.start i now, .finish i .panic]

/-! ### Invariant -/

theorem failuresSince_fail (log : List Ev) (i : Nat) (t : Int) :
    failuresSince (log ++ [.recFail i t]) = t :: failuresSince log := by
  simp [failuresSince, sinceSuccess, List.takeWhile_cons, Ev.isRecOk, Ev.failTs]

theorem failuresSince_ok (log : List Ev) (i : Nat) : failuresSince (log ++ [.recOk i]) = [] := by
  simp [failuresSince, sinceSuccess, List.takeWhile_cons, Ev.isRecOk]

theorem failuresSince_other (log : List Ev) (e : Ev) (h1 : e.isRecOk = false) (h2 : e.failTs = none) :
    failuresSince (log ++ [e]) = failuresSince log := by
  simp [failuresSince, sinceSuccess, List.takeWhile_cons, h1, h2]

/-- The breaker's fields agree with the log. -/
def Agree (b : Breaker) (log : List Ev) : Prop :=
  b.failures = (failuresSince log).length ∧ b.lastTs = (failuresSince log).head?.getD 0

theorem agree_fail {b : Breaker} {log : List Ev} (h : Agree b log) (i : Nat) (t : Int) :
    Agree (b.recordFailure t) (log ++ [.recFail i t]) := by
  unfold Agree; rw [failuresSince_fail]
  simp [Breaker.recordFailure, h.1]

theorem agree_ok (b : Breaker) (log : List Ev) (i : Nat) : Agree b.reset (log ++ [.recOk i]) := by
  unfold Agree; rw [failuresSince_ok]; simp [Breaker.reset]

theorem agree_other {b : Breaker} {log : List Ev} (h : Agree b log) (e : Ev) (h1 : e.isRecOk = false)
    (h2 : e.failTs = none) : Agree b (log ++ [e]) := by
  unfold Agree; rw [failuresSince_other log e h1 h2]; exact h

theorem mode_refuse {b : Breaker} {log : List Ev} (h : Agree b log) (now : Int) :
    b.mode now = .opened ↔ MustRefuse b.threshold b.timeout log now := by
  obtain ⟨h1, h2⟩ := h
  unfold Breaker.mode MustRefuse
  rw [← h1, ← h2]
  split
  · rename_i hc; simp; omega
  · rename_i hc
    split
    · rename_i hf; simp; omega
    · rename_i hf; simp; omega

/-- Every decision in the log was the right one given the log before it. -/
def DecisionsOk (threshold timeout : Int) (log : List Ev) : Prop :=
  ∀ l1 l2 i now, (log = l1 ++ .refuse i now :: l2 → MustRefuse threshold timeout l1 now) ∧
    (log = l1 ++ .start i now :: l2 → ¬ MustRefuse threshold timeout l1 now)

theorem snoc_split {α : Type} {log l1 l2 : List α} {e x : α} (h : log ++ [e] = l1 ++ x :: l2) :
    (log = l1 ∧ e = x ∧ l2 = []) ∨ ∃ l2', log = l1 ++ x :: l2' ∧ l2 = l2' ++ [e] := by
  rcases List.eq_nil_or_concat l2 with rfl | ⟨l2', y, rfl⟩
  · have := List.append_inj' h rfl
    simp at this
    exact Or.inl ⟨this.1, this.2, rfl⟩
  · right
    have h' : log ++ [e] = (l1 ++ x :: l2') ++ [y] := by simpa using h
    have := List.append_inj' h' rfl
    simp at this
    exact ⟨l2', this.1, by rw [this.2]; simp⟩

theorem decisions_snoc {th to : Int} {log : List Ev} (h : DecisionsOk th to log) (e : Ev)
    (he : ∀ i now, (e = .refuse i now → MustRefuse th to log now) ∧ (e = .start i now → ¬ MustRefuse th to log now)) :
    DecisionsOk th to (log ++ [e]) := by
  intro l1 l2 i now
  constructor
  · intro hl
    rcases snoc_split hl with ⟨rfl, rfl, _⟩ | ⟨l2', hl', _⟩
    · exact (he i now).1 rfl
    · exact (h l1 l2' i now).1 hl'
  · intro hl
    rcases snoc_split hl with ⟨rfl, rfl, _⟩ | ⟨l2', hl', _⟩
    · exact (he i now).2 rfl
    · exact (h l1 l2' i now).2 hl'

/-- The events so far of a call at program counter `p`. -/
def Course (i : Nat) (tr : List Ev) : PC → Prop
  | .deciding _ => tr = []
  | .openCb => ∃ now, tr = [.refuse i now]
  | .running => ∃ now, tr = [.start i now]
  | .failed e => ∃ now, tr = [.start i now, .finish i (.err e)]
  | .errCb e => ∃ now t, tr = [.start i now, .finish i (.err e), .recFail i t]
  | .succeeded => ∃ now, tr = [.start i now, .finish i .ok]
  | .done => Complete i tr

structure Inv (th to : Int) (s : State) : Prop where
  params  : s.b.threshold = th ∧ s.b.timeout = to
  agree   : Agree s.b s.log
  dec     : DecisionsOk th to s.log
  course  : ∀ (i : Nat) (p : PC), s.pcs[i]? = some p → Course i (trace i s.log) p
  fresh   : ∀ (i : Nat), s.pcs.length ≤ i → trace i s.log = []

theorem init_inv (th to : Int) : Inv th to (init th to) where
  params := ⟨rfl, rfl⟩
  agree := ⟨rfl, rfl⟩
  dec := by intro l1 l2 i now; simp [init]
  course := by intro i p h; simp [init] at h
  fresh := by intro i _; simp [init, trace]

theorem trace_snoc (i : Nat) (log : List Ev) (e : Ev) :
    trace i (log ++ [e]) = if e.of = i then trace i log ++ [e] else trace i log := by
  unfold trace
  rw [List.filter_append]
  by_cases h : e.of = i <;> simp [h]

/-- Preservation of the invariant by a step of call `i` that emits one event. -/
theorem inv_upd {th to : Int} {s : State} (inv : Inv th to s) {i : Nat} {p : PC} (hp : s.pcs[i]? = some p)
    (b' : Breaker) (p' : PC) (e : Ev) (hof : e.of = i) (hpar : b'.threshold = th ∧ b'.timeout = to)
    (hag : Agree b' (s.log ++ [e]))
    (hdec : ∀ j now, (e = .refuse j now → MustRefuse th to s.log now) ∧ (e = .start j now → ¬ MustRefuse th to s.log now))
    (hc : ∀ tr, Course i tr p → Course i (tr ++ [e]) p') : Inv th to (s.upd b' i p' [e]) where
  params := hpar
  agree := hag
  dec := decisions_snoc inv.dec e hdec
  course := by
    intro j q hj
    simp only [State.upd] at hj ⊢
    rw [trace_snoc]
    by_cases hji : j = i
    · subst hji
      have hlt : j < s.pcs.length := by
        rw [List.getElem?_eq_some_iff] at hp; exact hp.1
      rw [List.getElem?_set_self hlt] at hj
      simp at hj; subst hj
      rw [if_pos hof]
      exact hc _ (inv.course j p hp)
    · rw [List.getElem?_set_ne (Ne.symm hji)] at hj
      rw [if_neg (by rw [hof]; exact Ne.symm hji)]
      exact inv.course j q hj
  fresh := by
    intro j hj
    simp only [State.upd, List.length_set] at hj ⊢
    rw [trace_snoc]
    have hlt : i < s.pcs.length := by rw [List.getElem?_eq_some_iff] at hp; exact hp.1
    rw [if_neg (by rw [hof]; omega)]
    exact inv.fresh j hj

theorem step_inv {th to : Int} (s : State) (a : Action) (s' : State) (inv : Inv th to s) (h : step s a = some s') :
    Inv th to s' := by
  have ag := inv.agree
  have par := inv.params
  have hm : ∀ now, s.b.mode now = .opened ↔ MustRefuse th to s.log now := by
    intro now; rw [← par.1, ← par.2]; exact mode_refuse ag now
  cases a with
  | call now =>
    simp [step] at h; subst h
    exact {
      params := par
      agree := ag
      dec := inv.dec
      course := by
        intro i p hi
        simp only at hi ⊢
        rw [List.getElem?_append] at hi
        split at hi
        · exact inv.course i p hi
        · rename_i hlt
          have : p = .deciding now := by
            rcases hk : i - s.pcs.length with _ | k <;> simp [hk] at hi
            exact hi.symm
          subst this
          exact inv.fresh i (by omega)
      fresh := by
        intro i hi
        simp at hi
        exact inv.fresh i (by omega) }
  | decide i =>
    simp only [step] at h
    split at h
    · rename_i now hp
      split at h
      · rename_i hmode
        simp at h; subst h
        refine inv_upd inv hp _ _ _ rfl par (agree_other ag _ rfl rfl) ?_ ?_
        · intro j n
          refine ⟨?_, by simp⟩
          intro he; simp at he; rw [← he.2]; exact (hm now).1 hmode
        · intro tr htr
          simp [Course] at htr ⊢; exact ⟨now, by simp [htr]⟩
      all_goals
        rename_i hmode
        simp at h; subst h
        refine inv_upd inv hp _ _ _ rfl par (agree_other ag _ rfl rfl) ?_ ?_
        · intro j n
          refine ⟨by simp, ?_⟩
          intro he hr; simp at he; rw [← he.2] at hr
          rw [(hm now).2 hr] at hmode; simp at hmode
        · intro tr htr
          simp [Course] at htr ⊢; exact ⟨now, by simp [htr]⟩
    · simp at h
  | openCb i =>
    simp only [step] at h
    split at h
    · rename_i hp
      simp at h; subst h
      refine inv_upd inv hp _ _ _ rfl par (agree_other ag _ rfl rfl) (by simp) ?_
      rintro tr ⟨now, rfl⟩
      exact .refused now
    · simp at h
  | taskEnd i o =>
    simp only [step] at h
    split at h
    · rename_i hp
      split at h
      all_goals
        simp at h; subst h
        refine inv_upd inv hp _ _ _ rfl par (agree_other ag _ rfl rfl) (by simp) ?_
        rintro tr ⟨now, rfl⟩
      · exact ⟨now, rfl⟩
      · exact ⟨now, rfl⟩
      · exact .panicked now
    · simp at h
  | record i now =>
    simp only [step] at h
    split at h
    · rename_i e hp
      simp at h; subst h
      refine inv_upd inv hp _ _ _ rfl par (agree_fail ag _ _) (by simp) ?_
      rintro tr ⟨n, rfl⟩
      exact ⟨n, now, rfl⟩
    · simp at h
  | errCb i =>
    simp only [step] at h
    split at h
    · rename_i e hp
      simp at h; subst h
      refine inv_upd inv hp _ _ _ rfl par (agree_other ag _ rfl rfl) (by simp) ?_
      rintro tr ⟨n, t, rfl⟩
      exact .failed n e t
    · simp at h
  | reset i =>
    simp only [step] at h
    split at h
    · rename_i hp
      simp at h; subst h
      refine inv_upd inv hp _ _ _ rfl par (agree_ok _ _ _) (by simp) ?_
      rintro tr ⟨n, rfl⟩
      exact .succeeded n
    · simp at h

theorem reach_inv {th to : Int} {s : State} (h : Reachable step (init th to) s) : Inv th to s :=
  h.inv (init_inv th to) step_inv

/-! ### C25 -/

/-- **C25.** In every interleaving of any number of `Do` calls, with arbitrary clock readings and task outcomes, each
call that was refused had to be refused, and each call whose task was started had not, judged by the failures and
successes recorded before its decision. -/
theorem C25_concurrent_decisions (th to : Int) (s : State) (h : Reachable step (init th to) s)
    (l1 l2 : List Ev) (i : Nat) (now : Int) :
    (s.log = l1 ++ .refuse i now :: l2 → MustRefuse th to l1 now) ∧
    (s.log = l1 ++ .start i now :: l2 → ¬ MustRefuse th to l1 now) :=
  (reach_inv h).dec l1 l2 i now

/-- **C25**, progress: in every reachable state a call that has read the clock can decide, and is refused exactly when
it must be. -/
theorem C25_decides (th to : Int) (s : State) (h : Reachable step (init th to) s) (i : Nat) (now : Int)
    (hi : s.pcs[i]? = some (.deciding now)) :
    ∃ s', step s (.decide i) = some s' ∧
      (MustRefuse th to s.log now → s'.log = s.log ++ [.refuse i now]) ∧
      (¬ MustRefuse th to s.log now → s'.log = s.log ++ [.start i now]) := by
  have inv := reach_inv h
  have hm : s.b.mode now = .opened ↔ MustRefuse th to s.log now := by
    rw [← inv.params.1, ← inv.params.2]; exact mode_refuse inv.agree now
  cases hmode : s.b.mode now with
  | opened =>
    refine ⟨_, by simp [step, hi, hmode]; rfl, fun _ => rfl, fun hn => absurd (hm.1 hmode) hn⟩
  | closed =>
    refine ⟨_, by simp [step, hi, hmode]; rfl, fun hr => ?_, fun _ => rfl⟩
    rw [hm.2 hr] at hmode; simp at hmode
  | halfOpen =>
    refine ⟨_, by simp [step, hi, hmode]; rfl, fun hr => ?_, fun _ => rfl⟩
    rw [hm.2 hr] at hmode; simp at hmode

/-- Non-vacuity of C25: threshold 2; two overlapping calls fail, a third is refused, and after the timeout a fourth
runs. -/
example :
    let s := exec step (init 2 10)
      [.call 100, .call 100, .decide 0, .decide 1, .taskEnd 0 (.err 7), .taskEnd 1 (.err 8), .record 1 101, .record 0 102,
       .call 112, .decide 2, .openCb 2, .call 113, .decide 3]
    s.map (·.log) = some [.start 0 100, .start 1 100, .finish 0 (.err 7), .finish 1 (.err 8), .recFail 1 101,
      .recFail 0 102, .refuse 2 112, .onOpen 2, .start 3 113] := by decide

/-! ### C24 -/

/-- **C24.** In every interleaving, the events of each call are at any time the beginning of one of the four complete
courses (refuse, onOpen) / (start, success, reset) / (start, failure, failure recorded, onError with that error) /
(start, panic); and when the call is finished they are the whole of it. -/
theorem C24_callbacks (th to : Int) (s : State) (h : Reachable step (init th to) s) (i : Nat) :
    (∃ full, Complete i full ∧ trace i s.log <+: full) ∧
    (s.pcs[i]? = some .done → Complete i (trace i s.log)) := by
  have inv := reach_inv h
  refine ⟨?_, fun hd => inv.course i .done hd⟩
  cases hp : s.pcs[i]? with
  | none =>
    rw [List.getElem?_eq_none_iff] at hp
    exact ⟨_, .refused 0, by rw [inv.fresh i hp]; exact List.nil_prefix⟩
  | some p =>
    have hc := inv.course i p hp
    cases p with
    | deciding n => exact ⟨_, .refused 0, by rw [hc]; exact List.nil_prefix⟩
    | openCb => obtain ⟨n, hc⟩ := hc; exact ⟨_, .refused n, by rw [hc]; exact ⟨[_], rfl⟩⟩
    | running => obtain ⟨n, hc⟩ := hc; exact ⟨_, .panicked n, by rw [hc]; exact ⟨[_], rfl⟩⟩
    | failed e => obtain ⟨n, hc⟩ := hc; exact ⟨_, .failed n e 0, by rw [hc]; exact ⟨[_, _], rfl⟩⟩
    | errCb e => obtain ⟨n, t, hc⟩ := hc; exact ⟨_, .failed n e t, by rw [hc]; exact ⟨[_], rfl⟩⟩
    | succeeded => obtain ⟨n, hc⟩ := hc; exact ⟨_, .succeeded n, by rw [hc]; exact ⟨[_], rfl⟩⟩
    | done => exact ⟨_, hc, List.prefix_refl _⟩

/-- **C24** as counts: a finished call has invoked exactly one of task and onOpen, once, and onError once with the
task's error if the task failed, and not otherwise. -/
theorem C24_counts (th to : Int) (s : State) (h : Reachable step (init th to) s) (i : Nat)
    (hd : s.pcs[i]? = some .done) :
    let tr := trace i s.log
    (tr.countP (fun e => match e with | .start _ _ => true | _ => false) +
      tr.countP (fun e => match e with | .onOpen _ => true | _ => false) = 1) ∧
    (∀ e, tr.count (.onError i e) = tr.count (.finish i (.err e))) ∧
    (∀ e, tr.count (.onError i e) ≤ 1) := by
  have hc := (C24_callbacks th to s h i).2 hd
  generalize trace i s.log = tr at hc
  cases hc with
  | refused n => simp [List.count_cons]
  | succeeded n => simp [List.count_cons]
  | failed n e t =>
    refine ⟨rfl, ?_, ?_⟩
    · intro e'; by_cases he : e = e' <;> simp [List.count_cons, he]
    · intro e'; by_cases he : e = e' <;> simp [List.count_cons, he]
  | panicked n => simp [List.count_cons]

/-- Non-vacuity of C24: a failed call. -/
example :
    (exec step (init 2 10) [.call 100, .decide 0, .taskEnd 0 (.err 7), .record 0 101, .errCb 0]).map
      (fun s => (s.pcs[0]?, trace 0 s.log)) =
    some (some .done, [.start 0 100, .finish 0 (.err 7), .recFail 0 101, .onError 0 7]) := by decide

/-! ### C23 -/

/-- The schedule of one call that nothing overlaps. -/
def seqSchedule (b : Breaker) (i : Nat) (now : Int) (o : Outcome) (now2 : Int) : List Action :=
  match b.mode now with
  | .opened => [.call now, .decide i, .openCb i]
  | .closed | .halfOpen =>
    match o with
    | .err _ => [.call now, .decide i, .taskEnd i o, .record i now2, .errCb i]
    | .ok => [.call now, .decide i, .taskEnd i o, .reset i]
    | .panic => [.call now, .decide i, .taskEnd i o]

/-- A sequential call is one schedule of the concurrent model. -/
theorem doSeq_exec (s : State) (now : Int) (o : Outcome) (now2 : Int) :
    exec step s (seqSchedule s.b s.pcs.length now o now2) =
      some ⟨(s.b.doSeq s.pcs.length now o now2).1, s.pcs ++ [.done],
        s.log ++ (s.b.doSeq s.pcs.length now o now2).2⟩ := by
  unfold seqSchedule Breaker.doSeq
  cases hm : s.b.mode now with
  | opened => simp [exec, step, State.upd, hm]
  | closed => cases o <;> simp [exec, step, State.upd, hm]
  | halfOpen => cases o <;> simp [exec, step, State.upd, hm]

theorem runSeq_reachable (cs : List (Int × Outcome × Int)) : ∀ (s : State),
    ∃ pcs', Reachable step s ⟨(s.b.runSeq s.pcs.length cs).1, pcs', s.log ++ (s.b.runSeq s.pcs.length cs).2⟩ ∧
      pcs'.length = s.pcs.length + cs.length := by
  induction cs with
  | nil => intro s; exact ⟨s.pcs, by simpa [Breaker.runSeq] using Reachable.refl s, by simp⟩
  | cons c cs ih =>
    intro s
    obtain ⟨now, o, now2⟩ := c
    have h1 : Reachable step s ⟨(s.b.doSeq s.pcs.length now o now2).1, s.pcs ++ [.done],
        s.log ++ (s.b.doSeq s.pcs.length now o now2).2⟩ := ⟨_, doSeq_exec s now o now2⟩
    obtain ⟨pcs', h2, hl⟩ := ih ⟨(s.b.doSeq s.pcs.length now o now2).1, s.pcs ++ [.done],
        s.log ++ (s.b.doSeq s.pcs.length now o now2).2⟩
    simp only [List.length_append, List.length_cons, List.length_nil] at h2 hl
    refine ⟨pcs', ?_, by simp [hl]; omega⟩
    have := h1.trans h2
    simpa [Breaker.runSeq] using this

/-- **C23.** After any sequence `cs` of sequential calls (outcomes and clock readings arbitrary), the next call's task
runs exactly when fewer than `threshold` failures were recorded since the last success or more than `timeout` has
elapsed since the last failure; otherwise only onOpen runs. -/
theorem C23_sequential (th to : Int) (cs : List (Int × Outcome × Int)) (now : Int) (o : Outcome) (now2 : Int) :
    let b := ((new th to).runSeq 0 cs).1
    let L := ((new th to).runSeq 0 cs).2
    let evs := (b.doSeq cs.length now o now2).2
    ((∃ rest, evs = .start cs.length now :: .finish cs.length o :: rest) ↔
      ((failuresSince L).length < th ∨ now - (failuresSince L).head?.getD 0 > to)) ∧
    (evs = [.refuse cs.length now, .onOpen cs.length] ↔
      ¬ ((failuresSince L).length < th ∨ now - (failuresSince L).head?.getD 0 > to)) := by
  intro b L evs
  obtain ⟨pcs', hr, hl⟩ := runSeq_reachable cs (init th to)
  have inv := reach_inv hr
  simp only [init, List.length_nil, List.nil_append] at inv
  have hm : b.mode now = .opened ↔ MustRefuse th to L now := by
    have := mode_refuse inv.agree now
    have hp := inv.params
    simp only at this hp
    rw [hp.1, hp.2] at this
    exact this
  have hcond : ((failuresSince L).length < th ∨ now - (failuresSince L).head?.getD 0 > to) ↔ ¬ MustRefuse th to L now := by
    unfold MustRefuse; omega
  rw [hcond, ← hm]
  have hev : evs = (b.doSeq cs.length now o now2).2 := rfl
  rw [hev]
  unfold Breaker.doSeq
  cases b.mode now with
  | opened => simp
  | closed => cases o <;> simp
  | halfOpen => cases o <;> simp

/-- **C23** in the form of a single case: a breaker with threshold ≥ 1 refuses nothing before its first failure. -/
theorem C23_initially_closed (th to : Int) (hth : 1 ≤ th) (now : Int) (o : Outcome) (now2 : Int) :
    ∃ rest, ((new th to).doSeq 0 now o now2).2 = .start 0 now :: .finish 0 o :: rest := by
  have := (C23_sequential th to [] now o now2).1.2
  apply this
  left
  simp [Breaker.runSeq, failuresSince, sinceSuccess]
  omega

/-- Non-vacuity of C23: threshold 2, timeout 10: two failures, a refusal at exactly the timeout, a half-open success
just after it, and closed again. -/
example : ((new 2 10).runSeq 0 [(1, .err 5, 1), (2, .err 6, 3), (13, .ok, 13), (14, .ok, 14), (15, .err 7, 15)]).2 =
    [.start 0 1, .finish 0 (.err 5), .recFail 0 1, .onError 0 5, .start 1 2, .finish 1 (.err 6), .recFail 1 3,
     .onError 1 6, .refuse 2 13, .onOpen 2, .start 3 14, .finish 3 .ok, .recOk 3, .start 4 15, .finish 4 (.err 7),
     .recFail 4 15, .onError 4 7] := by decide

/-! ### C26 -/

/-- The last recorded failure, whatever happened since. -/
def lastRecorded (log : List Ev) : Option Int := log.reverse.findSome? Ev.failTs

def Ev.isStart : Ev → Bool
  | .start _ _ => true
  | _ => false

/-- The full claim C26: after a refusal, the first task started reads a clock value more than `timeout` after the last
failure recorded before it. -/
def StaysOpen (to : Int) (log : List Ev) : Prop :=
  ∀ l1 i n l2 j n' l3, log = l1 ++ .refuse i n :: (l2 ++ .start j n' :: l3) → (∀ e ∈ l2, e.isStart = false) →
    ∃ t, lastRecorded (l1 ++ .refuse i n :: l2) = some t ∧ n' - t > to

/-- **C26 is violated**: a call that was started before the breaker opened and succeeds afterwards closes it, and the
next task runs 2 ns after the last failure although the timeout is 10 ns. -/
theorem C26_stays_open_violated :
    ∃ s, Reachable step (init 1 10) s ∧ ¬ StaysOpen 10 s.log := by
  let as : List Action := [.call 100, .call 100, .decide 0, .decide 1, .taskEnd 0 (.err 7), .record 0 101, .call 102,
    .decide 2, .taskEnd 1 .ok, .reset 1, .call 103, .decide 3]
  refine ⟨(exec step (init 1 10) as).get (by decide), ⟨as, by simp⟩, ?_⟩
  intro h
  have hlog : ((exec step (init 1 10) as).get (by decide)).log =
    [.start 0 100, .start 1 100, .finish 0 (.err 7), .recFail 0 101] ++ .refuse 2 102 :: ([.finish 1 .ok, .recOk 1] ++
      .start 3 103 :: []) := by decide
  obtain ⟨t, ht, hgt⟩ := h _ _ _ _ _ _ _ hlog (by decide)
  have : lastRecorded ([.start 0 100, .start 1 100, .finish 0 (.err 7), .recFail 0 101] ++ .refuse 2 102 ::
    [.finish 1 .ok, .recOk 1]) = some 101 := by decide
  rw [this] at ht
  simp at ht; omega

theorem takeWhile_append_all {α : Type} (p : α → Bool) (a b : List α) (h : ∀ x ∈ a, p x = true) :
    (a ++ b).takeWhile p = a ++ b.takeWhile p := by
  induction a with
  | nil => rfl
  | cons x a ih =>
    rw [List.cons_append, List.takeWhile_cons, if_pos (h x (by simp)), ih (fun y hy => h y (by simp [hy]))]
    rfl

theorem failuresSince_append (a b : List Ev) (h : ∀ e ∈ b, e.isRecOk = false) :
    failuresSince (a ++ b) = b.reverse.filterMap Ev.failTs ++ failuresSince a := by
  unfold failuresSince sinceSuccess
  rw [List.reverse_append, takeWhile_append_all _ _ _ (by intro x hx; simp [h x (by simpa using hx)])]
  rw [List.filterMap_append]

theorem findSome_filterMap (l : List Ev) : l.findSome? Ev.failTs = (l.filterMap Ev.failTs).head? := by
  induction l with
  | nil => rfl
  | cons e l ih =>
    cases h : e.failTs with
    | none => rw [List.findSome?_cons, h, List.filterMap_cons, h]; exact ih
    | some t => rw [List.findSome?_cons, h, List.filterMap_cons, h]; rfl

/-- The failures since the last success begin with the last recorded failure, when there are any. -/
theorem lastRecorded_eq (log : List Ev) (h : failuresSince log ≠ []) : lastRecorded log = (failuresSince log).head? := by
  unfold lastRecorded
  rw [findSome_filterMap]
  unfold failuresSince sinceSuccess at h ⊢
  have := List.takeWhile_append_dropWhile (p := fun e : Ev => !e.isRecOk) (l := log.reverse)
  have h2 : log.reverse.filterMap Ev.failTs = (log.reverse.takeWhile (fun e : Ev => !e.isRecOk)).filterMap Ev.failTs ++
      (log.reverse.dropWhile (fun e : Ev => !e.isRecOk)).filterMap Ev.failTs := by
    rw [← List.filterMap_append, this]
  rw [h2]
  cases hx : (log.reverse.takeWhile (fun e : Ev => !e.isRecOk)).filterMap Ev.failTs with
  | nil => exact absurd hx h
  | cons a l => rfl

/-- **C26, partial**: if no success is recorded between the refusal and the start, the claim holds (threshold ≥ 1). -/
theorem C26_stays_open_partial (th to : Int) (hth : 1 ≤ th) (s : State) (h : Reachable step (init th to) s)
    (l1 : List Ev) (i : Nat) (n : Int) (l2 : List Ev) (j : Nat) (n' : Int) (l3 : List Ev)
    (hlog : s.log = l1 ++ .refuse i n :: (l2 ++ .start j n' :: l3)) (hno : ∀ e ∈ l2, e.isRecOk = false) :
    ∃ t, lastRecorded (l1 ++ .refuse i n :: l2) = some t ∧ n' - t > to := by
  have href := (C25_concurrent_decisions th to s h l1 _ i n).1 hlog
  have hst := (C25_concurrent_decisions th to s h (l1 ++ .refuse i n :: l2) l3 j n').2 (by rw [hlog]; simp)
  have hfs := failuresSince_append l1 (.refuse i n :: l2) (by
    intro e he
    rcases List.mem_cons.mp he with rfl | he
    · rfl
    · exact hno e he)
  have hlen : th ≤ (failuresSince (l1 ++ .refuse i n :: l2)).length := by
    rw [hfs, List.length_append]
    have := href.1
    push_cast
    omega
  have hne : failuresSince (l1 ++ .refuse i n :: l2) ≠ [] := by
    intro hnil; rw [hnil] at hlen; simp at hlen; omega
  have hhead := lastRecorded_eq _ hne
  cases hf : failuresSince (l1 ++ .refuse i n :: l2) with
  | nil => exact absurd hf hne
  | cons t ts =>
    rw [hf] at hhead
    refine ⟨t, hhead, ?_⟩
    unfold MustRefuse at hst
    rw [hf] at hst hlen
    simp at hst
    have := hst (by simpa using hlen)
    omega

/-- Call `k` has started its task and has neither recorded its outcome nor panicked. -/
def InFlight (log : List Ev) (k : Nat) : Prop :=
  (∃ n, .start k n ∈ log) ∧ (∀ t, .recFail k t ∉ log) ∧ .recOk k ∉ log ∧ .finish k .panic ∉ log

/-- **C26, partial**: if no task is in flight when the call is refused, the claim holds (threshold ≥ 1). -/
theorem C26_stays_open_quiet_partial (th to : Int) (hth : 1 ≤ th) (s : State) (h : Reachable step (init th to) s)
    (l1 : List Ev) (i : Nat) (n : Int) (l2 : List Ev) (j : Nat) (n' : Int) (l3 : List Ev)
    (hlog : s.log = l1 ++ .refuse i n :: (l2 ++ .start j n' :: l3)) (hno : ∀ e ∈ l2, e.isStart = false)
    (hquiet : ∀ k, ¬ InFlight l1 k) :
    ∃ t, lastRecorded (l1 ++ .refuse i n :: l2) = some t ∧ n' - t > to := by
  apply C26_stays_open_partial th to hth s h l1 i n l2 j n' l3 hlog
  intro e he
  cases e with
  | recOk k =>
    exfalso
    -- the trace of k up to the start of j is a complete success
    have hall := (C24_callbacks th to s h k).1
    obtain ⟨full, hfull, hpre⟩ := hall
    have hmem : Ev.recOk k ∈ trace k s.log := by
      unfold trace; rw [List.mem_filter, hlog]; simp [he, Ev.of]
    have hfm := hpre.subset hmem
    cases hfull with
    | refused m => simp at hfm
    | failed m e t => simp at hfm
    | panicked m => simp at hfm
    | succeeded m =>
      have hstart : Ev.start k m ∈ l1 := by
        have htr : trace k s.log = trace k l1 ++ trace k (.refuse i n :: l2) ++ trace k (.start j n' :: l3) := by
          rw [hlog]; unfold trace; rw [← List.filter_append, ← List.filter_append]; simp
        -- the first event of the trace is the start
        obtain ⟨tl, htl⟩ := hpre
        have hhd : (trace k s.log).head? = some (.start k m) := by
          cases ht : trace k s.log with
          | nil => rw [ht] at hmem; simp at hmem
          | cons a b => rw [ht] at htl; simp at htl; rw [htl.1]; rfl
        have hsm : Ev.start k m ∈ trace k s.log := List.mem_of_head? hhd
        rw [htr] at hsm hhd
        cases h1 : trace k l1 with
        | cons a b =>
          rw [h1] at hhd; simp at hhd
          have : a ∈ trace k l1 := by rw [h1]; simp
          rw [hhd] at this
          exact (List.mem_filter.mp this).1
        | nil =>
          exfalso
          rw [h1, List.nil_append] at hhd
          have hr2 : Ev.recOk k ∈ trace k (.refuse i n :: l2) := by
            unfold trace; rw [List.mem_filter]; simp [he, Ev.of]
          cases h2 : trace k (.refuse i n :: l2) with
          | nil => rw [h2] at hr2; simp at hr2
          | cons a b =>
            rw [h2] at hhd; simp at hhd
            have : a ∈ trace k (.refuse i n :: l2) := by rw [h2]; simp
            rw [hhd] at this
            have := (List.mem_filter.mp this).1
            rcases List.mem_cons.mp this with h3 | h3
            · simp at h3
            · have := hno _ h3; simp [Ev.isStart] at this
      -- so k is settled in l1, but only by another recOk, of which there is one
      have hsub : ∀ e ∈ l1, e.of = k → e ∈ [Ev.start k m, .finish k .ok, .recOk k] := by
        intro e he' hk
        apply hpre.subset
        unfold trace; rw [List.mem_filter, hlog]; simp [he', hk]
      apply hquiet k
      refine ⟨⟨m, hstart⟩, ?_, ?_, ?_⟩
      · intro t ht; have := hsub _ ht rfl; simp at this
      · intro ht
        have hc : (trace k s.log).count (.recOk k) ≤ 1 := by
          refine Nat.le_trans (hpre.sublist.count_le _) ?_
          simp [List.count_cons]
        have h1 : 0 < (trace k l1).count (.recOk k) := by
          rw [List.count_pos_iff]; unfold trace; rw [List.mem_filter]; simp [ht, Ev.of]
        have h2 : 0 < (trace k l2).count (.recOk k) := by
          rw [List.count_pos_iff]; unfold trace; rw [List.mem_filter]; simp [he, Ev.of]
        have htr : trace k s.log = trace k l1 ++ (trace k [.refuse i n] ++ (trace k l2 ++ trace k (.start j n' :: l3))) := by
          rw [hlog]; unfold trace; simp [← List.filter_append]
        rw [htr] at hc
        simp only [List.count_append] at hc
        omega
      · intro ht; have := hsub _ ht rfl; simp at this
  | _ => rfl

/-- Non-vacuity of C26: an open breaker, no task in flight, and the first start after the timeout. -/
example : ∃ s, Reachable step (init 1 10) s ∧
    s.log = [.start 0 100, .finish 0 (.err 7), .recFail 0 101] ++ .refuse 1 111 :: ([] ++ .start 2 112 :: []) := by
  let as : List Action := [.call 100, .decide 0, .taskEnd 0 (.err 7), .record 0 101, .call 111, .decide 1, .call 112,
    .decide 2]
  exact ⟨(exec step (init 1 10) as).get (by decide), ⟨as, by simp⟩, by decide⟩

/-! ### C27 -/

/-- **C27.** `NeverOpen.Do` runs the task exactly once, never calls onOpen, and calls onError exactly once, with the
task's error, iff the task failed. -/
theorem C27_never_open (i : Nat) (now : Int) (o : Outcome) :
    let evs := neverOpenDo i now o
    evs.head? = some (.start i now) ∧ evs.countP Ev.isStart = 1 ∧ .finish i o ∈ evs ∧ .onOpen i ∉ evs ∧
    (∀ e, evs.count (.onError i e) = if o = .err e then 1 else 0) := by
  cases o with
  | ok => exact ⟨rfl, rfl, by simp [neverOpenDo], by simp [neverOpenDo], by simp [neverOpenDo, List.count_cons]⟩
  | panic => exact ⟨rfl, rfl, by simp [neverOpenDo], by simp [neverOpenDo], by simp [neverOpenDo, List.count_cons]⟩
  | err e =>
    refine ⟨rfl, rfl, by simp [neverOpenDo], by simp [neverOpenDo], ?_⟩
    intro e'
    by_cases h : e = e' <;> simp [neverOpenDo, List.count_cons, h]

end Gears.CircuitBreaker
