import Verif.CircuitBreaker.Model
import Verif.Common.Fair

/-
Property C164: the circuit breaker on infinite executions of `step` (Model.lean).  Calls of `Do` are made for ever; the
tasks end and the goroutines go on (`goes`).
-/

namespace Gears.CircuitBreaker.Live

/-! ## Specification -/

structure Execution (th to : Int) (s : Nat → State) (a : Nat → Option Action) : Prop where
  run   : IsRun step s a
  start : Reachable step (init th to) (s 0)
  /-- every call that has not returned goes on: its task ends, its goroutine is scheduled -/
  goes  : ∀ (k i : Nat) (p : PC), (s k).pcs[i]? = some p → p ≠ .done → ∃ j, k ≤ j ∧ (s j).pcs[i]? ≠ some p

/-- Calls are made for ever. -/
def Called (a : Nat → Option Action) : Prop := ∀ k, ∃ j now, k ≤ j ∧ a j = some (.call now)

/-- Calls are made for ever, and time passes. -/
def CalledLate (a : Nat → Option Action) : Prop := ∀ k (T : Int), ∃ j now, k ≤ j ∧ T < now ∧ a j = some (.call now)

/-- From moment `k` on, tasks that end do so with `ok`. -/
def SucceedFrom (a : Nat → Option Action) (k : Nat) : Prop := ∀ j i o, k ≤ j → a j = some (.taskEnd i o) → o = .ok

/-- From moment `k` on, tasks that end do so with an error. -/
def FailFrom (a : Nat → Option Action) (k : Nat) : Prop := ∀ j i o, k ≤ j → a j = some (.taskEnd i o) → ∃ e, o = .err e

/-- A task is started at moment `j`. -/
def StartsAt (s : Nat → State) (j : Nat) : Prop := ∃ (i : Nat) (now : Int), (s j).pcs[i]? = some (.deciding now) ∧ (s (j + 1)).pcs[i]? = some .running

/-! ## Steps -/

/-- How call `i` goes on. -/
inductive Tr (i : Nat) (s : State) (x : Action) (s' : State) : PC → PC → Prop where
  | refused {now : Int} : s.b.mode now = .opened → Tr i s x s' (.deciding now) .openCb
  | started {now : Int} : s.b.mode now ≠ .opened → Tr i s x s' (.deciding now) .running
  | opened : Tr i s x s' .openCb .done
  | err {e : Nat} : x = .taskEnd i (.err e) → Tr i s x s' .running (.failed e)
  | ok : x = .taskEnd i .ok → Tr i s x s' .running .succeeded
  | panic : x = .taskEnd i .panic → Tr i s x s' .running .done
  | recorded {e : Nat} {now : Int} : s'.b = s.b.recordFailure now → Tr i s x s' (.failed e) (.errCb e)
  | called {e : Nat} : Tr i s x s' (.errCb e) .done
  | reset : s'.b = s.b.reset → Tr i s x s' .succeeded .done

theorem upd_pc {s : State} {b : Breaker} {j : Nat} {q : PC} {ev : List Ev} {i : Nat} {p : PC} (h : s.pcs[i]? = some p) :
    (s.upd b j q ev).pcs[i]? = if j = i then some q else some p := by
  have hi : i < s.pcs.length := by
    cases Nat.lt_or_ge i s.pcs.length with
    | inl h' => exact h'
    | inr h' => rw [List.getElem?_eq_none h'] at h; cases h
  simp only [State.upd, List.getElem?_set]
  by_cases hj : j = i
  · subst hj; simp [hi]
  · simp [hj, h]

theorem step_tr {s : State} {x : Action} {s' : State} (h : step s x = some s') {i : Nat} {p : PC} (hp : s.pcs[i]? = some p) :
    s'.pcs[i]? = some p ∨ ∃ q, s'.pcs[i]? = some q ∧ Tr i s x s' p q := by
  cases x with
  | call now =>
    cases h
    left
    show (s.pcs ++ [.deciding now])[i]? = some p
    have hi : i < s.pcs.length := (List.getElem?_eq_some_iff.1 hp).1
    rw [List.getElem?_append_left hi]; exact hp
  | decide j =>
    simp only [step] at h
    split at h
    · rename_i now hj
      split at h <;> cases h <;> rw [upd_pc hp] <;> by_cases e : j = i
      all_goals first
        | (rw [if_neg e]; exact .inl rfl)
        | skip
      all_goals (subst e; rw [hp] at hj; cases hj; rename_i hm; rw [if_pos rfl]; right; refine ⟨_, rfl, ?_⟩)
      · exact .refused hm
      · exact .started (by rw [hm]; decide)
      · exact .started (by rw [hm]; decide)
    · cases h
  | openCb j =>
    simp only [step] at h
    split at h
    · rename_i hj
      cases h
      rw [upd_pc hp]
      by_cases e : j = i
      · subst e; rw [hp] at hj; cases hj; rw [if_pos rfl]; exact .inr ⟨_, rfl, .opened⟩
      · rw [if_neg e]; exact .inl rfl
    · cases h
  | taskEnd j o =>
    simp only [step] at h
    split at h
    · rename_i hj
      split at h <;> cases h <;> rw [upd_pc hp] <;> by_cases e : j = i
      all_goals first
        | (rw [if_neg e]; exact .inl rfl)
        | skip
      all_goals (subst e; rw [hp] at hj; cases hj; rw [if_pos rfl]; right; refine ⟨_, rfl, ?_⟩)
      · exact .err rfl
      · exact .ok rfl
      · exact .panic rfl
    · cases h
  | record j now =>
    simp only [step] at h
    split at h
    · rename_i e' hj
      cases h
      rw [upd_pc hp]
      by_cases e : j = i
      · subst e; rw [hp] at hj; cases hj; rw [if_pos rfl]; exact .inr ⟨_, rfl, .recorded rfl⟩
      · rw [if_neg e]; exact .inl rfl
    · cases h
  | errCb j =>
    simp only [step] at h
    split at h
    · rename_i e' hj
      cases h
      rw [upd_pc hp]
      by_cases e : j = i
      · subst e; rw [hp] at hj; cases hj; rw [if_pos rfl]; exact .inr ⟨_, rfl, .called⟩
      · rw [if_neg e]; exact .inl rfl
    · cases h
  | reset j =>
    simp only [step] at h
    split at h
    · rename_i hj
      cases h
      rw [upd_pc hp]
      by_cases e : j = i
      · subst e; rw [hp] at hj; cases hj; rw [if_pos rfl]; exact .inr ⟨_, rfl, .reset rfl⟩
      · rw [if_neg e]; exact .inl rfl
    · cases h

/-- A new call has read the clock. -/
theorem step_new {s : State} {x : Action} {s' : State} (h : step s x = some s') {i : Nat} {q : PC} (hp : s.pcs[i]? = none) (hq : s'.pcs[i]? = some q) :
    ∃ now, q = .deciding now := by
  have hlen : ∀ (b : Breaker) (j : Nat) (p : PC) (ev : List Ev), (s.upd b j p ev).pcs[i]? = none := by
    intro b j p ev
    rw [List.getElem?_eq_none_iff] at hp ⊢
    simpa [State.upd] using hp
  cases x with
  | call now =>
    cases h
    rw [List.getElem?_eq_none_iff] at hp
    rw [List.getElem?_append_right hp] at hq
    cases hd : i - s.pcs.length with
    | zero => rw [hd] at hq; simp at hq; exact ⟨now, hq.symm⟩
    | succ n => rw [hd] at hq; simp at hq
  | _ =>
    simp only [step] at h
    split at h
    · first
        | (cases h; rw [hlen] at hq; cases hq)
        | (split at h <;> cases h <;> rw [hlen] at hq <;> cases hq)
    · cases h

/-- The breaker changes only when a call records how its task ended. -/
theorem step_b {s : State} {x : Action} {s' : State} (h : step s x = some s') : s'.b = s.b ∨
    (∃ (i e : Nat) (now : Int), s.pcs[i]? = some (.failed e) ∧ s'.b = s.b.recordFailure now) ∨ ∃ i : Nat, s.pcs[i]? = some .succeeded ∧ s'.b = s.b.reset := by
  cases x with
  | call now => cases h; exact .inl rfl
  | record i now =>
    simp only [step] at h
    split at h
    · rename_i e hj; cases h; exact .inr (.inl ⟨i, e, now, hj, rfl⟩)
    · cases h
  | reset i =>
    simp only [step] at h
    split at h
    · rename_i hj; cases h; exact .inr (.inr ⟨i, hj, rfl⟩)
    · cases h
  | _ =>
    left
    simp only [step] at h
    split at h
    · first
        | (cases h; rfl)
        | (split at h <;> cases h <;> rfl)
    · cases h

/-- The parameters stay. -/
theorem step_params {s : State} {x : Action} {s' : State} (h : step s x = some s') : s'.b.threshold = s.b.threshold ∧ s'.b.timeout = s.b.timeout := by
  rcases step_b h with e | ⟨_, _, _, -, e⟩ | ⟨_, -, e⟩ <;> rw [e] <;> exact ⟨rfl, rfl⟩

section
variable {th to : Int} {s : Nat → State} {a : Nat → Option Action}

theorem Execution.params (H : Execution th to s a) (j : Nat) : (s j).b.threshold = th ∧ (s j).b.timeout = to := by
  obtain ⟨as, has⟩ := H.run.reach H.start j
  refine exec_inv (I := fun s : State => s.b.threshold = th ∧ s.b.timeout = to) (fun s x s' hi hx => ?_) as _ _ ⟨rfl, rfl⟩ has
  obtain ⟨e1, e2⟩ := step_params hx
  rw [e1, e2]; exact hi

/-- A call that has not returned goes on some time. -/
theorem Execution.progress (H : Execution th to s a) {k i : Nat} {p : PC} (hp : (s k).pcs[i]? = some p) (hd : p ≠ .done) :
    ∃ j x q, k ≤ j ∧ a j = some x ∧ (s j).pcs[i]? = some p ∧ (s (j + 1)).pcs[i]? = some q ∧ Tr i (s j) x (s (j + 1)) p q := by
  obtain ⟨j, hj, hne⟩ := H.goes k i p hp hd
  have hc : ∃ j, k ≤ j ∧ (s (j + 1)).pcs[i]? ≠ (s j).pcs[i]? := by
    refine Classical.byContradiction fun h => hne ?_
    rw [never_change (fun m => (s m).pcs[i]?) k h j hj]; exact hp
  obtain ⟨m, hm, hall, hne⟩ := first_change (fun m => (s m).pcs[i]?) k hc
  have hpm : (s m).pcs[i]? = some p := by rw [hall m hm (Nat.le_refl _)]; exact hp
  rcases H.run.next m with e | ⟨x, hx, e⟩
  · exact absurd (by rw [e]; exact hall m hm (Nat.le_refl _)) hne
  · rcases step_tr e hpm with h | ⟨q, h, t⟩
    · exact absurd (by rw [h, hp]) hne
    · exact ⟨m, x, q, hm, hx, hpm, h, t⟩

/-- What calls leave and do not come to any more, there is none of some time. -/
theorem Execution.drain (H : Execution th to s a) (bad : PC → Prop) (N : Nat) (hdone : ∀ p, bad p → p ≠ .done) (hnew : ∀ now, ¬ bad (.deciding now))
    (hin : ∀ (j : Nat) (x : Action) (i : Nat) (p q : PC), N ≤ j → a j = some x → (s j).pcs[i]? = some p → (s (j + 1)).pcs[i]? = some q → Tr i (s j) x (s (j + 1)) p q → ¬ bad q) :
    ∃ M, N ≤ M ∧ ∀ (j i : Nat) (p : PC), M ≤ j → (s j).pcs[i]? = some p → ¬ bad p := by
  have keep : ∀ (i k : Nat), N ≤ k → (∀ p, (s k).pcs[i]? = some p → ¬ bad p) → ∀ j, k ≤ j → ∀ p, (s j).pcs[i]? = some p → ¬ bad p := by
    intro i k hk h0 j hj
    obtain ⟨n, rfl⟩ := Nat.exists_eq_add_of_le hj
    clear hj
    induction n with
    | zero => exact h0
    | succ n ih =>
      intro q hq
      rcases H.run.next (k + n) with e | ⟨x, hx, e⟩
      · rw [show k + (n + 1) = k + n + 1 by omega, e] at hq; exact ih q hq
      · cases hp : (s (k + n)).pcs[i]? with
        | none =>
          obtain ⟨now, rfl⟩ := step_new e hp hq
          exact hnew now
        | some p =>
          rcases step_tr e hp with h | ⟨q', h, t⟩
          · rw [show k + (n + 1) = k + n + 1 by omega, h] at hq
            cases hq
            exact ih _ hp
          · rw [show k + (n + 1) = k + n + 1 by omega, h] at hq
            cases hq
            exact hin _ x i p q (by omega) hx hp h t
  have each : ∀ i : Nat, ∃ M, N ≤ M ∧ ∀ j p, M ≤ j → (s j).pcs[i]? = some p → ¬ bad p := by
    intro i
    by_cases hb : ∃ p, (s N).pcs[i]? = some p ∧ bad p
    · obtain ⟨p, hp, hb⟩ := hb
      obtain ⟨j, x, q, hj, hx, hpj, hq, t⟩ := H.progress hp (hdone p hb)
      have hq' := hin j x i p q hj hx hpj hq t
      exact ⟨j + 1, by omega, fun j' p' hj' => keep i (j + 1) (by omega) (fun r hr => by rw [hq] at hr; cases hr; exact hq') j' hj' p'⟩
    · exact ⟨N, Nat.le_refl _, fun j p hj => keep i N (Nat.le_refl _) (fun p hp hb' => hb ⟨p, hp, hb'⟩) j hj p⟩
  have upto : ∀ n, ∃ M, N ≤ M ∧ ∀ (j i : Nat) (p : PC), i < n → M ≤ j → (s j).pcs[i]? = some p → ¬ bad p := by
    intro n
    induction n with
    | zero => exact ⟨N, Nat.le_refl _, fun _ _ _ h => absurd h (Nat.not_lt_zero _)⟩
    | succ n ih =>
      obtain ⟨M, h1, h2⟩ := ih
      obtain ⟨M', h1', h2'⟩ := each n
      refine ⟨max M M', by omega, fun j i p hi hj hp => ?_⟩
      by_cases e : i = n
      · subst e; exact h2' j p (by omega) hp
      · exact h2 j i p (by omega) (by omega) hp
  obtain ⟨M, h1, h2⟩ := upto (s N).pcs.length
  refine ⟨M, h1, fun j i p hj hp => ?_⟩
  by_cases hi : i < (s N).pcs.length
  · exact h2 j i p hi hj hp
  · exact keep i N (Nat.le_refl _) (fun p hp => by rw [List.getElem?_eq_none (by omega)] at hp; cases hp) j (by omega) p hp

/-- A call that is made has read the clock. -/
theorem Execution.called (H : Execution th to s a) {j : Nat} {now : Int} (h : a j = some (.call now)) :
    ∃ i : Nat, (s (j + 1)).pcs[i]? = some (.deciding now) := by
  have := H.run j
  rw [h] at this
  simp only [step, Option.some.injEq] at this
  exact ⟨(s j).pcs.length, by rw [← this]; simp⟩

def isFailed : PC → Prop
  | .failed _ => True
  | _ => False

/-- If nobody is about to record anything, the breaker stays as it is. -/
theorem Execution.quiet (H : Execution th to s a) {M : Nat} (hf : ∀ (j i : Nat) (p : PC), M ≤ j → (s j).pcs[i]? = some p → ¬ (isFailed p ∨ p = .succeeded)) :
    ∀ j, M ≤ j → (s j).b = (s M).b := by
  intro j hj
  obtain ⟨n, rfl⟩ := Nat.exists_eq_add_of_le hj
  clear hj
  induction n with
  | zero => rfl
  | succ n ih =>
    rcases H.run.next (M + n) with e | ⟨x, -, e⟩
    · rw [show M + (n + 1) = M + n + 1 by omega, e]; exact ih
    · rcases step_b e with h | ⟨i, e', now, hp, -⟩ | ⟨i, hp, -⟩
      · rw [show M + (n + 1) = M + n + 1 by omega, h]; exact ih
      · exact absurd (.inl trivial) (hf (M + n) i _ (by omega) hp)
      · exact absurd (.inr rfl) (hf (M + n) i _ (by omega) hp)

/-- A call with a late clock reading is not refused. -/
theorem mode_late {b : Breaker} {now : Int} (h : b.lastTs + b.timeout < now) : b.mode now ≠ .opened := by
  unfold Breaker.mode
  by_cases hf : b.failures ≥ b.threshold
  · rw [if_pos ⟨hf, by omega⟩]; decide
  · rw [if_neg (fun h => hf h.1), if_neg hf]; decide

theorem mode_closed {b : Breaker} {now : Int} (h : b.failures < b.threshold) : b.mode now = .closed := by
  unfold Breaker.mode
  rw [if_neg (fun h' => absurd h'.1 (by omega)), if_neg (by omega)]

/-! ## The property -/

/-- **C164.**  Every call of `Do` returns. -/
theorem C164_returns (H : Execution th to s a) (k i : Nat) (hi : i < (s k).pcs.length) : ∃ j, k ≤ j ∧ (s j).pcs[i]? = some .done := by
  have hp : (s k).pcs[i]? = some (s k).pcs[i] := List.getElem?_eq_getElem hi
  generalize (s k).pcs[i] = p at hp
  clear hi
  -- from the end to the beginning
  have hdone : ∀ k, (s k).pcs[i]? = some .done → ∃ j, k ≤ j ∧ (s j).pcs[i]? = some .done := fun k h => ⟨k, Nat.le_refl _, h⟩
  have one : ∀ {P : PC → Prop} {p : PC}, p ≠ .done → (∀ k q, P q → (s k).pcs[i]? = some q → ∃ j, k ≤ j ∧ (s j).pcs[i]? = some .done) →
      (∀ j x q, Tr i (s j) x (s (j + 1)) p q → P q) → ∀ k, (s k).pcs[i]? = some p → ∃ j, k ≤ j ∧ (s j).pcs[i]? = some .done := by
    intro P p hd hP ht k hk
    obtain ⟨j, x, q, hj, -, -, hq, t⟩ := H.progress hk hd
    obtain ⟨j', h1, h2⟩ := hP (j + 1) q (ht j x q t) hq
    exact ⟨j', by omega, h2⟩
  have hlast : ∀ p, p = .openCb ∨ (∃ e, p = .errCb e) ∨ p = .succeeded → ∀ k, (s k).pcs[i]? = some p → ∃ j, k ≤ j ∧ (s j).pcs[i]? = some .done := by
    intro p hp
    refine one (P := fun q => q = .done) ?_ (fun k q hq h => hdone k (by rw [h, hq])) ?_
    · rcases hp with rfl | ⟨e, rfl⟩ | rfl <;> simp
    · intro j x q t
      rcases hp with rfl | ⟨e, rfl⟩ | rfl <;> cases t <;> rfl
  have hfail : ∀ e k, (s k).pcs[i]? = some (.failed e) → ∃ j, k ≤ j ∧ (s j).pcs[i]? = some .done := fun e =>
    one (P := fun q => ∃ e, q = .errCb e) (by simp) (fun k q hq h => hlast q (.inr (.inl hq)) k h) fun j x q t => by cases t; exact ⟨_, rfl⟩
  have hrun : ∀ k, (s k).pcs[i]? = some .running → ∃ j, k ≤ j ∧ (s j).pcs[i]? = some .done :=
    one (P := fun q => q = .done ∨ q = .succeeded ∨ ∃ e, q = .failed e) (by simp)
      (fun k q hq h => by
        rcases hq with rfl | rfl | ⟨e, rfl⟩
        · exact hdone k h
        · exact hlast _ (.inr (.inr rfl)) k h
        · exact hfail e k h)
      fun j x q t => by
        cases t
        · exact .inr (.inr ⟨_, rfl⟩)
        · exact .inr (.inl rfl)
        · exact .inl rfl
  have hdec : ∀ now k, (s k).pcs[i]? = some (.deciding now) → ∃ j, k ≤ j ∧ (s j).pcs[i]? = some .done := fun now =>
    one (P := fun q => q = .openCb ∨ q = .running) (by simp)
      (fun k q hq h => by
        rcases hq with rfl | rfl
        · exact hlast _ (.inl rfl) k h
        · exact hrun k h)
      fun j x q t => by
        cases t
        · exact .inl rfl
        · exact .inr rfl
  cases p with
  | deciding now => exact hdec now k hp
  | openCb => exact hlast _ (.inl rfl) k hp
  | running => exact hrun k hp
  | failed e => exact hfail e k hp
  | errCb e => exact hlast _ (.inr (.inl ⟨e, rfl⟩)) k hp
  | succeeded => exact hlast _ (.inr (.inr rfl)) k hp
  | done => exact hdone k hp

/-- The breaker never refuses for ever: whatever the tasks do, again and again one is started. -/
theorem C164_retries (H : Execution th to s a) (hc : CalledLate a) : ∀ k, ∃ j, k ≤ j ∧ StartsAt s j := by
  intro k
  refine Classical.byContradiction fun hno => ?_
  have hno' : ∀ j, k ≤ j → ¬ StartsAt s j := fun j hj h => hno ⟨j, hj, h⟩
  -- no task is running some time
  obtain ⟨M1, hM1, h1⟩ := H.drain (fun p => p = .running) k (by rintro p rfl; simp) (by simp) (by
    intro j x i p q hj hx hp hq t e
    subst e
    cases t
    exact hno' j hj ⟨i, _, hp, hq⟩)
  -- and none is recorded any more
  obtain ⟨M2, hM2, h2⟩ := H.drain (fun p => isFailed p ∨ p = .succeeded) M1 (by rintro p (h | rfl); cases p <;> simp [isFailed] at h ⊢; simp) (by simp [isFailed]) (by
    intro j x i p q hj hx hp hq t e
    have hr : p = .running := by
      cases t <;> simp [isFailed] at e ⊢
    exact h1 j i p hj hp hr)
  have hb := H.quiet h2
  obtain ⟨j, now, hj, hlate, hcall⟩ := hc M2 ((s M2).b.lastTs + (s M2).b.timeout)
  obtain ⟨i, hi⟩ := H.called hcall
  obtain ⟨m, x, q, hm, -, hpm, hq, t⟩ := H.progress hi (by simp)
  have hmode : (s m).b.mode now ≠ .opened := by
    rw [hb m (by omega)]; exact mode_late hlate
  cases t with
  | refused h => exact hmode h
  | started h => exact hno' m (by omega) ⟨i, now, hpm, hq⟩

/-- **C164.**  When the tasks succeed again, the breaker closes some time, and stays closed. -/
theorem C164_recovers (H : Execution th to s a) (hth : 0 < th) (hc : CalledLate a) (N : Nat) (hs : SucceedFrom a N) :
    ∃ M, ∀ j, M ≤ j → ∀ now, (s j).b.mode now = .closed := by
  -- the failures in progress are recorded
  obtain ⟨M, hM, hf⟩ := H.drain isFailed N (by intro p h; cases p <;> simp [isFailed] at h ⊢) (by simp [isFailed]) (by
    intro j x i p q hj hx hp hq t e
    cases t <;> simp [isFailed] at e
    rename_i e' ht
    subst ht
    have := hs j i _ hj hx
    cases this)
  -- some success is recorded
  obtain ⟨K, hK, hz⟩ : ∃ K, M ≤ K ∧ (s K).b.failures = 0 := by
    obtain ⟨k1, hk1, i0, now0, hst, hru⟩ := C164_retries H hc M
    obtain ⟨j, x, q, hj, hx, -, hq, t⟩ := H.progress hru (by simp)
    have hq' : q = .succeeded := by
      cases t with
      | err h => subst h; have := hs j i0 _ (by omega) hx; cases this
      | ok h => rfl
      | panic h => subst h; have := hs j i0 _ (by omega) hx; cases this
    subst hq'
    obtain ⟨j', x', q', hj', -, -, -, t'⟩ := H.progress hq (by simp)
    cases t' with
    | reset hb => exact ⟨j' + 1, by omega, by rw [hb]; rfl⟩
  refine ⟨K, fun j hj now => mode_closed ?_⟩
  rw [(H.params j).1]
  have : (s j).b.failures = 0 := by
    obtain ⟨n, rfl⟩ := Nat.exists_eq_add_of_le hj
    clear hj
    induction n with
    | zero => exact hz
    | succ n ih =>
      rcases H.run.next (K + n) with e | ⟨x, -, e⟩
      · rw [show K + (n + 1) = K + n + 1 by omega, e]; exact ih
      · rcases step_b e with h | ⟨i, e', now, hp, -⟩ | ⟨i, hp, h⟩
        · rw [show K + (n + 1) = K + n + 1 by omega, h]; exact ih
        · exact absurd trivial (hf (K + n) i _ (by omega) hp)
        · rw [show K + (n + 1) = K + n + 1 by omega, h]; rfl
  omega

/-- **C164.**  When the tasks fail, the breaker opens some time, and does not close: a call is refused unless the reset timeout has
passed since the failure that was recorded last. -/
theorem C164_opens (H : Execution th to s a) (hc : Called a) (N : Nat) (hs : FailFrom a N) :
    ∃ M, ∀ j, M ≤ j → ∀ now, (s j).b.mode now = if (s j).b.lastTs + to < now then .halfOpen else .opened := by
  obtain ⟨M, hM, hf⟩ := H.drain (fun p => p = .succeeded) N (by rintro p rfl; simp) (by simp) (by
    intro j x i p q hj hx hp hq t e
    subst e
    cases t
    rename_i ht
    subst ht
    obtain ⟨e, he⟩ := hs j i _ hj hx
    cases he)
  have hmono1 : ∀ j, M ≤ j → (s j).b.failures ≤ (s (j + 1)).b.failures := by
    intro j hj
    rcases H.run.next j with e | ⟨x, -, e⟩
    · rw [e]; exact Int.le_refl _
    · rcases step_b e with h | ⟨i, e', now, hp, h⟩ | ⟨i, hp, -⟩
      · rw [h]; exact Int.le_refl _
      · rw [h]; simp only [Breaker.recordFailure]; omega
      · exact absurd rfl (hf j i _ hj hp)
  have hmono : ∀ j n, M ≤ j → (s j).b.failures ≤ (s (j + n)).b.failures := by
    intro j n hj
    induction n with
    | zero => exact Int.le_refl _
    | succ n ih => exact Int.le_trans ih (hmono1 (j + n) (by omega))
  have hmono' : ∀ j j', M ≤ j → j ≤ j' → (s j).b.failures ≤ (s j').b.failures := by
    intro j j' hj hjj
    have := hmono j (j' - j) hj
    rwa [show j + (j' - j) = j' by omega] at this
  have hopen : ∃ K, M ≤ K ∧ th ≤ (s K).b.failures := by
    refine Classical.byContradiction fun hno => ?_
    have hlt : ∀ j, M ≤ j → (s j).b.failures < th := fun j hj => by
      refine Classical.byContradiction fun h => hno ⟨j, hj, by omega⟩
    have hgrow : ∀ n : Nat, ∃ j, M ≤ j ∧ (s M).b.failures + n ≤ (s j).b.failures := by
      intro n
      induction n with
      | zero => exact ⟨M, Nat.le_refl _, by simp⟩
      | succ n ih =>
        obtain ⟨j, hj, hle⟩ := ih
        obtain ⟨k, now, hk, hcall⟩ := hc j
        obtain ⟨i, hi⟩ := H.called hcall
        obtain ⟨m, x, q, hm, -, hpm, hq, t⟩ := H.progress hi (by simp)
        have hmode : (s m).b.mode now = .closed := mode_closed (by rw [(H.params m).1]; exact hlt m (by omega))
        have hq' : q = .running := by
          cases t with
          | refused h => rw [hmode] at h; cases h
          | started h => rfl
        subst hq'
        obtain ⟨m2, x2, q2, hm2, hx2, -, hq2, t2⟩ := H.progress hq (by simp)
        obtain ⟨e, he⟩ : ∃ e, q2 = .failed e := by
          cases t2 with
          | err h => exact ⟨_, rfl⟩
          | ok h => subst h; obtain ⟨e, he⟩ := hs m2 i _ (by omega) hx2; cases he
          | panic h => subst h; obtain ⟨e, he⟩ := hs m2 i _ (by omega) hx2; cases he
        subst he
        obtain ⟨m3, x3, q3, hm3, -, -, -, t3⟩ := H.progress hq2 (by simp)
        cases t3 with
        | recorded hb =>
          refine ⟨m3 + 1, by omega, ?_⟩
          have := hmono' j m3 hj (by omega)
          rw [hb]
          simp only [Breaker.recordFailure]
          omega
    obtain ⟨j, hj, hle⟩ := hgrow (th - (s M).b.failures).toNat
    have := hlt j hj
    have := hlt M (Nat.le_refl _)
    omega
  obtain ⟨K, hK, hfail⟩ := hopen
  refine ⟨K, fun j hj now => ?_⟩
  have h1 := hmono' K j hK hj
  obtain ⟨p1, p2⟩ := H.params j
  unfold Breaker.mode
  rw [p1, p2]
  by_cases hl : (s j).b.lastTs + to < now
  · rw [if_pos ⟨by omega, by omega⟩, if_pos hl]
  · rw [if_neg (fun h => hl (by omega)), if_pos (by omega), if_neg hl]

end

/-! ## Examples -/

theorem last_get (N : Nat) (p : PC) : (List.replicate N PC.done ++ [p])[N]? = some p := by
  rw [List.getElem?_append_right (by simp)]; simp

theorem last_set (N : Nat) (p q : PC) : (List.replicate N PC.done ++ [p]).set N q = List.replicate N PC.done ++ [q] := by
  rw [List.set_append_right _ _ (by simp)]; simp

/-- A call after the other. -/
def seqS (b : Nat → Breaker) (ev : Nat → List Ev) (N : Nat) : State := ⟨b N, List.replicate N .done, (List.range N).flatMap ev⟩

theorem seq_goes {L : Nat} (hL : 0 < L) (b : Nat → Breaker) (ev : Nat → List Ev) (l : Nat → List Action) (k i : Nat) (p : PC)
    (hp : (blockS step L (seqS b ev) l k).pcs[i]? = some p) (hd : p ≠ .done) : ∃ j, k ≤ j ∧ (blockS step L (seqS b ev) l j).pcs[i]? ≠ some p := by
  refine ⟨L * (k + 1), ?_, ?_⟩
  · exact Nat.le_trans (Nat.le_succ k) (Nat.le_mul_of_pos_left _ hL)
  · rw [block_at hL]
    simp only [seqS, List.getElem?_replicate]
    split
    · intro h; cases h; exact hd rfl
    · simp

def okEv (N : Nat) : List Ev := [.start N N, .finish N .ok, .recOk N]

def okActs (N : Nat) : List Action := [.call N, .decide N, .taskEnd N .ok, .reset N]

theorem ok_exec (N : Nat) : exec step (seqS (fun _ => new 1 1) okEv N) (okActs N) = some (seqS (fun _ => new 1 1) okEv (N + 1)) := by
  have hm : (new 1 1).mode N = .closed := mode_closed (by decide)
  have hr : (new 1 1).reset = new 1 1 := rfl
  simp only [okActs, seqS, exec, step, last_get, last_set, hm, hr, State.upd, List.replicate_succ', List.range_succ, List.flatMap_append, List.flatMap_cons,
    List.flatMap_nil, okEv, List.append_assoc, List.cons_append, List.nil_append, List.append_nil]

/-- Tasks that succeed. -/
example : ∃ (s : Nat → State) (a : Nat → Option Action), Execution 1 1 s a ∧ CalledLate a ∧ SucceedFrom a 0 := by
  have hrun : IsRun step (blockS step 4 (seqS (fun _ => new 1 1) okEv) okActs) (fun i => (okActs (i / 4))[i % 4]?) := block_run (by decide) (fun _ => rfl) ok_exec
  refine ⟨_, _, ⟨hrun, ⟨[], rfl⟩, fun k i p => seq_goes (by decide) _ _ _ k i p⟩, fun k T => ?_, fun j i o _ h => ?_⟩
  · refine ⟨4 * (k + T.toNat + 1), ((k + T.toNat + 1 : Nat) : Int), by omega, by omega, ?_⟩
    · show (okActs (4 * (k + T.toNat + 1) / 4))[4 * (k + T.toNat + 1) % 4]? = _
      rw [Nat.mul_div_cancel_left _ (by decide), Nat.mul_mod_right]; rfl
  · have := List.mem_of_getElem? h
    simp [okActs] at this
    exact this.2

def errBr (N : Nat) : Breaker := ⟨1, 1, N, 2 * N⟩

def errEv (N : Nat) : List Ev := [.start N (2 * N + 2), .finish N (.err 0), .recFail N (2 * N + 2), .onError N 0]

def errActs (N : Nat) : List Action := [.call (2 * N + 2), .decide N, .taskEnd N (.err 0), .record N (2 * N + 2), .errCb N]

theorem err_exec (N : Nat) : exec step (seqS errBr errEv N) (errActs N) = some (seqS errBr errEv (N + 1)) := by
  have hr : (errBr N).recordFailure (2 * N + 2) = errBr (N + 1) := by
    simp only [errBr, Breaker.recordFailure, Breaker.mk.injEq, true_and]
    omega
  have hm : (errBr N).mode (2 * N + 2) = .closed ∨ (errBr N).mode (2 * N + 2) = .halfOpen := by
    unfold Breaker.mode
    by_cases h : (errBr N).failures ≥ (errBr N).threshold
    · right; rw [if_pos ⟨h, by simp only [errBr]; omega⟩]
    · left; rw [if_neg (fun h' => h h'.1), if_neg h]
  rcases hm with hm | hm <;>
  simp only [errActs, seqS, exec, step, last_get, last_set, hm, hr, State.upd, List.replicate_succ', List.range_succ, List.flatMap_append, List.flatMap_cons,
    List.flatMap_nil, errEv, List.append_assoc, List.cons_append, List.nil_append, List.append_nil]

/-- Tasks that fail. -/
example : ∃ (s : Nat → State) (a : Nat → Option Action), Execution 1 1 s a ∧ CalledLate a ∧ Called a ∧ FailFrom a 0 := by
  have hrun : IsRun step (blockS step 5 (seqS errBr errEv) errActs) (fun i => (errActs (i / 5))[i % 5]?) := block_run (by decide) (fun _ => rfl) err_exec
  have hc : CalledLate (fun i => (errActs (i / 5))[i % 5]?) := by
    intro k T
    refine ⟨5 * (k + T.toNat + 1), 2 * ((k + T.toNat + 1 : Nat) : Int) + 2, by omega, by omega, ?_⟩
    · show (errActs (5 * (k + T.toNat + 1) / 5))[5 * (k + T.toNat + 1) % 5]? = _
      rw [Nat.mul_div_cancel_left _ (by decide), Nat.mul_mod_right]; rfl
  refine ⟨_, _, ⟨hrun, ⟨[], rfl⟩, fun k i p => seq_goes (by decide) _ _ _ k i p⟩, hc, fun k => ?_, fun j i o _ h => ?_⟩
  · obtain ⟨j, now, h1, -, h2⟩ := hc k 0
    exact ⟨j, now, h1, h2⟩
  · have := List.mem_of_getElem? h
    simp [errActs] at this
    exact ⟨0, this.2⟩

end Gears.CircuitBreaker.Live
