import Verif.CircuitBreaker.Props

/-
Calls of `Do` made from inside tasks and callbacks (C173): /repo/circuitbreaker/circuitbreaker.go:75-119.

The task, `onError` and `onOpen` are run by `Do` itself, without the lock (77-85), so they may call `Do` again, of the
same breaker or of another one, to any depth.  One goroutine, any number of breakers; a call is given by what its task
and callbacks would do.  A panic ends the task or callback that it is in and every call around it: `recordFailure`,
`reset` and the callbacks of these calls are not reached (80-84, no `recover`).  Clock readings are arbitrary inputs.
Not modelled: a task that recovers a panic of a call made inside it, and one that chooses its later calls by the effects
of earlier ones (every such choice is one of the calls quantified over).
-/

namespace Gears.CircuitBreaker.Nested

open Gears Gears.CircuitBreaker

/-- One call of `Do` (75-89). -/
inductive Do where
  /-- breaker `k`; clock `now` at line 100; the calls the task makes, and how it ends; clock `now2` at line 96; the calls
  `onError` makes and whether it then panics; the same for `onOpen` -/
  | mk (k : Nat) (now : Int) (task : List Do) (o : Outcome) (now2 : Int) (err : List Do) (errPanics : Bool)
      (opn : List Do) (opnPanics : Bool)

/-- The breakers, the number of calls each has had, and the events of all of them in order. -/
structure World where
  bs  : Nat → Breaker
  ids : Nat → Nat
  tr  : List (Nat × Ev)

def upd {α : Type} (f : Nat → α) (k : Nat) (x : α) : Nat → α := fun j => if j = k then x else f j

def World.emit (w : World) (k : Nat) (evs : List Ev) : World := { w with tr := w.tr ++ evs.map (fun e => (k, e)) }

def World.set (w : World) (k : Nat) (b : Breaker) : World := { w with bs := upd w.bs k b }

mutual
/-- `Do` (75-89); `true` if it ends by a panic. -/
def Do.run : Do → World → World × Bool
  | .mk k now task o now2 err ep opn op, w =>
    let i := w.ids k
    let w := { w with ids := upd w.ids k (i + 1) }
    match (w.bs k).mode now with
    | .opened =>
      let r := runList opn (w.emit k [.refuse i now, .onOpen i])
      (r.1, r.2 || op)
    | .closed | .halfOpen =>
      let r := runList task (w.emit k [.start i now])
      if r.2 then (r.1.emit k [.finish i .panic], true)
      else match o with
        | .err e =>
          let w := (r.1.set k ((r.1.bs k).recordFailure now2)).emit k [.finish i (.err e), .recFail i now2, .onError i e]
          let r := runList err w
          (r.1, r.2 || ep)
        | .ok => ((r.1.set k (r.1.bs k).reset).emit k [.finish i .ok, .recOk i], false)
        | .panic => (r.1.emit k [.finish i .panic], true)
/-- Calls one after the other; a panic of one of them ends it. -/
def runList : List Do → World → World × Bool
  | [], w => (w, false)
  | d :: ds, w =>
    let r := d.run w
    if r.2 then (r.1, true) else runList ds r.1
end

/-- Fresh breakers (58-64), with parameters `p`. -/
def World.fresh (p : Nat → Int × Int) : World := ⟨fun k => new (p k).1 (p k).2, fun _ => 0, []⟩

/-- The events of breaker `k`. -/
def eventsOf (k : Nat) (tr : List (Nat × Ev)) : List Ev := tr.filterMap (fun x => if x.1 = k then some x.2 else none)

/-! ### Nested calls are an interleaving -/

/-- Breaker `k` of the world is in the state `s` of the transition system of concurrent calls. -/
def Rel (p : Nat → Int × Int) (w : World) (k : Nat) (s : State) : Prop :=
  Reachable step (init (p k).1 (p k).2) s ∧ s.b = w.bs k ∧ s.pcs.length = w.ids k ∧ s.log = eventsOf k w.tr

/-- Every breaker is in such a state, the calls under way in `S` are where they were, and the calls made since are
finished. -/
def Moves (p : Nat → Int × Int) (S : Nat → State) (w' : World) : Prop :=
  ∃ S' : Nat → State, (∀ k, Rel p w' k (S' k)) ∧
    (∀ k i, i < (S k).pcs.length → (S' k).pcs[i]? = (S k).pcs[i]?) ∧
    ∀ k i q, (S k).pcs.length ≤ i → (S' k).pcs[i]? = some q → q = .done

theorem events_emit (w : World) (k j : Nat) (evs : List Ev) :
    eventsOf j (w.emit k evs).tr = eventsOf j w.tr ++ (if k = j then evs else []) := by
  simp only [eventsOf, World.emit, List.filterMap_append, List.filterMap_map]
  congr 1
  split
  · next h => subst h; induction evs with
    | nil => rfl
    | cons e es ih => simpa using ih
  · next h => induction evs with
    | nil => rfl
    | cons e es ih => simp [h]

/-- A step of breaker `k` alone. -/
theorem advance {p : Nat → Int × Int} {w w' : World} {S : Nat → State} (hS : ∀ j, Rel p w j (S j)) (k : Nat)
    (as : List Action) (s' : State) (hx : exec step (S k) as = some s')
    (hb : w'.bs = upd w.bs k s'.b) (hi : w'.ids = upd w.ids k s'.pcs.length)
    (evs : List Ev) (ht : w'.tr = w.tr ++ evs.map (fun e => (k, e))) (hl : s'.log = (S k).log ++ evs) :
    ∀ j, Rel p w' j (upd S k s' j) := by
  intro j
  have he : eventsOf j w'.tr = eventsOf j w.tr ++ (if k = j then evs else []) := by
    have := events_emit w k j evs
    simpa [World.emit, ht] using this
  obtain ⟨h1, h2, h3, h4⟩ := hS j
  by_cases hj : j = k
  · subst hj
    refine ⟨?_, ?_, ?_, ?_⟩
    · simpa [upd] using h1.trans ⟨as, hx⟩
    · simp [upd, hb]
    · simp [upd, hi]
    · simp [upd, he, hl, h4]
  · refine ⟨?_, ?_, ?_, ?_⟩
    · simpa [upd, hj] using h1
    · simp [upd, hj, hb, h2]
    · simp [upd, hj, hi, h3]
    · have : ¬ k = j := fun h => hj h.symm
      simp [upd, hj, he, this, h4]

mutual
theorem run_moves (p : Nat → Int × Int) : ∀ (d : Do) (w : World) (S : Nat → State), (∀ k, Rel p w k (S k)) →
    Moves p S (d.run w).1
  | .mk k now task o now2 err ep opn op, w, S, hS => by
    have hlen := (hS k).2.2.1
    have hbk := (hS k).2.1
    have hget : ((S k).pcs ++ [PC.deciding now])[w.ids k]? = some (.deciding now) := by
      rw [← hlen]; simp
    have old : ∀ (s' : State), (∀ i, i < (S k).pcs.length → s'.pcs[i]? = (S k).pcs[i]?) →
        ∀ j i, i < (S j).pcs.length → (upd S k s' j).pcs[i]? = (S j).pcs[i]? := by
      intro s' h j i hi
      by_cases hj : j = k
      · subst hj; simpa [upd] using h i hi
      · simp [upd, hj]
    rw [Do.run]
    dsimp only
    have started : (S k).b.mode now ≠ .opened →
        ∃ S1 : Nat → State,
          (∀ j, Rel p (World.emit { w with ids := upd w.ids k (w.ids k + 1) } k [.start (w.ids k) now]) j (S1 j)) ∧
          (S1 k).pcs[w.ids k]? = some .running ∧
          ∀ j i, i < (S j).pcs.length → (S1 j).pcs[i]? = (S j).pcs[i]? := by
      intro hm
      refine ⟨_, advance hS k [.call now, .decide (w.ids k)]
        ⟨(S k).b, ((S k).pcs ++ [PC.deciding now]).set (w.ids k) .running, (S k).log ++ [.start (w.ids k) now]⟩ ?_ ?_ ?_
        [.start (w.ids k) now] rfl rfl, ?_, old _ ?_⟩
      · cases hmode : (S k).b.mode now with
        | opened => exact absurd hmode hm
        | closed => simp [exec, step, hget, hmode, State.upd]
        | halfOpen => simp [exec, step, hget, hmode, State.upd]
      · funext j; simp only [World.emit, upd]; split
        · next h => rw [h, hbk]
        · rfl
      · simp [World.emit, hlen]
      · simp [upd, ← hlen]
      · intro i hi
        have : ¬ w.ids k = i := by omega
        simp [this, List.getElem?_append, hi]
    have ran : (S k).b.mode now ≠ .opened →
        Moves p S (let r := runList task (World.emit { w with ids := upd w.ids k (w.ids k + 1) } k [.start (w.ids k) now])
          if r.2 then (r.1.emit k [.finish (w.ids k) .panic], true)
          else match o with
            | .err e =>
              let w' := (r.1.set k ((r.1.bs k).recordFailure now2)).emit k
                [.finish (w.ids k) (.err e), .recFail (w.ids k) now2, .onError (w.ids k) e]
              let r := runList err w'
              (r.1, r.2 || ep)
            | .ok => ((r.1.set k (r.1.bs k).reset).emit k [.finish (w.ids k) .ok, .recOk (w.ids k)], false)
            | .panic => (r.1.emit k [.finish (w.ids k) .panic], true)).1 := by
      intro hm
      obtain ⟨S1, hS1, hrun, hold⟩ := started hm
      obtain ⟨S2, hS2, hold2, hdone2⟩ := list_moves p task _ S1 hS1
      have hlenS1 : ∀ j, (S1 j).pcs.length = if j = k then (S k).pcs.length + 1 else (S j).pcs.length := by
        intro j
        rw [(hS1 j).2.2.1]
        simp only [World.emit, upd]
        split
        · rw [hlen]
        · rw [(hS j).2.2.1]
      have hlt : w.ids k < (S1 k).pcs.length := by
        have := (List.getElem?_eq_some_iff.1 hrun).1; exact this
      have hrun2 : (S2 k).pcs[w.ids k]? = some .running := by rw [hold2 k _ hlt, hrun]
      have hlt2 : w.ids k < (S2 k).pcs.length := (List.getElem?_eq_some_iff.1 hrun2).1
      have hset : ∀ q, ((S2 k).pcs.set (w.ids k) q)[w.ids k]? = some q := fun q => List.getElem?_set_self hlt2
      have hlen1 : ∀ j, (S j).pcs.length ≤ (S1 j).pcs.length := by
        intro j
        rcases Nat.lt_or_ge (S1 j).pcs.length (S j).pcs.length with h | h
        · have := hold j _ h
          rw [List.getElem?_eq_none (Nat.le_refl _), List.getElem?_eq_getElem h] at this
          cases this
        · exact h
      have hold12 : ∀ j i, i < (S j).pcs.length → (S2 j).pcs[i]? = (S j).pcs[i]? := by
        intro j i hi
        rw [hold2 j i (Nat.lt_of_lt_of_le hi (hlen1 j)), hold j i hi]
      dsimp only
      generalize runList task _ = r at hS2 ⊢
      have hb2 := (hS2 k).2.1
      have hl2 := (hS2 k).2.2.1
      have back : ∀ (b : Breaker) (q : PC) (l : List Ev),
          ∀ j i, i < (S j).pcs.length → (upd S2 k ⟨b, (S2 k).pcs.set (w.ids k) q, l⟩ j).pcs[i]? = (S j).pcs[i]? := by
        intro b q l j i hi
        by_cases hj : j = k
        · subst hj
          have : ¬ w.ids j = i := by omega
          simp [upd, this, hold12 j i hi]
        · simp [upd, hj, hold12 j i hi]
      have fin : ∀ (b : Breaker) (l : List Ev) (j i : Nat) (q : PC), (S j).pcs.length ≤ i →
          (upd S2 k ⟨b, (S2 k).pcs.set (w.ids k) .done, l⟩ j).pcs[i]? = some q → q = .done := by
        intro b l j i q hi hq
        have h1 := hlenS1 j
        by_cases hj : j = k
        · subst hj
          simp only [upd, if_true] at hq h1
          by_cases he : w.ids j = i
          · subst he
            rw [hset] at hq; cases hq; rfl
          · rw [List.getElem?_set_ne he] at hq
            exact hdone2 j i q (by omega) hq
        · simp only [upd, hj, if_false] at hq h1
          exact hdone2 j i q (by omega) hq
      have pan : Moves p S (r.1.emit k [.finish (w.ids k) .panic]) := by
        refine ⟨_, advance hS2 k [.taskEnd (w.ids k) .panic]
          ⟨(S2 k).b, (S2 k).pcs.set (w.ids k) .done, (S2 k).log ++ [.finish (w.ids k) .panic]⟩ ?_ ?_ ?_
          [.finish (w.ids k) .panic] rfl rfl, back _ _ _, fin _ _⟩
        · simp [exec, step, hrun2, State.upd]
        · funext j; simp only [World.emit, upd]; split
          · next h => rw [h, hb2]
          · rfl
        · funext j; simp only [World.emit, upd, List.length_set]; split
          · next h => rw [h, hl2]
          · rfl
      split
      · exact pan
      · cases o with
        | panic => exact pan
        | ok =>
          refine ⟨_, advance hS2 k [.taskEnd (w.ids k) .ok, .reset (w.ids k)]
            ⟨(S2 k).b.reset, (S2 k).pcs.set (w.ids k) .done, (S2 k).log ++ [.finish (w.ids k) .ok, .recOk (w.ids k)]⟩
            ?_ ?_ ?_ [.finish (w.ids k) .ok, .recOk (w.ids k)] rfl rfl, back _ _ _, fin _ _⟩
          · simp only [exec, step, hrun2, State.upd, hset, List.set_set, List.append_assoc, List.cons_append,
              List.nil_append]
          · simp [World.emit, World.set, hb2]
          · funext j; simp only [World.emit, World.set, upd, List.length_set]; split
            · next h => rw [h, hl2]
            · rfl
        | err e =>
          have h3 := advance (w' := (r.1.set k ((r.1.bs k).recordFailure now2)).emit k
              [.finish (w.ids k) (.err e), .recFail (w.ids k) now2, .onError (w.ids k) e])
            hS2 k [.taskEnd (w.ids k) (.err e), .record (w.ids k) now2, .errCb (w.ids k)]
            ⟨(S2 k).b.recordFailure now2, (S2 k).pcs.set (w.ids k) .done,
              (S2 k).log ++ [.finish (w.ids k) (.err e), .recFail (w.ids k) now2, .onError (w.ids k) e]⟩
            (by
              simp only [exec, step, hrun2, State.upd, hset, List.set_set, List.append_assoc, List.cons_append,
                List.nil_append])
            (by simp [World.emit, World.set, hb2])
            (by
              funext j; simp only [World.emit, World.set, upd, List.length_set]; split
              · next h => rw [h, hl2]
              · rfl)
            [.finish (w.ids k) (.err e), .recFail (w.ids k) now2, .onError (w.ids k) e] rfl rfl
          obtain ⟨S4, hS4, hold4, hdone4⟩ := list_moves p err _ _ h3
          refine ⟨S4, hS4, ?_, fun j i q hi hq => ?_⟩
          rotate_left
          · rcases Nat.lt_or_ge i (upd S2 k ⟨(S2 k).b.recordFailure now2, (S2 k).pcs.set (w.ids k) .done,
              (S2 k).log ++ [.finish (w.ids k) (.err e), .recFail (w.ids k) now2, .onError (w.ids k) e]⟩ j).pcs.length
              with h | h
            · rw [hold4 j i h] at hq; exact fin _ _ j i q hi hq
            · exact hdone4 j i q h hq
          intro j i hi
          have hb := back ((S2 k).b.recordFailure now2) .done
            ((S2 k).log ++ [.finish (w.ids k) (.err e), .recFail (w.ids k) now2, .onError (w.ids k) e]) j i hi
          rw [hold4 j i, hb]
          rw [List.getElem?_eq_getElem hi] at hb
          exact (List.getElem?_eq_some_iff.1 hb).1
    rw [← hbk]
    cases hmode : (S k).b.mode now with
    | closed => simpa only [hmode] using ran (by simp [hmode])
    | halfOpen => simpa only [hmode] using ran (by simp [hmode])
    | opened =>
      have h3 := advance (w' := World.emit { w with ids := upd w.ids k (w.ids k + 1) } k
          [.refuse (w.ids k) now, .onOpen (w.ids k)]) hS k [.call now, .decide (w.ids k), .openCb (w.ids k)]
        ⟨(S k).b, ((S k).pcs ++ [PC.deciding now]).set (w.ids k) .done,
          (S k).log ++ [.refuse (w.ids k) now, .onOpen (w.ids k)]⟩
        (by simp [exec, step, hmode, State.upd, ← hlen])
        (by
          funext j; simp only [World.emit, upd]; split
          · next h => rw [h, (hS k).2.1]
          · rfl)
        (by simp [World.emit, hlen]) [.refuse (w.ids k) now, .onOpen (w.ids k)] rfl rfl
      obtain ⟨S4, hS4, hold4, hdone4⟩ := list_moves p opn _ _ h3
      refine ⟨S4, hS4, ?_, fun j i q hi hq => ?_⟩
      rotate_left
      · rcases Nat.lt_or_ge i (upd S k ⟨(S k).b, ((S k).pcs ++ [PC.deciding now]).set (w.ids k) .done,
          (S k).log ++ [.refuse (w.ids k) now, .onOpen (w.ids k)]⟩ j).pcs.length with h | h
        · rw [hold4 j i h] at hq
          by_cases hj : j = k
          · subst hj
            simp only [upd, if_true, List.length_set, List.length_append, List.length_singleton] at h hq
            have hw : i = w.ids j := by omega
            subst hw
            rw [List.getElem?_set_self (by simp; omega)] at hq
            cases hq; rfl
          · simp only [upd, hj, if_false] at h
            omega
        · exact hdone4 j i q h hq
      intro j i hi
      have hb := old ⟨(S k).b, ((S k).pcs ++ [PC.deciding now]).set (w.ids k) .done,
          (S k).log ++ [.refuse (w.ids k) now, .onOpen (w.ids k)]⟩ (by
        intro i hi
        have : ¬ w.ids k = i := by omega
        simp [this, List.getElem?_append, hi]) j i hi
      rw [hold4 j i, hb]
      rw [List.getElem?_eq_getElem hi] at hb
      exact (List.getElem?_eq_some_iff.1 hb).1
theorem list_moves (p : Nat → Int × Int) : ∀ (ds : List Do) (w : World) (S : Nat → State), (∀ k, Rel p w k (S k)) →
    Moves p S (runList ds w).1
  | [], w, S, hS => ⟨S, hS, fun _ _ _ => rfl, fun k i q hi hq => by
      rw [List.getElem?_eq_none hi] at hq; cases hq⟩
  | d :: ds, w, S, hS => by
    rw [runList]
    obtain ⟨S1, hS1, h1, d1⟩ := run_moves p d w S hS
    split
    · exact ⟨S1, hS1, h1, d1⟩
    · obtain ⟨S2, hS2, h2, d2⟩ := list_moves p ds _ S1 hS1
      refine ⟨S2, hS2, fun k i hi => ?_, fun k i q hi hq => ?_⟩
      · have hb := h1 k i hi
        rw [h2 k i, hb]
        rw [List.getElem?_eq_getElem hi] at hb
        exact (List.getElem?_eq_some_iff.1 hb).1
      · rcases Nat.lt_or_ge i (S1 k).pcs.length with h | h
        · rw [h2 k i h] at hq; exact d1 k i q hi hq
        · exact d2 k i q h hq
end

theorem fresh_rel (p : Nat → Int × Int) (k : Nat) : Rel p (World.fresh p) k (init (p k).1 (p k).2) :=
  ⟨Reachable.refl _, rfl, rfl, rfl⟩

/-! ### C173 -/

/-- **C173.** Calls of `Do` nested in one another to any depth, through tasks and callbacks, of any number of breakers,
with any outcomes, panics and clock readings: for each breaker the events and the final fields are those of some
interleaving of calls made by as many goroutines, in which every call has ended.  So nesting does nothing that
concurrency could not do, and in particular no call waits for one around it. -/
theorem C173_flat (p : Nat → Int × Int) (ds : List Do) (k : Nat) :
    ∃ s, Reachable step (init (p k).1 (p k).2) s ∧ s.b = (runList ds (World.fresh p)).1.bs k ∧
      s.log = eventsOf k (runList ds (World.fresh p)).1.tr ∧
      s.pcs.length = (runList ds (World.fresh p)).1.ids k ∧ ∀ q ∈ s.pcs, q = .done := by
  obtain ⟨S', h1, _, h3⟩ := list_moves p ds (World.fresh p) (fun k => init (p k).1 (p k).2) (fresh_rel p)
  obtain ⟨a, b, c, d⟩ := h1 k
  refine ⟨S' k, a, b, d, c, fun q hq => ?_⟩
  obtain ⟨i, hi, rfl⟩ := List.getElem_of_mem hq
  exact h3 k i _ (Nat.zero_le _) (List.getElem?_eq_getElem hi)

/-- **C173**, decisions: each call of a breaker, at whatever depth, is refused exactly when the results recorded by that
breaker before demand it, those of the calls nested in calls still under way included. -/
theorem C173_decides (p : Nat → Int × Int) (ds : List Do) (k : Nat) (l1 l2 : List Ev) (i : Nat) (now : Int) :
    (eventsOf k (runList ds (World.fresh p)).1.tr = l1 ++ .refuse i now :: l2 → MustRefuse (p k).1 (p k).2 l1 now) ∧
    (eventsOf k (runList ds (World.fresh p)).1.tr = l1 ++ .start i now :: l2 → ¬ MustRefuse (p k).1 (p k).2 l1 now) := by
  obtain ⟨s, h1, _, h3, _⟩ := C173_flat p ds k
  rw [← h3]
  exact C25_concurrent_decisions _ _ s h1 l1 l2 i now

/-- **C173**, courses: the events of each call made are one of the four complete courses of a call: exactly one callback
for a refusal or an error, none for a success or a panic, whatever the callbacks themselves call. -/
theorem C173_courses (p : Nat → Int × Int) (ds : List Do) (k i : Nat) (hi : i < (runList ds (World.fresh p)).1.ids k) :
    Complete i (trace i (eventsOf k (runList ds (World.fresh p)).1.tr)) := by
  obtain ⟨s, h1, _, h3, h4, h5⟩ := C173_flat p ds k
  rw [← h3]
  have hl : i < s.pcs.length := by omega
  exact (C24_callbacks _ _ s h1 i).2 (by rw [List.getElem?_eq_getElem hl, h5 _ (List.getElem_mem hl)])

/-! ### Failing tasks open the breaker, unless they use it -/

mutual
/-- The breakers that a call may use. -/
def Do.uses : Do → List Nat
  | .mk k _ task _ _ err _ opn _ => k :: (usesL task ++ (usesL err ++ usesL opn))
def usesL : List Do → List Nat
  | [] => []
  | d :: ds => d.uses ++ usesL ds
end

/-- The breaker of a call. -/
def Do.on : Do → Nat
  | .mk k .. => k

/-- Its clock reading at the decision, and that at the record of a failure. -/
def Do.at : Do → Int
  | .mk _ now .. => now

def Do.failsAt : Do → Int
  | .mk _ _ _ _ now2 .. => now2

/-- Its task returns an error. -/
def Do.Fails : Do → Prop
  | .mk _ _ _ o .. => ∃ e, o = .err e

/-- Its task and callbacks do not use its breaker. -/
def Do.Outer : Do → Prop
  | .mk k _ task _ _ err _ opn _ => k ∉ usesL task ∧ k ∉ usesL err ∧ k ∉ usesL opn

/-- A fresh breaker with a positive threshold is called at least that many times, the task of each call failing at `T` or
later, no panic leaving any call; then a call of it at most the timeout after `T` is refused.  `X` restricts the calls. -/
def Opens (X : Do → Prop) : Prop :=
  ∀ (p : Nat → Int × Int) (k : Nat) (ds : List Do) (w : World) (T : Int), 1 ≤ (p k).1 → (p k).1 ≤ ds.length →
    (∀ d ∈ ds, d.on = k ∧ d.Fails ∧ T ≤ d.failsAt ∧ X d) → runList ds (World.fresh p) = (w, false) →
    ∀ d : Do, d.on = k → d.at ≤ T + (p k).2 → (k, Ev.refuse (w.ids k) d.at) ∈ (d.run w).1.tr

mutual
theorem run_grows : ∀ (d : Do) (w : World), w.tr <+: (d.run w).1.tr
  | .mk k now task o now2 err ep opn op, w => by
    have ran : ∀ w0 : World, w.tr <+: w0.tr →
        w.tr <+: (let r := runList task w0
          if r.2 then (r.1.emit k [.finish (w.ids k) .panic], true)
          else match o with
            | .err e =>
              let w' := (r.1.set k ((r.1.bs k).recordFailure now2)).emit k
                [.finish (w.ids k) (.err e), .recFail (w.ids k) now2, .onError (w.ids k) e]
              let r := runList err w'
              (r.1, r.2 || ep)
            | .ok => ((r.1.set k (r.1.bs k).reset).emit k [.finish (w.ids k) .ok, .recOk (w.ids k)], false)
            | .panic => (r.1.emit k [.finish (w.ids k) .panic], true)).1.tr := by
      intro w0 h0
      have h1 := h0.trans (list_grows task w0)
      dsimp only
      split
      · exact h1.trans (List.prefix_append _ _)
      · cases o with
        | panic => exact h1.trans (List.prefix_append _ _)
        | ok => exact h1.trans (List.prefix_append _ _)
        | err e =>
          refine List.IsPrefix.trans ?_ (list_grows err _)
          exact h1.trans (List.prefix_append _ _)
    rw [Do.run]
    dsimp only
    cases (w.bs k).mode now with
    | opened =>
      refine List.IsPrefix.trans ?_ (list_grows opn _)
      exact List.prefix_append _ _
    | closed => exact ran _ (List.prefix_append _ _)
    | halfOpen => exact ran _ (List.prefix_append _ _)
theorem list_grows : ∀ (ds : List Do) (w : World), w.tr <+: (runList ds w).1.tr
  | [], w => List.prefix_refl _
  | d :: ds, w => by
    rw [runList]
    have h := run_grows d w
    split
    · exact h
    · exact h.trans (list_grows ds _)
end

mutual
theorem run_other (k : Nat) : ∀ (d : Do) (w : World), k ∉ d.uses → (d.run w).1.bs k = w.bs k
  | .mk j now task o now2 err ep opn op, w, hk => by
    simp only [Do.uses, List.mem_cons, List.mem_append, not_or] at hk
    obtain ⟨hj, ht, he, ho⟩ := hk
    have ran : ∀ w0 : World, w0.bs k = w.bs k →
        (let r := runList task w0
          if r.2 then (r.1.emit j [.finish (w.ids j) .panic], true)
          else match o with
            | .err e =>
              let w' := (r.1.set j ((r.1.bs j).recordFailure now2)).emit j
                [.finish (w.ids j) (.err e), .recFail (w.ids j) now2, .onError (w.ids j) e]
              let r := runList err w'
              (r.1, r.2 || ep)
            | .ok => ((r.1.set j (r.1.bs j).reset).emit j [.finish (w.ids j) .ok, .recOk (w.ids j)], false)
            | .panic => (r.1.emit j [.finish (w.ids j) .panic], true)).1.bs k = w.bs k := by
      intro w0 h0
      have h1 := (list_other k task w0 ht).trans h0
      dsimp only
      split
      · exact h1
      · cases o with
        | panic => exact h1
        | ok => simpa [World.emit, World.set, upd, hj] using h1
        | err e =>
          rw [list_other k err _ he]
          simpa [World.emit, World.set, upd, hj] using h1
    rw [Do.run]
    dsimp only
    cases (w.bs j).mode now with
    | opened => exact list_other k opn _ ho
    | closed => exact ran _ rfl
    | halfOpen => exact ran _ rfl
theorem list_other (k : Nat) : ∀ (ds : List Do) (w : World), k ∉ usesL ds → (runList ds w).1.bs k = w.bs k
  | [], w, _ => rfl
  | d :: ds, w, hk => by
    simp only [usesL, List.mem_append, not_or] at hk
    rw [runList]
    have h := run_other k d w hk.1
    split
    · exact h
    · exact (list_other k ds _ hk.2).trans h
end

/-- The breaker after a failing call that does not use it inside. -/
theorem run_fails {k : Nat} {d : Do} {w w' : World} (hk : d.on = k) (hf : d.Fails) (hx : d.Outer)
    (h : d.run w = (w', false)) :
    w'.bs k = if (w.bs k).mode d.at = .opened then w.bs k else (w.bs k).recordFailure d.failsAt := by
  cases d with
  | mk j now task o now2 err ep opn op =>
    simp only [Do.on] at hk
    subst hk
    obtain ⟨e, rfl⟩ := hf
    obtain ⟨ht, he, ho⟩ := hx
    have ran : ∀ w0 : World, w0.bs j = w.bs j →
        (let r := runList task w0
          if r.2 then (r.1.emit j [.finish (w.ids j) .panic], true)
          else
              let w' := (r.1.set j ((r.1.bs j).recordFailure now2)).emit j
                [.finish (w.ids j) (.err e), .recFail (w.ids j) now2, .onError (w.ids j) e]
              let r := runList err w'
              (r.1, r.2 || ep)) = (w', false) → w'.bs j = (w.bs j).recordFailure now2 := by
      intro w0 h0 hw
      have h1 := (list_other j task w0 ht).trans h0
      dsimp only at hw
      split at hw
      · cases hw
      · have := congrArg (fun x => x.1.bs j) hw
        dsimp only at this
        rw [← this, list_other j err _ he]
        simp [World.emit, World.set, upd, h1]
    rw [Do.run] at h
    dsimp only at h
    change w'.bs j = if (w.bs j).mode now = .opened then w.bs j else (w.bs j).recordFailure now2
    have three : (w.bs j).mode now = .opened ∨ (w.bs j).mode now = .closed ∨ (w.bs j).mode now = .halfOpen := by
      generalize (w.bs j).mode now = m
      cases m <;> simp
    rcases three with hm | hm | hm
    · simp only [hm] at h
      have := congrArg (fun x => x.1.bs j) h
      dsimp only at this
      rw [if_pos hm, ← this, list_other j opn _ ho]
      rfl
    · simp only [hm] at h
      rw [if_neg (by simp [hm])]
      exact ran (World.emit { w with ids := upd w.ids j (w.ids j + 1) } j [.start (w.ids j) now]) rfl h
    · simp only [hm] at h
      rw [if_neg (by simp [hm])]
      exact ran (World.emit { w with ids := upd w.ids j (w.ids j + 1) } j [.start (w.ids j) now]) rfl h

/-- The count after failing calls. -/
theorem list_fails {k : Nat} {T : Int} : ∀ (ds : List Do) (w w' : World),
    (∀ d ∈ ds, d.on = k ∧ d.Fails ∧ T ≤ d.failsAt ∧ d.Outer) → runList ds w = (w', false) →
    0 ≤ (w.bs k).failures → (0 < (w.bs k).failures → T ≤ (w.bs k).lastTs) →
    (w'.bs k).threshold = (w.bs k).threshold ∧ (w'.bs k).timeout = (w.bs k).timeout ∧
    ((w.bs k).failures + ds.length ≤ (w'.bs k).failures ∨ (w.bs k).threshold ≤ (w'.bs k).failures) ∧
    (0 < (w'.bs k).failures → T ≤ (w'.bs k).lastTs)
  | [], w, w', _, h, h0, hT => by
    cases h
    exact ⟨rfl, rfl, Or.inl (by simp), hT⟩
  | d :: ds, w, w', hd, h, h0, hT => by
    rw [runList] at h
    obtain ⟨h1, h2, h3, h4⟩ := hd d (by simp)
    split at h
    · cases h
    · next hp =>
      have he : d.run w = ((d.run w).1, false) := Prod.ext rfl (by simpa using hp)
      have hb := run_fails h1 h2 h4 he
      generalize (d.run w).1 = w1 at h hb
      have hge : (w.bs k).mode d.at = .opened → (w.bs k).threshold ≤ (w.bs k).failures := by
        intro hm
        unfold Breaker.mode at hm
        split at hm
        · cases hm
        · split at hm
          · assumption
          · cases hm
      have ih := list_fails ds w1 w' (fun d h => hd d (by simp [h])) h
      split at hb
      · next hm =>
        rw [hb] at ih
        obtain ⟨a, b, c, e⟩ := ih h0 hT
        refine ⟨a, b, Or.inr ?_, e⟩
        have := hge hm
        omega
      · rw [hb] at ih
        simp only [Breaker.recordFailure] at ih
        obtain ⟨a, b, c, e⟩ := ih (by omega) (fun _ => h3)
        refine ⟨a, b, ?_, e⟩
        simp only [List.length_cons, Int.natCast_add, Int.natCast_one]
        omega

/-- **C173**, partial (opening): failing tasks open the breaker when neither the tasks nor the callbacks use it
themselves; they may use other breakers at will. -/
theorem C173_opens_partial : Opens Do.Outer := by
  intro p k ds w T h1 hn hd hw d hk hat
  obtain ⟨a, b, c, e⟩ := list_fails ds _ w hd hw (by simp [World.fresh, new]) (by simp [World.fresh, new])
  simp only [World.fresh, new] at a b c
  have hf : (w.bs k).threshold ≤ (w.bs k).failures := by omega
  have hT : T ≤ (w.bs k).lastTs := e (by omega)
  cases d with
  | mk j now task o now2 err ep opn op =>
    simp only [Do.on] at hk
    subst hk
    simp only [Do.at] at hat ⊢
    have hm : (w.bs j).mode now = .opened := by
      unfold Breaker.mode
      rw [if_neg (by omega), if_pos hf]
    rw [Do.run]
    dsimp only
    rw [hm]
    refine (list_grows opn _).subset ?_
    simp [World.emit]

/-- A task that calls its own breaker again, successfully, and then fails. -/
def retry (now : Int) : Do := .mk 0 now [.mk 0 now [] .ok now [] false [] false] (.err 1) now [] false [] false

/-- Five such calls against a threshold of 2: each sets the count back to 0 before it counts as the first failure. -/
example : (runList [retry 1, retry 2, retry 3, retry 4, retry 5] (World.fresh fun _ => (2, 100))).1.tr.getLast? =
    some (0, .onError 8 1) := by decide

/-- **C173**, violated (opening): a task that uses its own breaker for a step that succeeds, and then fails, never opens a
breaker with a threshold of 2. -/
theorem C173_opens_violated : ¬ Opens (fun _ => True) := by
  intro h
  have := h (fun _ => (2, 100)) 0 [retry 1, retry 2, retry 3] _ 1 (by decide) (by decide)
    (by
      intro d hd
      simp only [List.mem_cons, List.not_mem_nil, or_false] at hd
      rcases hd with rfl | rfl | rfl <;> simp [retry, Do.on, Do.Fails, Do.failsAt])
    (Prod.ext rfl (by decide)) (.mk 0 4 [] .ok 4 [] false [] false) rfl (by decide)
  revert this
  decide

/-- **C173**, violated (opening), in general: however many such calls are made, each at any time, none is refused. -/
theorem C173_never_violated (p : Nat → Int × Int) (h2 : 2 ≤ (p 0).1) (ts : List Int) :
    ∀ i now, (0, Ev.refuse i now) ∉ (runList (ts.map retry) (World.fresh p)).1.tr := by
  have key : ∀ (ts : List Int) (w : World), (w.bs 0).threshold = (p 0).1 → (w.bs 0).failures ≤ 1 →
      (∀ i now, (0, Ev.refuse i now) ∉ w.tr) → ∀ i now, (0, Ev.refuse i now) ∉ (runList (ts.map retry) w).1.tr := by
    intro ts
    induction ts with
    | nil => intro w _ _ h; exact h
    | cons t ts ih =>
      intro w ht hf hr
      rw [List.map_cons, runList]
      have hm : ∀ (b : Breaker), b.threshold = (p 0).1 → b.failures ≤ 1 → b.mode t = .closed := by
        intro b h1 h3
        unfold Breaker.mode
        rw [if_neg (by omega), if_neg (by omega)]
      have hrun : (retry t).run w = (⟨upd (upd w.bs 0 (w.bs 0).reset) 0 ((w.bs 0).reset.recordFailure t),
          upd (upd w.ids 0 (w.ids 0 + 1)) 0 (w.ids 0 + 1 + 1),
          w.tr ++ [(0, .start (w.ids 0) t), (0, .start (w.ids 0 + 1) t), (0, .finish (w.ids 0 + 1) .ok),
            (0, .recOk (w.ids 0 + 1)), (0, .finish (w.ids 0) (.err 1)), (0, .recFail (w.ids 0) t),
            (0, .onError (w.ids 0) 1)]⟩, false) := by
        simp [retry, Do.run, runList, hm _ ht hf, World.emit, World.set, upd]
      rw [hrun]
      refine ih _ ?_ ?_ ?_
      · simp [upd, Breaker.reset, Breaker.recordFailure, ht]
      · simp [upd, Breaker.reset, Breaker.recordFailure]
      · intro i now
        simp [hr i now]
  exact key ts _ rfl (by simp [World.fresh, new]) (by simp [World.fresh])

/-- Non-vacuity: two breakers; the task of a call of breaker 0 calls breaker 1, whose failure is handled by a further call
of breaker 0 in `onError`; thresholds of 1, so the call that follows is refused, and its `onOpen` calls breaker 1, which
is refused as well. -/
example : (runList
      [.mk 0 10 [.mk 1 11 [] (.err 5) 12 [.mk 0 13 [] (.err 6) 14 [] false [] false] false [] false] .ok 15 [] false [] false,
       .mk 0 16 [] (.err 7) 17 [] false [] false, .mk 0 18 [] .ok 19 [] false [.mk 1 20 [] .ok 21 [] false [] false] false]
      (World.fresh fun _ => (1, 100))).1.tr =
    [(0, .start 0 10), (1, .start 0 11), (1, .finish 0 (.err 5)), (1, .recFail 0 12), (1, .onError 0 5),
     (0, .start 1 13), (0, .finish 1 (.err 6)), (0, .recFail 1 14), (0, .onError 1 6),
     (0, .finish 0 .ok), (0, .recOk 0), (0, .start 2 16), (0, .finish 2 (.err 7)), (0, .recFail 2 17), (0, .onError 2 7),
     (0, .refuse 3 18), (0, .onOpen 3), (1, .refuse 1 20), (1, .onOpen 1)] := by decide

/-- Non-vacuity: a panic inside a nested task unwinds the calls around it; neither records anything. -/
example : let r := runList [.mk 0 10 [.mk 0 11 [] .panic 0 [] false [] false] .ok 12 [] false [] false,
      .mk 0 13 [] .ok 13 [] false [] false] (World.fresh fun _ => (1, 100))
    (r.1.tr, r.2) = ([(0, .start 0 10), (0, .start 1 11), (0, .finish 1 .panic), (0, .finish 0 .panic)], true) := by decide

end Gears.CircuitBreaker.Nested
