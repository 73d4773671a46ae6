import Verif.Confstore.History

/-
Properties C57–C65 and C83 of the configuration store.
-/

namespace Gears.Confstore

variable {V : Type}

/-! ## C57 -/

/-- Updates are accepted for registered keys only. -/
def WF (log : List (Ev V)) : Prop := ∀ l1 k v l2, log = l1 ++ .updated k v :: l2 → entry k l1 ≠ none

theorem wf_snoc {log : List (Ev V)} {e : Ev V} (h : WF log) (he : ∀ k v, e = .updated k v → entry k log ≠ none) :
    WF (log ++ [e]) := by
  intro l1 k v l2 heq
  rcases List.eq_nil_or_concat l2 with rfl | ⟨l, x, rfl⟩
  · have := List.append_inj' heq rfl
    simp at this
    rw [← this.1]
    exact he k v this.2
  · have h1 : log ++ [e] = (l1 ++ .updated k v :: l) ++ [x] := by rw [heq]; simp
    have := List.append_inj' h1 rfl
    exact h l1 k v l this.1

theorem wf_append {log l : List (Ev V)} (h : WF log) (hl : ∀ e ∈ l, ∀ k v, e ≠ .updated k v) : WF (log ++ l) := by
  induction l generalizing log with
  | nil => simpa using h
  | cons e l ih =>
    rw [show log ++ e :: l = (log ++ [e]) ++ l by simp]
    exact ih (wf_snoc h fun k v he => absurd he (hl e (by simp) k v)) (fun e he => hl e (by simp [he]))

theorem wf_updateEvs (l : List KVStr) : ∀ {s : State V} {log : List (Ev V)}, WF log → (∀ k, Holds s k (entry k log)) →
    WF (log ++ updateEvs s l) := by
  induction l with
  | nil => intro s log h _; simpa [updateEvs] using h
  | cons x l ih =>
    intro s log h hh
    simp only [updateEvs, ← List.append_assoc]
    refine ih ?_ (fun k => ?_)
    · split
      · rename_i ha
        refine wf_snoc h fun k v he hn => ?_
        simp at he
        obtain ⟨rfl, rfl⟩ := he
        have := hh x.key
        rw [hn] at this
        simp [accepts, this.1] at ha
      · simpa using h
    · simp only [entry, List.foldl_append]
      exact holds_updateNoPersist hh x.key x.value k

theorem reach_wf {hash : String → Option String} {s : State V} {log : List (Ev V)} (h : Reach hash s log) : WF log := by
  have key := Reachable.inv (I := fun x : State V × List (Ev V) => Reach hash x.1 x.2 ∧ WF x.2) h
    ⟨Reachable.refl _, by intro l1 k v l2 he; simp at he⟩ (by
      rintro ⟨s, log⟩ op ⟨s', log'⟩ ⟨hr, hw⟩ hs
      refine ⟨Reachable.trans (b := (s, log)) hr (Reachable.step op hs), ?_⟩
      have hh := reach_holds hr
      cases op <;> simp only [opStep, Option.some.injEq, Prod.mk.injEq] at hs <;> obtain ⟨rfl, rfl⟩ := hs
      · refine wf_append hw fun e he k v h1 => ?_
        subst h1
        split at he <;> simp at he
      · exact wf_append hw (by simp)
      · exact wf_updateEvs _ hw hh
      · exact wf_updateEvs _ hw hh
      · exact wf_updateEvs _ hw hh
      · exact wf_append hw (by simp)
      · exact wf_updateEvs _ hw hh
      · exact hw)
  exact key.2

theorem fold_default {k : String} {p : Proc V} {d : String} : ∀ {l : List (Ev V)} {c : Option String},
    (∀ e ∈ l, e.key = k → (∃ v, e = .updated k v) ∨ e = .reset k) →
    (∀ a v b, l = a ++ .updated k v :: b → Ev.reset k ∈ b) → (c = none ∨ Ev.reset k ∈ l) →
    l.foldl (evStep k) (some (p, d, c)) = some (p, d, none)
  | [], c, _, _, hc => by simpa using hc
  | e :: l, c, h1, h2, hc => by
    have ih : ∀ c, (c = none ∨ Ev.reset k ∈ l) → l.foldl (evStep k) (some (p, d, c)) = some (p, d, none) := fun c hc =>
      fold_default (fun e he => h1 e (by simp [he])) (fun a v b hab => h2 (e :: a) v b (by rw [hab]; rfl)) hc
    rw [List.foldl_cons]
    by_cases hk : e.key = k
    · rcases h1 e (by simp) hk with ⟨v, rfl⟩ | rfl
      · simp only [evStep, Ev.key, if_true, Option.map_some]
        exact ih _ (.inr (h2 [] v l rfl))
      · simp only [evStep, Ev.key, if_true, Option.map_some]
        exact ih _ (.inl rfl)
    · simp only [evStep, hk, if_false]
      refine ih c (hc.imp_right fun hc => ?_)
      rcases List.mem_cons.1 hc with rfl | hc
      · exact absurd rfl hk
      · exact hc

theorem fold_miss {k : String} : ∀ {l : List (Ev V)} {x : Entry V},
    (∀ a d p b, l = a ++ .registered k d p :: b → Ev.deregistered k ∈ b) → (x = none ∨ Ev.deregistered k ∈ l) →
    l.foldl (evStep k) x = none
  | [], x, _, hx => by simpa using hx
  | e :: l, x, h1, hx => by
    have ih : ∀ x, (x = none ∨ Ev.deregistered k ∈ l) → l.foldl (evStep k) x = none := fun x hx =>
      fold_miss (fun a d p b hab => h1 (e :: a) d p b (by rw [hab]; rfl)) hx
    rw [List.foldl_cons]
    by_cases hk : e.key = k
    · cases e with
      | registered k' d p =>
        simp only [Ev.key] at hk; subst hk
        exact ih _ (.inr (h1 [] d p l rfl))
      | deregistered k' => exact ih _ (.inl (by simp [evStep, hk]))
      | updated k' v =>
        refine ih _ (hx.imp (fun hx => by simp [evStep, hx]) fun hx => ?_)
        simpa using hx
      | reset k' =>
        refine ih _ (hx.imp (fun hx => by simp [evStep, hx]) fun hx => ?_)
        simpa using hx
    · simp only [evStep, hk, if_false]
      refine ih x (hx.imp_right fun hx => ?_)
      rcases List.mem_cons.1 hx with rfl | hx
      · exact absurd rfl hk
      · exact hx

theorem entry_append (k : String) (l1 l2 : List (Ev V)) : entry k (l1 ++ l2) = l2.foldl (evStep k) (entry k l1) := by
  simp [entry]

/-- **C57.**  After any history: if the last thing that happened to the key is an accepted update, its value is read;
if no update was accepted since the registration, or since a reset after it, the default is read; and if the key was not
registered, or deregistered since, it is missed. -/
theorem C57_reads (hash : String → Option String) (s : State V) (log : List (Ev V)) (h : Reach hash s log) (k : String) :
    (∀ l1 v l2, log = l1 ++ .updated k v :: l2 → (∀ e ∈ l2, e.key ≠ k) →
      getValueString s k = some v ∧ ∃ p, s.proc k = some p ∧ getValue s k = some (p.convert v)) ∧
    (∀ l1 d p l2, log = l1 ++ .registered k d p :: l2 →
      (∀ e ∈ l2, e.key = k → (∃ v, e = .updated k v) ∨ e = .reset k) →
      (∀ a v b, l2 = a ++ .updated k v :: b → Ev.reset k ∈ b) →
      getValueString s k = some d ∧ getValue s k = some (p.convert d)) ∧
    ((∀ l1 d p l2, log = l1 ++ .registered k d p :: l2 → Ev.deregistered k ∈ l2) →
      getValueString s k = none ∧ getValue s k = none) := by
  have hh := reach_holds h k
  have hw := reach_wf h
  refine ⟨fun l1 v l2 he hl => ?_, fun l1 d p l2 he hl hn => ?_, fun hm => ?_⟩
  · have h1 := hw l1 k v l2 he
    have h2 : entry k log = evStep k (entry k l1) (.updated k v) := by
      rw [he, entry_append, List.foldl_cons, foldl_key_ne hl]
    rw [h2] at hh
    cases hx : entry k l1 with
    | none => exact absurd hx h1
    | some y =>
      obtain ⟨p, d, c⟩ := y
      rw [hx] at hh
      simp only [evStep, Ev.key, if_true, Option.map_some] at hh
      obtain ⟨-, g1, -, -, g4, g5, -⟩ := hh
      simp [getValueString, getValue, g4, g5, g1]
  · have h2 : entry k log = some (p, d, none) := by
      rw [he, entry_append, List.foldl_cons]
      have : evStep k (entry k l1) (.registered k d p) = some (p, d, none) := by simp [evStep, Ev.key]
      rw [this]
      exact fold_default hl hn (.inl rfl)
    rw [h2] at hh
    obtain ⟨-, g1, g2, g3, g4, g5, -⟩ := hh
    simp [getValueString, getValue, g2, g3, g4, g5]
  · have h2 : entry k log = none := fold_miss hm (.inl rfl)
    rw [h2] at hh
    obtain ⟨-, g2, g3, g4, g5⟩ := hh
    simp [getValueString, getValue, g2, g3, g4, g5]

/-! ## C58 -/

/-- **C58.** -/
theorem C58_views (hash : String → Option String) (s : State V) (log : List (Ev V)) (h : Reach hash s log) (k : String) :
    (∀ v, getValueString s k = some v →
      ∃ p, s.proc k = some p ∧ p.validate v = none ∧ getValue s k = some (p.convert v)) ∧
    (getValueString s k = none ↔ getValue s k = none) := by
  have hh := reach_holds h k
  cases he : entry k log with
  | none =>
    rw [he] at hh
    obtain ⟨-, g2, g3, g4, g5⟩ := hh
    simp [getValueString, getValue, g2, g3, g4, g5]
  | some y =>
    obtain ⟨p, d, c⟩ := y
    rw [he] at hh
    obtain ⟨-, g1, g2, g3, g4, g5, g6, g7⟩ := hh
    cases c with
    | none =>
      simp only [getValueString, getValue, g2, g3, g4, g5, Option.map_none]
      refine ⟨fun v hv => ⟨p, g1, ?_⟩, by simp⟩
      simp at hv; subst hv; exact ⟨g6, rfl⟩
    | some c =>
      simp only [getValueString, getValue, g4, g5, Option.map_some]
      refine ⟨fun v hv => ⟨p, g1, ?_⟩, by simp⟩
      simp at hv; subst hv; exact ⟨g7 _ rfl, rfl⟩

/-! ## C59 -/

/-- **C59** for non-empty keys. -/
theorem C59_partial (s : State V) (k v : String) (hk : k ≠ "") (h : ¬ Accepts s k v) :
    ∃ e, updateNoPersist s k v = (s, some ⟨k, v, e⟩) := by
  simp only [updateNoPersist, hk, if_false]
  simp only [Accepts] at h
  cases hp : s.proc k with
  | none => exact ⟨_, rfl⟩
  | some p =>
    cases hv : p.validate v with
    | none => exact absurd ⟨p, hp, hv⟩ h
    | some e => exact ⟨e, by simp [hv]⟩

/-- The empty key is never registered, but its update is not reported. -/
theorem C59_empty_key_violated (hash : String → Option String) (s : State V) (log : List (Ev V)) (h : Reach hash s log)
    (v : String) : ¬ Accepts s "" v ∧ updateNoPersist s "" v = (s, none) := by
  have hh := reach_holds h ""
  refine ⟨?_, by simp [updateNoPersist]⟩
  rintro ⟨p, hp, -⟩
  cases he : entry "" log with
  | none => rw [he] at hh; rw [hh.1] at hp; simp at hp
  | some y => rw [he] at hh; exact absurd rfl hh.1

/-- An accepted update is not reported, changes this key and no other. -/
theorem updateNoPersist_accepted (s : State V) (k v : String) (hk : k ≠ "") (h : Accepts s k v) :
    ∃ p, s.proc k = some p ∧ updateNoPersist s k v =
      ({ s with kv := setKey s.kv k (some (p.convert v)), kvStr := setKey s.kvStr k (some v) }, none) := by
  obtain ⟨p, hp, hv⟩ := h
  exact ⟨p, hp, by simp [updateNoPersist, hk, hp, hv]⟩

/-! ## C60 -/

/-- **C60** is violated by every accepted update: nothing is persisted. -/
theorem C60_never_persisted_violated (s : State V) (k v : String) (r : PRes) (hk : k ≠ "") (h : Accepts s k v) :
    (update s k v r).2 = none ∧ (update s k v r).1.hash = s.hash := by
  obtain ⟨p, -, hu⟩ := updateNoPersist_accepted s k v hk h
  simp [update, hu]

/-- **C60** is violated by every rejected update for which the persister works: the invalid value is persisted. -/
theorem C60_rejected_persisted_violated (s : State V) (k v : String) (hk : k ≠ "") (h : ¬ Accepts s k v) :
    (update s k v .ok).1.hash k = some v := by
  obtain ⟨e, hu⟩ := C59_partial s k v hk h
  simp [update, hu, batchSave, PRes.done, hashSet, setKey]

/-- If moreover the persister fails, a rejected update is not reported. -/
theorem C60_lost_error_violated (s : State V) (k v : String) (hk : k ≠ "") (h : ¬ Accepts s k v) :
    (update s k v .err).2 = none := by
  obtain ⟨e, hu⟩ := C59_partial s k v hk h
  simp [update, hu, batchSave]

/-- **C60**, what is left: the value in memory is the new one exactly if the update is accepted, and the persister's
entries of other keys do not change. -/
theorem C60_partial (s : State V) (k v : String) (r : PRes) (hk : k ≠ "") :
    (Accepts s k v → (update s k v r).2 = none ∧ getValueString (update s k v r).1 k = some v) ∧
    (¬ Accepts s k v → (update s k v r).1.kv = s.kv ∧ (update s k v r).1.kvStr = s.kvStr) ∧
    ∀ k', k' ≠ k → (update s k v r).1.hash k' = s.hash k' := by
  by_cases h : Accepts s k v
  · obtain ⟨p, -, hu⟩ := updateNoPersist_accepted s k v hk h
    refine ⟨fun _ => ?_, fun hn => absurd h hn, fun k' _ => ?_⟩
    · simp [update, hu, getValueString, setKey]
    · simp [update, hu]
  · obtain ⟨e, hu⟩ := C59_partial s k v hk h
    refine ⟨fun hn => absurd hn h, fun _ => ?_, fun k' hk' => ?_⟩
    · cases r <;> simp [update, hu, batchSave]
    · cases r <;> simp [update, hu, batchSave, PRes.done, hashSet, setKey, hk']

/-! ## C61 -/

/-- The error for a pair that is not accepted. -/
def rejection (s : State V) (x : KVStr) : Option KVError :=
  if x.key = "" then none
  else match s.proc x.key with
    | none => some ⟨x.key, x.value, "key[" ++ x.key ++ "] not registered"⟩
    | some p => (p.validate x.value).map fun e => ⟨x.key, x.value, e⟩

theorem rejection_none (s : State V) (x : KVStr) : rejection s x = none ↔ x.key = "" ∨ Accepts s x.key x.value := by
  simp only [rejection, Accepts]
  split
  · rename_i h; simp [h]
  · rename_i h
    cases s.proc x.key <;> simp [h]

theorem rejection_some {s : State V} {x : KVStr} {e : KVError} (h : rejection s x = some e) : e.key = x.key ∧ e.value = x.value := by
  simp only [rejection] at h
  split at h
  · simp at h
  · split at h
    · simp at h; simp [← h]
    · simp at h
      obtain ⟨a, -, rfl⟩ := h
      exact ⟨rfl, rfl⟩

theorem updateNoPersist_snd (s : State V) (k v : String) : (updateNoPersist s k v).2 = rejection s ⟨k, v⟩ := by
  simp only [updateNoPersist, rejection]
  split
  · rfl
  · cases s.proc k with
    | none => rfl
    | some p => cases hv : p.validate v <;> simp [hv]

theorem updateNoPersist_proc (s : State V) (k v : String) : (updateNoPersist s k v).1.proc = s.proc ∧
    (updateNoPersist s k v).1.dflt = s.dflt ∧ (updateNoPersist s k v).1.dfltStr = s.dfltStr ∧
    (updateNoPersist s k v).1.hash = s.hash := by
  simp only [updateNoPersist]
  (repeat' split) <;> simp

theorem rejection_congr {s s' : State V} (h : s'.proc = s.proc) : rejection s' = rejection s := by
  funext x; simp [rejection, h]

theorem loadPairs_frame (l : List KVStr) : ∀ s : State V, (loadPairs s l).proc = s.proc ∧ (loadPairs s l).dflt = s.dflt ∧
    (loadPairs s l).dfltStr = s.dfltStr ∧ (loadPairs s l).hash = s.hash := by
  induction l with
  | nil => intro s; simp [loadPairs]
  | cons x l ih =>
    intro s
    simp only [loadPairs]
    obtain ⟨h1, h2, h3, h4⟩ := ih (updateNoPersist s x.key x.value).1
    obtain ⟨g1, g2, g3, g4⟩ := updateNoPersist_proc s x.key x.value
    exact ⟨h1.trans g1, h2.trans g2, h3.trans g3, h4.trans g4⟩

theorem batchApply_snd (l : List KVStr) : ∀ s : State V, (batchApply s l).2 = l.filterMap (rejection s) := by
  induction l with
  | nil => intro s; rfl
  | cons x l ih =>
    intro s
    have h1 := updateNoPersist_snd s x.key x.value
    have h2 := (updateNoPersist_proc s x.key x.value).1
    simp only [batchApply, List.filterMap_cons]
    cases hu : updateNoPersist s x.key x.value with
    | mk s1 r =>
      rw [hu] at h1 h2
      simp only at h1 h2
      rw [← show rejection s ⟨x.key, x.value⟩ = rejection s x from rfl, ← h1]
      cases r with
      | none => simp only; rw [ih s1, rejection_congr h2]
      | some e => simp only; rw [ih s1, rejection_congr h2]

/-- The accepted pairs. -/
noncomputable def acceptedPairs (s : State V) (l : List KVStr) : List KVStr :=
  haveI : DecidablePred fun x : KVStr => x.key ≠ "" ∧ Accepts s x.key x.value := fun _ => Classical.propDecidable _
  l.filter fun x => x.key ≠ "" ∧ Accepts s x.key x.value

/-- The last value for a key in a list of pairs. -/
def lastValue (l : List KVStr) (k : String) : Option String := ((l.filter (·.key = k)).map (·.value)).getLast?

theorem lastValue_cons (x : KVStr) (l : List KVStr) (k : String) : lastValue (x :: l) k =
    match lastValue l k with
    | some v => some v
    | none => if x.key = k then some x.value else none := by
  simp only [lastValue, List.filter_cons]
  split
  · rename_i h
    simp only [decide_eq_true_eq] at h
    rw [List.map_cons, List.getLast?_cons]
    cases ((l.filter (·.key = k)).map (·.value)).getLast? <;> simp [h]
  · rename_i h
    simp only [decide_eq_true_eq] at h
    cases ((l.filter (·.key = k)).map (·.value)).getLast? <;> simp [h]

theorem accepts_congr {s s' : State V} (h : s'.proc = s.proc) (k v : String) : Accepts s' k v ↔ Accepts s k v := by
  simp [Accepts, h]

theorem loadPairs_kvStr (l : List KVStr) : ∀ (s : State V) (k : String),
    (loadPairs s l).kvStr k = (match lastValue (acceptedPairs s l) k with | some v => some v | none => s.kvStr k) ∧
    (∀ p, s.proc k = some p → (loadPairs s l).kv k =
      (match lastValue (acceptedPairs s l) k with | some v => some (p.convert v) | none => s.kv k)) ∧
    (s.proc k = none → (loadPairs s l).kv k = s.kv k) := by
  induction l with
  | nil => intro s k; simp [loadPairs, acceptedPairs, lastValue]
  | cons x l ih =>
    intro s k
    obtain ⟨h1, h2, h3⟩ := ih (updateNoPersist s x.key x.value).1 k
    have hp := (updateNoPersist_proc s x.key x.value).1
    have hacc : acceptedPairs (updateNoPersist s x.key x.value).1 l = acceptedPairs s l := by
      simp only [acceptedPairs]
      exact List.filter_congr fun y _ => by simp [accepts_congr hp]
    rw [hp] at h2 h3
    rw [hacc] at h1 h2
    simp only [loadPairs]
    by_cases ha : x.key ≠ "" ∧ Accepts s x.key x.value
    · have hl : acceptedPairs s (x :: l) = x :: acceptedPairs s l := by simp [acceptedPairs, ha]
      obtain ⟨p, hpp, hu⟩ := updateNoPersist_accepted s x.key x.value ha.1 ha.2
      rw [hu] at h1 h2 h3 ⊢
      simp only at h1 h2 h3
      rw [hl, lastValue_cons]
      refine ⟨?_, fun q hq => ?_, fun hn => ?_⟩
      · rw [h1]
        cases lastValue (acceptedPairs s l) k with
        | some v => rfl
        | none =>
          by_cases e : x.key = k
          · simp [e, setKey]
          · simp [e, setKey, Ne.symm e]
      · rw [h2 q hq]
        cases lastValue (acceptedPairs s l) k with
        | some v => rfl
        | none =>
          by_cases e : x.key = k
          · rw [e, hq] at hpp; simp at hpp; simp [e, setKey, hpp]
          · simp [e, setKey, Ne.symm e]
      · rw [h3 hn]
        have e : k ≠ x.key := by
          rintro rfl
          rw [hn] at hpp; simp at hpp
        simp [setKey, e]
    · have hl : acceptedPairs s (x :: l) = acceptedPairs s l := by simp only [acceptedPairs, List.filter_cons]; simp [ha]
      have hu : (updateNoPersist s x.key x.value).1 = s := by
        by_cases hk : x.key = ""
        · simp [updateNoPersist, hk]
        · obtain ⟨e, he⟩ := C59_partial s x.key x.value hk (fun h => ha ⟨hk, h⟩)
          rw [he]
      rw [hu] at h1 h2 h3 ⊢
      rw [hl]
      exact ⟨h1, h2, h3⟩

theorem mem_acceptedPairs (s : State V) (l : List KVStr) (x : KVStr) :
    x ∈ acceptedPairs s l ↔ x ∈ l ∧ x.key ≠ "" ∧ Accepts s x.key x.value := by
  simp [acceptedPairs]

/-- **C61** (errors).  One error for each pair that is not accepted, in order; it names the pair. -/
theorem C61_errors (s : State V) (l : List KVStr) (r : PRes) :
    (batchUpdate s l r).2 = l.filterMap (rejection s) ∧
    (∀ x, x.key ≠ "" → (rejection s x = none ↔ Accepts s x.key x.value)) ∧
    (∀ x e, rejection s x = some e → e.key = x.key ∧ e.value = x.value) := by
  refine ⟨?_, fun x hx => by rw [rejection_none]; simp [hx], fun x e he => rejection_some he⟩
  simp only [batchUpdate]
  split
  · rename_i h; subst h; rfl
  · exact batchApply_snd l s

/-- **C61** (effect).  The accepted pairs are applied in order: each key has the last value accepted for it. -/
theorem C61_applied (s : State V) (l : List KVStr) (r : PRes) (k : String) :
    (batchUpdate s l r).1.kvStr k = (match lastValue (acceptedPairs s l) k with | some v => some v | none => s.kvStr k) ∧
    (∀ p, s.proc k = some p → (batchUpdate s l r).1.kv k =
      (match lastValue (acceptedPairs s l) k with | some v => some (p.convert v) | none => s.kv k)) := by
  obtain ⟨g, hg⟩ := batchUpdate_fst s l r
  rw [hg]
  obtain ⟨h1, h2, -⟩ := loadPairs_kvStr l s k
  exact ⟨h1, h2⟩

theorem hashSet_apply (l : List KVStr) : ∀ (h : String → Option String) (k : String),
    hashSet h l k = match lastValue l k with | some v => some v | none => h k := by
  induction l with
  | nil => intro h k; rfl
  | cons x l ih =>
    intro h k
    simp only [hashSet]
    rw [ih, lastValue_cons]
    cases lastValue l k with
    | some v => rfl
    | none =>
      by_cases e : x.key = k
      · simp [setKey, e]
      · simp [setKey, e, Ne.symm e]

/-- **C61** (persistence), if no key is empty and no key has both accepted and rejected values in the batch: exactly the
accepted pairs are saved. -/
theorem C61_persisted_partial (s : State V) (l : List KVStr) (h0 : ∀ x ∈ l, x.key ≠ "")
    (h : ∀ x ∈ l, ∀ y ∈ l, x.key = y.key → (Accepts s x.key x.value ↔ Accepts s y.key y.value)) :
    ∀ k, (batchUpdate s l .ok).1.hash k =
      match lastValue (acceptedPairs s l) k with | some v => some v | none => s.hash k := by
  suffices hs : (batchUpdate s l .ok).1.hash = hashSet s.hash (acceptedPairs s l) by
    intro k; rw [hs, hashSet_apply]
  simp only [batchUpdate]
  split
  · rename_i h; subst h; simp [acceptedPairs, hashSet]
  · have hf : l.filter (fun x => !(batchApply s l).2.any (fun e => e.key = x.key)) = acceptedPairs s l := by
      rw [batchApply_snd]
      simp only [acceptedPairs]
      apply List.filter_congr
      intro x hx
      have h0x := h0 x hx
      by_cases ha : Accepts s x.key x.value
      · simp only [h0x, ne_eq, not_false_eq_true, ha, and_self, decide_true, Bool.not_eq_true']
        rw [List.any_eq_false]
        intro e he
        rw [List.mem_filterMap] at he
        obtain ⟨y, hy, hye⟩ := he
        simp only [decide_eq_true_eq]
        intro hk
        have := rejection_some hye
        have hyx : y.key = x.key := this.1.symm.trans hk
        have h1 := (h y hy x hx hyx).2 ha
        have h2 := (rejection_none s y).2 (.inr h1)
        rw [h2] at hye; simp at hye
      · simp only [ha, and_false, decide_false, Bool.not_eq_false']
        rw [List.any_eq_true]
        cases hr : rejection s x with
        | none =>
          rcases (rejection_none s x).1 hr with h1 | h1
          · exact absurd h1 h0x
          · exact absurd h1 ha
        | some e => exact ⟨e, List.mem_filterMap.2 ⟨x, hx, hr⟩, by simp [(rejection_some hr).1]⟩
    have hh : (batchApply s l).1.hash = s.hash := by rw [batchApply_fst]; exact (loadPairs_frame l s).2.2.2
    simp only [hf, hh, batchSave]
    split
    · rename_i h; rw [h]; rfl
    · simp [PRes.done]

def upper : Proc String := ⟨fun v => if v = "bad" then some "invalid" else none, fun v => v⟩

/-- A store with the key `a`. -/
def exStore : State String := (register (new String fun _ => none) "a" "0" (some upper)).1

/-- **C61** (persistence) does not hold if a key has an accepted and a rejected value. -/
theorem C61_duplicate_violated : Accepts exStore "a" "1" ∧
    getValueString (batchUpdate exStore [⟨"a", "1"⟩, ⟨"a", "bad"⟩] .ok).1 "a" = some "1" ∧
    (batchUpdate exStore [⟨"a", "1"⟩, ⟨"a", "bad"⟩] .ok).1.hash "a" = none :=
  ⟨⟨upper, rfl, rfl⟩, rfl, rfl⟩

/-- **C61** (the persister).  Saving reports no error iff there was nothing to save or redis said ok; then the last value of each key
is saved, and nothing else changes. -/
theorem C61_save (h : String → Option String) (l : List KVStr) (r : PRes) :
    ((batchSave h l r).2 = true ↔ l = [] ∨ r = .ok) ∧
    ((batchSave h l r).2 = true → ∀ k, (batchSave h l r).1 k = match lastValue l k with | some v => some v | none => h k) := by
  unfold batchSave
  split
  · rename_i hl; subst hl; simp [lastValue]
  · rename_i hl
    refine ⟨by simp [hl], fun hr k => ?_⟩
    simp at hr; subst hr
    exact hashSet_apply l h k

/-- **C61** (persistence) does not hold for the empty key, which is persisted. -/
theorem C61_empty_key_violated : (batchUpdate exStore [⟨"", "1"⟩] .ok).1.hash "" = some "1" ∧
    getValueString (batchUpdate exStore [⟨"", "1"⟩] .ok).1 "" = none := ⟨rfl, rfl⟩

/-- Errors of the persister are not reported. -/
theorem C61_save_error_violated : (batchUpdate exStore [⟨"a", "1"⟩] .err).2 = [] ∧
    (batchUpdate exStore [⟨"a", "1"⟩] .err).1.hash "a" = none := ⟨rfl, rfl⟩

example : (batchUpdate exStore [⟨"a", "1"⟩, ⟨"b", "2"⟩, ⟨"a", "3"⟩] .ok).2 = [⟨"b", "2", "key[b] not registered"⟩] ∧
    (batchUpdate exStore [⟨"a", "1"⟩, ⟨"b", "2"⟩, ⟨"a", "3"⟩] .ok).1.hash "a" = some "3" ∧
    getValueString (batchUpdate exStore [⟨"a", "1"⟩, ⟨"b", "2"⟩, ⟨"a", "3"⟩] .ok).1 "a" = some "3" := by decide

/-! ## C64 -/

theorem lastValue_nodup {l : List KVStr} (hn : (l.map (·.key)).Nodup) (k v : String) : lastValue l k = some v ↔ ⟨k, v⟩ ∈ l := by
  induction l with
  | nil => simp [lastValue]
  | cons x l ih =>
    rw [List.map_cons, List.nodup_cons] at hn
    have ih := ih hn.2
    rw [lastValue_cons]
    cases hl : lastValue l k with
    | some u =>
      rw [hl] at ih
      have hmem : (⟨k, u⟩ : KVStr) ∈ l := by
        have : ∀ w, lastValue l k = some w → (⟨k, w⟩ : KVStr) ∈ l := by
          intro w hw
          simp only [lastValue] at hw
          have := List.mem_of_getLast? hw
          rw [List.mem_map] at this
          obtain ⟨y, hy, rfl⟩ := this
          rw [List.mem_filter] at hy
          simp at hy
          obtain ⟨hy, rfl⟩ := hy
          exact hy
        exact this u hl
      have hx : x.key ≠ k := by
        rintro rfl
        exact hn.1 (List.mem_map.2 ⟨_, hmem, rfl⟩)
      simp only [ih, List.mem_cons]
      constructor
      · exact .inr
      · rintro (h | h)
        · rw [← h] at hx; simp at hx
        · exact h
    | none =>
      rw [hl] at ih
      simp only [List.mem_cons]
      constructor
      · intro h
        split at h
        · rename_i e
          simp at h
          left
          cases x; simp_all
        · simp at h
      · rintro (h | h)
        · rw [← h]; simp
        · exact absurd (ih.2 h) (by simp)

/-- **C64.**  Loading sets each registered key with a valid persisted value to that value, and changes nothing else, in
whatever order the pairs come. -/
theorem C64_load (s : State V) (order : List KVStr) (ho : Enumerates order s.hash) :
    (∀ k v p, k ≠ "" → s.hash k = some v → s.proc k = some p → p.validate v = none →
      getValueString (loadPairs s order) k = some v ∧ getValue (loadPairs s order) k = some (p.convert v)) ∧
    (∀ k, (∀ v, s.hash k = some v → k = "" ∨ ¬ Accepts s k v) →
      (loadPairs s order).kv k = s.kv k ∧ (loadPairs s order).kvStr k = s.kvStr k) ∧
    (loadPairs s order).proc = s.proc ∧ (loadPairs s order).dflt = s.dflt ∧ (loadPairs s order).dfltStr = s.dfltStr ∧
    (loadPairs s order).hash = s.hash := by
  have hnd : ((acceptedPairs s order).map (·.key)).Nodup := by
    have : List.Sublist (acceptedPairs s order) order := List.filter_sublist
    exact ho.1.sublist (this.map _)
  refine ⟨fun k v p hk hh hp hv => ?_, fun k hk => ?_, loadPairs_frame order s⟩
  · obtain ⟨h1, h2, -⟩ := loadPairs_kvStr order s k
    have h3 : lastValue (acceptedPairs s order) k = some v := by
      rw [lastValue_nodup hnd, mem_acceptedPairs]
      exact ⟨(ho.2 _).2 hh, hk, p, hp, hv⟩
    have h2 := h2 p hp
    rw [h3] at h1 h2
    simp [getValueString, getValue, h1, h2]
  · obtain ⟨h1, h2, h2'⟩ := loadPairs_kvStr order s k
    have h3 : lastValue (acceptedPairs s order) k = none := by
      cases hl : lastValue (acceptedPairs s order) k with
      | none => rfl
      | some v =>
        rw [lastValue_nodup hnd, mem_acceptedPairs] at hl
        have h4 := (ho.2 ⟨k, v⟩).1 hl.1
        rcases hk v h4 with h5 | h5
        · exact absurd h5 hl.2.1
        · exact absurd hl.2.2 h5
    rw [h3] at h1 h2
    refine ⟨?_, h1⟩
    cases hp : s.proc k with
    | none => exact h2' hp
    | some p => exact h2 p hp

example : Enumerates [⟨"a", "1"⟩, ⟨"b", "2"⟩] (fun k => if k = "a" then some "1" else if k = "b" then some "2" else none) :=
  ⟨by decide, fun ⟨k, v⟩ => by
    simp only [List.mem_cons, KVStr.mk.injEq, List.not_mem_nil, or_false]
    split
    · rename_i h; simp [h, eq_comm]
    · split
      · rename_i h; simp [h, eq_comm]
      · rename_i h h'; simp [h, h']⟩

example : getValueString (loadPairs exStore [⟨"b", "2"⟩, ⟨"a", "1"⟩]) "a" = some "1" := by decide

/-! ## C62 -/

/-- **C62.**  After `ResetKey` whose delete succeeds, the key has its default and is not in the persister, and the next
load does not change that. -/
theorem C62_reset (s : State V) (k : String) (r : PRes) (hr : r.done = true) :
    getValueString (reset s k r) k = s.dfltStr k ∧ getValue (reset s k r) k = s.dflt k ∧ (reset s k r).hash k = none ∧
    (∀ order, Enumerates order (reset s k r).hash →
      getValueString (loadPairs (reset s k r) order) k = s.dfltStr k ∧
      getValue (loadPairs (reset s k r) order) k = s.dflt k) ∧
    (∀ k', k' ≠ k → (reset s k r).kv k' = s.kv k' ∧ (reset s k r).kvStr k' = s.kvStr k' ∧
      (reset s k r).hash k' = s.hash k') := by
  have hh : (reset s k r).hash k = none := by simp [reset, hashDelete, hr, setKey]
  refine ⟨by simp [reset, getValueString, setKey], by simp [reset, getValue, setKey], hh, fun order ho => ?_, fun k' hk' => ?_⟩
  · obtain ⟨-, h1, -, h3, h4, -⟩ := C64_load (reset s k r) order ho
    obtain ⟨h5, h6⟩ := h1 k (fun v hv => by rw [hh] at hv; simp at hv)
    simp only [getValueString, getValue, h3, h4, h5, h6]
    simp [reset, setKey]
  · simp [reset, setKey, hk', hashDelete, hr]

/-- Without the hypothesis the next load brings the old value back. -/
example : getValueString (loadPairs (reset (loadPairs { exStore with hash := fun k => if k = "a" then some "7" else none }
    [⟨"a", "7"⟩]) "a" .err) [⟨"a", "7"⟩]) "a" = some "7" := by decide

example : getValueString (reset (updateNoPersist exStore "a" "5").1 "a" .ok) "a" = some "0" := by decide

/-! ## C63 -/

/-- **C63** (registration).  `RegisterKey` succeeds exactly for a non-empty, unregistered key with a processor that
accepts the default; otherwise nothing changes.  After success the key has the default value and no other key changes. -/
theorem C63_register (hash : String → Option String) (s : State V) (log : List (Ev V)) (h : Reach hash s log)
    (k d : String) (vp : Option (Proc V)) :
    ((register s k d vp).2 = .ok ↔ k ≠ "" ∧ s.proc k = none ∧ ∃ p, vp = some p ∧ p.validate d = none) ∧
    ((register s k d vp).2 ≠ .ok → (register s k d vp).1 = s) ∧
    (∀ p, (register s k d vp).2 = .ok → vp = some p → (register s k d vp).1.proc k = some p ∧
      getValueString (register s k d vp).1 k = some d ∧ getValue (register s k d vp).1 k = some (p.convert d)) ∧
    (∀ k', k' ≠ k → getValueString (register s k d vp).1 k' = getValueString s k' ∧
      getValue (register s k d vp).1 k' = getValue s k' ∧ (register s k d vp).1.proc k' = s.proc k') := by
  have hh := reach_holds h k
  have hd : s.proc k = none → s.dflt k = none ∧ s.kv k = none ∧ s.kvStr k = none := by
    intro hn
    cases he : entry k log with
    | none => rw [he] at hh; exact ⟨hh.2.1, hh.2.2.2.1, hh.2.2.2.2⟩
    | some y => rw [he] at hh; rw [hh.2.1] at hn; simp at hn
  simp only [register]
  split
  · rename_i hk; simp [hk]
  rename_i hk
  split
  · simp
  rename_i p
  cases hp : s.proc k with
  | some q => simp
  | none =>
    obtain ⟨h1, h2, h3⟩ := hd hp
    simp only [Option.isSome_none, Bool.false_eq_true, if_false, h1]
    cases hv : p.validate d with
    | some e => simp [hv]
    | none =>
      simp only [ne_eq, hk, not_false_eq_true, Option.some.injEq, true_and, not_true_eq_false,
        false_implies, forall_const]
      refine ⟨?_, fun q hq => ?_, fun k' hk' => ?_⟩
      · simp; exact hv
      · subst hq
        simp [getValueString, getValue, setKey, h2, h3]
      · simp [getValueString, getValue, setKey, hk']

/-- **C63** (deregistration).  The key is missed, and can be registered again; other keys do not change. -/
theorem C63_deregister (s : State V) (k : String) (r : PRes) (hk : k ≠ "") :
    getValueString (deregister s k r) k = none ∧ getValue (deregister s k r) k = none ∧
    (∀ d p, p.validate d = none → (register (deregister s k r) k d (some p)).2 = .ok) ∧
    (∀ k', k' ≠ k → getValueString (deregister s k r) k' = getValueString s k' ∧
      getValue (deregister s k r) k' = getValue s k' ∧ (deregister s k r).proc k' = s.proc k' ∧
      (deregister s k r).hash k' = s.hash k') := by
  refine ⟨by simp [deregister, hk, getValueString, setKey], by simp [deregister, hk, getValue, setKey], fun d p hv => ?_,
    fun k' hk' => ?_⟩
  · simp [register, deregister, hk, setKey, hv]
  · refine ⟨by simp [deregister, hk, getValueString, setKey, hk'], by simp [deregister, hk, getValue, setKey, hk'],
      by simp [deregister, hk, setKey, hk'], ?_⟩
    simp only [deregister, hk, if_false, hashDelete]
    split <;> simp [setKey, hk']

/-- **C63** (unknown keys).  The store does not change. -/
theorem C63_unknown_partial (hash : String → Option String) (s : State V) (log : List (Ev V)) (h : Reach hash s log)
    (k : String) (r : PRes) (hp : s.proc k = none) : deregister s k r = { s with hash := (deregister s k r).hash } := by
  have hh := reach_holds h k
  have hn : entry k log = none := by
    cases he : entry k log with
    | none => rfl
    | some y => rw [he] at hh; rw [hh.2.1] at hp; simp at hp
  rw [hn] at hh
  obtain ⟨h1, h2, h3, h4, h5⟩ := hh
  have key : ∀ {α : Type} (f : String → Option α), f k = none → setKey f k none = f := by
    intro α f hf
    funext x
    simp only [setKey]
    split
    · rename_i e; rw [e, hf]
    · rfl
  simp only [deregister]
  split
  · rfl
  · simp [key _ h1, key _ h2, key _ h3, key _ h4, key _ h5]

/-- Deregistering an unknown key is not a no-op: what the persister has for it is deleted. -/
theorem C63_unknown_violated : ∃ s : State String, Reach (fun k => if k = "b" then some "1" else none) s [] ∧
    s.proc "b" = none ∧ s.hash "b" = some "1" ∧ (deregister s "b" .ok).hash "b" = none :=
  ⟨new String _, Reachable.refl _, rfl, rfl, rfl⟩

example : Reach (fun _ => none) exStore [.registered "a" "0" upper] := ⟨[.register "a" "0" (some upper)], rfl⟩

example : getValueString exStore "a" = some "0" ∧ getValue exStore "a" = some "0" ∧ getValue exStore "b" = none := by decide

/-! ## C65 -/

/-- A call of `DoLoad` that loaded successfully: clock at the start and at the end. -/
structure Loaded where
  start : Int
  fin   : Int

/-- The policy, its successful loads so far (latest first), and the clock. -/
structure PState where
  pol   : Policy
  loads : List Loaded
  clock : Int

/-- A call of `DoLoad` at time `now`, up to `now'`; the clock does not go back. -/
def pStep (s : PState) (a : Int × Int × Bool) : Option PState :=
  if s.clock ≤ a.1 ∧ a.1 ≤ a.2.1 then
    match s.pol.doLoad a.1 a.2.1 a.2.2 with
    | (p, .loaded) => some ⟨p, ⟨a.1, a.2.1⟩ :: s.loads, a.2.1⟩
    | (p, _) => some ⟨p, s.loads, a.2.1⟩
  else none

structure PInv (m : Int) (s : PState) : Prop where
  min : s.pol.minInterval = m
  last : 0 < m → s.pol.last = s.loads.head?.map (·.fin)
  gaps : 0 < m → s.loads.Pairwise (fun b a => a.fin + m ≤ b.start)
  order : ∀ x ∈ s.loads, x.start ≤ x.fin

theorem pInv_step {m : Int} {s s' : PState} {a : Int × Int × Bool} (h : PInv m s) (hs : pStep s a = some s') : PInv m s' := by
  obtain ⟨⟨mi, la⟩, loads, clock⟩ := s
  obtain ⟨now, now', ok⟩ := a
  obtain ⟨h1, h2, h3, h4⟩ := h
  simp only at h1 h2 h3 h4
  subst h1
  simp only [pStep, Policy.doLoad] at hs
  split at hs
  rotate_left
  · simp at hs
  rename_i hc
  by_cases hm : mi ≤ 0
  · simp only [hm, if_true] at hs
    cases ok <;> simp at hs <;> subst hs
    · exact ⟨rfl, h2, h3, h4⟩
    · exact ⟨rfl, by omega, by omega, by simp; exact ⟨hc.2, h4⟩⟩
  · have hm' : 0 < mi := by omega
    have h2 := h2 hm'
    have h3 := h3 hm'
    simp only [hm, if_false] at hs
    subst h2
    cases loads with
    | nil =>
      simp only [List.head?_nil, Option.map_none, Bool.false_eq_true, if_false] at hs
      cases ok <;> simp at hs <;> subst hs
      · exact ⟨rfl, fun _ => rfl, fun _ => h3, h4⟩
      · exact ⟨rfl, fun _ => rfl, fun _ => by simp, by simp; exact hc.2⟩
    | cons x loads =>
      simp only [List.head?_cons, Option.map_some, decide_eq_true_eq] at hs
      by_cases hsk : now - mi < x.fin
      · simp only [hsk, if_true, Option.some.injEq] at hs
        subst hs
        exact ⟨rfl, fun _ => rfl, fun _ => h3, h4⟩
      · simp only [hsk, if_false] at hs
        cases ok <;> simp at hs <;> subst hs
        · exact ⟨rfl, fun _ => rfl, fun _ => h3, h4⟩
        · refine ⟨rfl, fun _ => rfl, fun _ => ?_, ?_⟩
          · refine List.pairwise_cons.2 ⟨fun z hz => ?_, h3⟩
            rcases List.mem_cons.1 hz with rfl | hz
            · simp only; omega
            · have g1 := (List.pairwise_cons.1 h3).1 z hz
              have g2 := h4 x (by simp)
              simp only; omega
          · intro y hy
            rcases List.mem_cons.1 hy with rfl | hy
            · exact hc.2
            · exact h4 y hy

/-- **C65** (spacing).  With `minInterval > 0` a load starts at least `minInterval` after the end of every earlier
successful load. -/
theorem C65_spacing (m t0 : Int) (hm : 0 < m) (s : PState) (h : Reachable pStep ⟨Policy.new m, [], t0⟩ s) :
    s.loads.Pairwise (fun b a => a.fin + m ≤ b.start) := by
  have hi : PInv m s := Reachable.inv h ⟨rfl, fun _ => rfl, fun _ => by simp, by simp⟩ (fun s a s' hs h => pInv_step hs h)
  exact hi.gaps hm

/-- **C65** (retry).  After a failed load the next call loads again. -/
theorem C65_retry (p p' : Policy) (now now' : Int) (h : p.doLoad now now' false = (p', .failed)) (n n' : Int) (ok : Bool)
    (hn : now ≤ n) : (p'.doLoad n n' ok).2 ≠ .skipped := by
  obtain ⟨m, l⟩ := p
  simp only [Policy.doLoad] at h
  split at h
  · rename_i hm
    simp at h; subst h
    simp only [Policy.doLoad, hm, if_true]
    cases ok <;> simp
  · rename_i hm
    split at h
    · simp at h; subst h
      cases ok <;> simp [Policy.doLoad, hm]
    · rename_i l
      split at h
      · simp at h
      · rename_i hs
        simp at hs h; subst h
        have : ¬ (n - m < l) := by omega
        cases ok <;> simp [Policy.doLoad, hm, this]

/-- **C65** (no interval).  With `minInterval ≤ 0` every call loads. -/
theorem C65_always (p : Policy) (now now' : Int) (ok : Bool) (h : p.minInterval ≤ 0) :
    p.doLoad now now' ok = (p, if ok then .loaded else .failed) := by
  simp [Policy.doLoad, h]

/-- Loads are not put off for longer than the interval. -/
theorem C65_not_skipped (p : Policy) (now now' : Int) (ok : Bool) (h : ∀ l, p.last = some l → l + p.minInterval ≤ now) :
    (p.doLoad now now' ok).2 ≠ .skipped := by
  obtain ⟨m, l⟩ := p
  simp only at h
  simp only [Policy.doLoad]
  split
  · cases ok <;> simp
  · cases l with
    | none => cases ok <;> simp
    | some l =>
      have := h l rfl
      have : ¬ (now - m < l) := by omega
      cases ok <;> simp [this]

example : ((Policy.new 5).doLoad 100 101 true).1.doLoad 105 105 true = (⟨5, some 101⟩, .skipped) ∧
    ((Policy.new 5).doLoad 100 101 true).1.doLoad 106 107 true = (⟨5, some 107⟩, .loaded) := by decide

/-! ## C83 -/

/-- **C83** (batch).  With a persister that loads nothing, `BatchGetValues` gives the values of exactly the non-empty keys
that hit, in order. -/
theorem C83_batch (s : Sys V) (i : LoadIn) (l : List (String × LoadIn)) (hi : i.order = [])
    (hl : ∀ x ∈ l, x.2.order = []) :
    (opBatchGetValues s i l).2 = l.filterMap (fun x => if x.1 = "" then none else (getValue s.1 x.1).map (x.1, ·)) ∧
    (opBatchGetValueString s i l).2 =
      l.filterMap (fun x => if x.1 = "" then none else (getValueString s.1 x.1).map (KVStr.mk x.1 ·)) := by
  have hd : ∀ (t : Sys V) (j : LoadIn), j.order = [] → (doLoad t j).1.1 = t.1 := by
    intro t j hj
    simp only [doLoad]
    (repeat' split) <;> simp [hj, loadPairs]
  have h1 : ∀ (l : List (String × LoadIn)) (t : Sys V), (∀ x ∈ l, x.2.order = []) →
      (batchGetLoop t l).2 = l.filterMap (fun x => if x.1 = "" then none else (getValue t.1 x.1).map (x.1, ·)) := by
    intro l
    induction l with
    | nil => intro t _; rfl
    | cons x l ih =>
      intro t hl
      obtain ⟨k, j⟩ := x
      have hj := hd t j (hl (k, j) (by simp))
      have ih := fun t => ih t (fun x hx => hl x (by simp [hx]))
      simp only [batchGetLoop, List.filterMap_cons]
      split
      · exact ih t
      · simp only [opGetValue, hj]
        cases hg : getValue t.1 k with
        | none => simp [hg, ih, hj]
        | some v => simp [hg, ih, hj]
  have h2 : ∀ (l : List (String × LoadIn)) (t : Sys V), (∀ x ∈ l, x.2.order = []) →
      (batchGetStrLoop t l).2 = l.filterMap (fun x => if x.1 = "" then none else (getValueString t.1 x.1).map (KVStr.mk x.1 ·)) := by
    intro l
    induction l with
    | nil => intro t _; rfl
    | cons x l ih =>
      intro t hl
      obtain ⟨k, j⟩ := x
      have hj := hd t j (hl (k, j) (by simp))
      have ih := fun t => ih t (fun x hx => hl x (by simp [hx]))
      simp only [batchGetStrLoop, List.filterMap_cons]
      split
      · exact ih t
      · simp only [opGetValueString, hj]
        cases hg : getValueString t.1 k with
        | none => simp [hg, ih, hj]
        | some v => simp [hg, ih, hj]
  refine ⟨?_, ?_⟩
  · rw [opBatchGetValues, h1 l _ hl, hd s i hi]
  · rw [opBatchGetValueString, h2 l _ hl, hd s i hi]

/-- **C83** (must).  `MustGetValue` returns what `GetValue` then would return, and panics exactly if that misses. -/
theorem C83_must (s : Sys V) (i j : LoadIn) (k : String) (hi : i.order = []) (hj : j.order = []) :
    (opMustGetValue s i j k).2 = getValue s.1 k ∧ (opMustGetValueString s i j k).2 = getValueString s.1 k := by
  have hd : ∀ (t : Sys V) (j : LoadIn), j.order = [] → (doLoad t j).1.1 = t.1 := by
    intro t j hj
    simp only [doLoad]
    (repeat' split) <;> simp [hj, loadPairs]
  simp [opMustGetValue, opMustGetValueString, opGetValue, opGetValueString, hd, hi, hj]

end Gears.Confstore
