import Verif.Confstore.Props

/-
Reads that load: what `GetValue`, the batch reads and the Must reads return, given what is persisted.
-/

namespace Gears.Confstore

variable {V : Type}

/-! ## C111 -/

/-- The persisted value of `k` that the store accepts. -/
def persisted (s : State V) (k : String) : Option (String × Proc V) :=
  if k = "" then none
  else match s.hash k, s.proc k with
    | some v, some p => if p.validate v = none then some (v, p) else none
    | _, _ => none

/-- What a read returns once the persisted values are loaded: the persisted value, if it is acceptable, else what the store
has. -/
def freshStr (s : State V) (k : String) : Option String :=
  match persisted s k with
  | some x => some x.1
  | none => getValueString s k

def fresh (s : State V) (k : String) : Option V :=
  match persisted s k with
  | some x => some (x.2.convert x.1)
  | none => getValue s k

/-- The load that begins a read takes place: the persister answers and the policy does not skip it. -/
def Loads (s : Sys V) (i : LoadIn) : Prop :=
  i.ok = true ∧ match s.2 with
    | none => True
    | some p => p.minInterval ≤ 0 ∨ ∀ l, p.last = some l → l + p.minInterval ≤ i.now

theorem persisted_some {s : State V} {k v : String} {p : Proc V} (h : persisted s k = some (v, p)) :
    k ≠ "" ∧ s.hash k = some v ∧ s.proc k = some p ∧ p.validate v = none := by
  unfold persisted at h
  split at h
  · simp at h
  · rename_i hk
    split at h
    · split at h
      · simp at h; obtain ⟨rfl, rfl⟩ := h
        exact ⟨hk, by assumption, by assumption, by assumption⟩
      · simp at h
    · simp at h

theorem persisted_none {s : State V} {k : String} (h : persisted s k = none) :
    ∀ v, s.hash k = some v → k = "" ∨ ¬ Accepts s k v := by
  intro v hv
  by_cases hk : k = ""
  · exact .inl hk
  · refine .inr ?_
    rintro ⟨p, hp, hval⟩
    simp [persisted, hk, hv, hp, hval] at h

theorem loaded_reads (s : State V) (order : List KVStr) (ho : Enumerates order s.hash) (k : String) :
    getValue (loadPairs s order) k = fresh s k ∧ getValueString (loadPairs s order) k = freshStr s k := by
  obtain ⟨h1, h2, h3, h4, h5, h6⟩ := C64_load s order ho
  unfold fresh freshStr
  cases hp : persisted s k with
  | some x =>
    obtain ⟨v, p⟩ := x
    obtain ⟨g1, g2, g3, g4⟩ := persisted_some hp
    exact ⟨(h1 k v p g1 g2 g3 g4).2, (h1 k v p g1 g2 g3 g4).1⟩
  | none =>
    obtain ⟨e1, e2⟩ := h2 k (persisted_none hp)
    simp [getValue, getValueString, e1, e2, h4, h5]

theorem persisted_congr {s s' : State V} (h1 : s'.hash = s.hash) (h2 : s'.proc = s.proc) (k : String) : persisted s' k = persisted s k := by
  simp [persisted, h1, h2]

theorem doLoad_loads (s : Sys V) (i : LoadIn) (h : Loads s i) : (doLoad s i).1.1 = loadPairs s.1 i.order := by
  obtain ⟨st, pol⟩ := s
  obtain ⟨hok, h⟩ := h
  cases pol with
  | none => simp [doLoad, hok]
  | some p =>
    simp only at h
    simp only [doLoad, Policy.doLoad, hok]
    by_cases hm : p.minInterval ≤ 0
    · simp [hm]
    · have h := h.resolve_left hm
      cases hl : p.last with
      | none => simp [hm]
      | some l =>
        have := h l hl
        have hn : ¬ i.now - p.minInterval < l := by omega
        simp [hm, hn]

theorem doLoad_not (s : Sys V) (i : LoadIn) (h : ¬ Loads s i) : (doLoad s i).1.1 = s.1 := by
  obtain ⟨st, pol⟩ := s
  cases hok : i.ok with
  | false =>
    simp only [doLoad, Policy.doLoad, hok]
    cases pol with
    | none => simp
    | some p =>
      simp only
      by_cases h1 : p.minInterval ≤ 0
      · simp [h1]
      · cases hl : p.last with
        | none => simp [h1]
        | some l => by_cases h2 : i.now - p.minInterval < l <;> simp [h1, h2]
  | true =>
    cases pol with
    | none => exact absurd ⟨hok, trivial⟩ h
    | some p =>
      have h : ¬ (p.minInterval ≤ 0 ∨ ∀ l, p.last = some l → l + p.minInterval ≤ i.now) := fun hx => h ⟨hok, hx⟩
      simp only [not_or] at h
      obtain ⟨hm, h⟩ := h
      cases hl : p.last with
      | none => exact absurd (fun l hx => by rw [hl] at hx; simp at hx) h
      | some l =>
        have hn : i.now - p.minInterval < l := by
          apply Classical.byContradiction
          intro hc
          apply h
          intro l' hl'
          rw [hl] at hl'; simp at hl'; omega
        simp [doLoad, Policy.doLoad, hm, hl, hn]

/-- The policy and the registrations do not change the persisted values. -/
theorem doLoad_frame (s : Sys V) (i : LoadIn) : (doLoad s i).1.1.hash = s.1.hash ∧ (doLoad s i).1.1.proc = s.1.proc := by
  by_cases h : Loads s i
  · rw [doLoad_loads s i h]
    have := loadPairs_frame i.order s.1
    exact ⟨this.2.2.2, this.1⟩
  · rw [doLoad_not s i h]; exact ⟨rfl, rfl⟩

/-- **C111.**  A read whose load takes place returns the persisted value if the store accepts it, and otherwise what the
store has; a read whose load is skipped or fails returns what the store has. -/
theorem C111_read (s : Sys V) (i : LoadIn) (k : String) (ho : Enumerates i.order s.1.hash) :
    (Loads s i → (opGetValue s i k).2 = fresh s.1 k ∧ (opGetValueString s i k).2 = freshStr s.1 k) ∧
    (¬ Loads s i → (opGetValue s i k).2 = getValue s.1 k ∧ (opGetValueString s i k).2 = getValueString s.1 k) := by
  refine ⟨fun h => ?_, fun h => ?_⟩
  · simp only [opGetValue, opGetValueString, doLoad_loads s i h]
    exact loaded_reads s.1 i.order ho k
  · simp [opGetValue, opGetValueString, doLoad_not s i h]

/-- A state whose values agree with the persisted ones, as far as these are acceptable. -/
def Synced (s : State V) : Prop := ∀ k, getValue s k = fresh s k ∧ getValueString s k = freshStr s k

theorem synced_load {s : State V} {order : List KVStr} (ho : Enumerates order s.hash) : Synced (loadPairs s order) := by
  intro k
  obtain ⟨h1, h2⟩ := loaded_reads s order ho k
  obtain ⟨f1, -, -, f4⟩ := loadPairs_frame order s
  unfold fresh at h1 ⊢
  unfold freshStr at h2 ⊢
  rw [persisted_congr f4 f1]
  cases hp : persisted s k with
  | some x => rw [hp] at h1 h2; exact ⟨h1, h2⟩
  | none => exact ⟨rfl, rfl⟩

/-- Loading does not change what such a state gives. -/
theorem synced_doLoad {s : Sys V} {i : LoadIn} (hs : Synced s.1) (ho : Enumerates i.order s.1.hash) :
    Synced (doLoad s i).1.1 ∧ ∀ k, getValue (doLoad s i).1.1 k = getValue s.1 k ∧ getValueString (doLoad s i).1.1 k = getValueString s.1 k := by
  by_cases h : Loads s i
  · rw [doLoad_loads s i h]
    refine ⟨synced_load ho, fun k => ?_⟩
    obtain ⟨h1, h2⟩ := loaded_reads s.1 i.order ho k
    exact ⟨h1.trans (hs k).1.symm, h2.trans (hs k).2.symm⟩
  · rw [doLoad_not s i h]; exact ⟨hs, fun k => ⟨rfl, rfl⟩⟩

theorem loop_synced (g : String → Option V) (gs : String → Option String) : ∀ (l : List (String × LoadIn)) (s : Sys V), Synced s.1 →
    (∀ k, getValue s.1 k = g k ∧ getValueString s.1 k = gs k) → (∀ x ∈ l, Enumerates x.2.order s.1.hash) →
    (batchGetLoop s l).2 = l.filterMap (fun x => if x.1 = "" then none else (g x.1).map (x.1, ·)) ∧
    (batchGetStrLoop s l).2 = l.filterMap (fun x => if x.1 = "" then none else (gs x.1).map (KVStr.mk x.1 ·))
  | [], s, _, _, _ => ⟨rfl, rfl⟩
  | (k, i) :: l, s, hs, hg, ho => by
    obtain ⟨s1, h1⟩ := synced_doLoad hs (ho (k, i) (by simp))
    have hd := doLoad_frame s i
    have ih := loop_synced g gs l (doLoad s i).1 s1 (fun k => ⟨(h1 k).1.trans (hg k).1, (h1 k).2.trans (hg k).2⟩)
      (fun x hx => by rw [hd.1]; exact ho x (by simp [hx]))
    have ih0 := loop_synced g gs l s hs hg (fun x hx => ho x (by simp [hx]))
    simp only [batchGetLoop, batchGetStrLoop, List.filterMap_cons]
    by_cases hk : k = ""
    · simp only [hk, if_true]; exact ih0
    · simp only [hk, if_false, opGetValue, opGetValueString, (h1 k).1, (h1 k).2, (hg k).1, (hg k).2]
      refine ⟨?_, ?_⟩
      · cases hx : g k with
        | none => exact ih.1
        | some v => simp [ih.1]
      · cases hx : gs k with
        | none => exact ih.2
        | some v => simp [ih.2]

/-- **C111.**  A batch whose first load takes place returns, in order, the fresh values of the non-empty keys that have one,
whatever the order in which redis returns the pairs each time, and whether or not the later loads take place. -/
theorem C111_batch (s : Sys V) (i : LoadIn) (l : List (String × LoadIn)) (hi : Loads s i) (ho : Enumerates i.order s.1.hash)
    (hl : ∀ x ∈ l, Enumerates x.2.order s.1.hash) :
    (opBatchGetValues s i l).2 = l.filterMap (fun x => if x.1 = "" then none else (fresh s.1 x.1).map (x.1, ·)) ∧
    (opBatchGetValueString s i l).2 = l.filterMap (fun x => if x.1 = "" then none else (freshStr s.1 x.1).map (KVStr.mk x.1 ·)) := by
  have hd := doLoad_frame s i
  refine loop_synced _ _ l (doLoad s i).1 ?_ (fun k => ?_) (fun x hx => by rw [hd.1]; exact hl x hx)
  · rw [doLoad_loads s i hi]; exact synced_load ho
  · rw [doLoad_loads s i hi]; exact loaded_reads s.1 i.order ho k

/-- **C111.**  So does a Must read, and it panics exactly if there is no fresh value. -/
theorem C111_must (s : Sys V) (i j : LoadIn) (k : String) (hi : Loads s i) (ho : Enumerates i.order s.1.hash)
    (hj : Enumerates j.order s.1.hash) :
    (opMustGetValue s i j k).2 = fresh s.1 k ∧ (opMustGetValueString s i j k).2 = freshStr s.1 k := by
  have hd := doLoad_frame s i
  have hs : Synced (doLoad s i).1.1 := by rw [doLoad_loads s i hi]; exact synced_load ho
  obtain ⟨-, h2⟩ := synced_doLoad (i := j) hs (by rw [hd.1]; exact hj)
  simp only [opMustGetValue, opMustGetValueString, opGetValue, opGetValueString]
  rw [(h2 k).1, (h2 k).2, doLoad_loads s i hi]
  exact loaded_reads s.1 i.order ho k

/-- A store with the key `a` (default `d`), for which `v` is persisted, and the key `b`, for which nothing is. -/
def exReads : State String :=
  (register (register (new String (fun k => if k = "a" then some "v" else none)) "a" "d" (some ⟨fun _ => none, id⟩)).1 "b" "e"
    (some ⟨fun _ => none, id⟩)).1

example : (opBatchGetValues (exReads, none) ⟨0, 0, true, [⟨"a", "v"⟩]⟩
    [("b", ⟨0, 0, true, [⟨"a", "v"⟩]⟩), ("", ⟨0, 0, true, [⟨"a", "v"⟩]⟩), ("a", ⟨0, 0, false, [⟨"a", "v"⟩]⟩)]).2 =
    [("b", "e"), ("a", "v")] := by decide

/-- A read within the interval does not see the persisted value. -/
example : (opGetValue (exReads, some ⟨10, some 100⟩) ⟨105, 105, true, [⟨"a", "v"⟩]⟩ "a").2 = some "d" ∧
    (opGetValue (exReads, some ⟨10, some 100⟩) ⟨110, 110, true, [⟨"a", "v"⟩]⟩ "a").2 = some "v" := by decide

end Gears.Confstore
