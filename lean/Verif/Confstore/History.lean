import Verif.Confstore.Model
import Verif.Common.Exec

/-
Histories of store operations, and what a key holds after one.
-/

namespace Gears.Confstore

variable {V : Type}

/-- What happened to a key. -/
inductive Ev (V : Type) where
  | registered (k d : String) (p : Proc V)
  | deregistered (k : String)
  /-- an accepted update -/
  | updated (k v : String)
  | reset (k : String)

def Ev.key : Ev V → String
  | .registered k _ _ => k
  | .deregistered k => k
  | .updated k _ => k
  | .reset k => k

/-- The key is registered and its processor accepts the value. -/
def Accepts (s : State V) (k v : String) : Prop := ∃ p, s.proc k = some p ∧ p.validate v = none

/-- The same, as a boolean. -/
def accepts (s : State V) (k v : String) : Bool :=
  match s.proc k with
  | some p => (p.validate v).isNone
  | none => false

theorem accepts_iff (s : State V) (k v : String) : accepts s k v = true ↔ Accepts s k v := by
  simp only [accepts, Accepts]
  cases s.proc k <;> simp

inductive Op (V : Type) where
  | register (k d : String) (vp : Option (Proc V))
  | deregister (k : String) (r : PRes)
  | updateNoPersist (k v : String)
  | update (k v : String) (r : PRes)
  | batchUpdate (l : List KVStr) (r : PRes)
  | reset (k : String) (r : PRes)
  /-- the pairs come from the persister; they may be anything -/
  | load (l : List KVStr)
  /-- others change the redis hash -/
  | other (h : String → Option String)

/-- The events of a list of updates made one after the other. -/
def updateEvs (s : State V) : List KVStr → List (Ev V)
  | [] => []
  | x :: l => (if accepts s x.key x.value then [.updated x.key x.value] else []) ++
      updateEvs (updateNoPersist s x.key x.value).1 l

def opStep (x : State V × List (Ev V)) : Op V → Option (State V × List (Ev V))
  | .register k d vp =>
    some ((register x.1 k d vp).1, x.2 ++ (match (register x.1 k d vp).2, vp with
      | .ok, some p => [.registered k d p]
      | _, _ => []))
  | .deregister k r => some (deregister x.1 k r, x.2 ++ [.deregistered k])
  | .updateNoPersist k v => some ((updateNoPersist x.1 k v).1, x.2 ++ updateEvs x.1 [⟨k, v⟩])
  | .update k v r => some ((update x.1 k v r).1, x.2 ++ updateEvs x.1 [⟨k, v⟩])
  | .batchUpdate l r => some ((batchUpdate x.1 l r).1, x.2 ++ updateEvs x.1 l)
  | .reset k r => some (reset x.1 k r, x.2 ++ [.reset k])
  | .load l => some (loadPairs x.1 l, x.2 ++ updateEvs x.1 l)
  | .other h => some ({ x.1 with hash := h }, x.2)

/-- The states and event logs of all histories of a new store. -/
def Reach (hash : String → Option String) (s : State V) (log : List (Ev V)) : Prop :=
  Reachable opStep (new V hash, []) (s, log)

/-! ## The contents of a key after a history -/

/-- Processor, default and current value. -/
abbrev Entry (V : Type) := Option (Proc V × String × Option String)

def evStep (k : String) (x : Entry V) (e : Ev V) : Entry V :=
  if e.key = k then
    match e with
    | .registered _ d p => some (p, d, none)
    | .deregistered _ => none
    | .updated _ v => x.map fun y => (y.1, y.2.1, some v)
    | .reset _ => x.map fun y => (y.1, y.2.1, none)
  else x

def entry (k : String) (log : List (Ev V)) : Entry V := log.foldl (evStep k) none

/-- The store holds this entry for the key. -/
def Holds (s : State V) (k : String) : Entry V → Prop
  | none => s.proc k = none ∧ s.dflt k = none ∧ s.dfltStr k = none ∧ s.kv k = none ∧ s.kvStr k = none
  | some (p, d, c) => k ≠ "" ∧ s.proc k = some p ∧ s.dflt k = some (p.convert d) ∧ s.dfltStr k = some d ∧
      s.kv k = c.map p.convert ∧ s.kvStr k = c ∧ p.validate d = none ∧ ∀ v, c = some v → p.validate v = none

theorem holds_hash {s : State V} {k : String} {x : Entry V} (h : Holds s k x) (g : String → Option String) :
    Holds { s with hash := g } k x := by
  cases x <;> simpa [Holds] using h

theorem holds_updateNoPersist {s : State V} {e : String → Entry V} (h : ∀ k, Holds s k (e k)) (k' v : String) (k : String) :
    Holds (updateNoPersist s k' v).1 k ((if accepts s k' v then [.updated k' v] else []).foldl (evStep k) (e k)) := by
  have hk' := h k'
  have hk := h k
  simp only [updateNoPersist, accepts]
  by_cases hn : k' = ""
  · subst hn
    have : s.proc "" = none := by
      cases he : e "" with
      | none => rw [he] at hk'; exact hk'.1
      | some y => rw [he] at hk'; exact absurd rfl hk'.1
    simpa [this] using hk
  · obtain ⟨o, hp⟩ : ∃ o, s.proc k' = o := ⟨_, rfl⟩
    cases o with
    | none => simpa [hn, hp] using hk
    | some p =>
      obtain ⟨o, hv⟩ : ∃ o, p.validate v = o := ⟨_, rfl⟩
      cases o with
      | some x => simpa [hn, hv, hp] using hk
      | none =>
        simp only [hn, hv, hp, Option.isNone_none, if_true, if_false, List.foldl_cons, List.foldl_nil, evStep, Ev.key]
        by_cases hkk : k' = k
        · subst hkk
          cases he : e k' with
          | none => rw [he] at hk; rw [hk.1] at hp; simp at hp
          | some y =>
            obtain ⟨q, d, c⟩ := y
            rw [he] at hk
            obtain ⟨h0, h1, h2, h3, h4, h5, h6, h7⟩ := hk
            rw [hp] at h1; simp at h1; subst h1
            simp [Holds, setKey, hn, hp, h2, h3, h6, hv]
        · simp only [hkk, if_false]
          cases he : e k with
          | none => rw [he] at hk; simpa [Holds, setKey, Ne.symm hkk] using hk
          | some y => rw [he] at hk; simpa [Holds, setKey, Ne.symm hkk] using hk

theorem holds_loadPairs {l : List KVStr} : ∀ {s : State V} {e : String → Entry V}, (∀ k, Holds s k (e k)) → ∀ k,
    Holds (loadPairs s l) k ((updateEvs s l).foldl (evStep k) (e k)) := by
  induction l with
  | nil => intro s e h k; exact h k
  | cons x l ih =>
    intro s e h k
    simp only [loadPairs, updateEvs, List.foldl_append]
    exact ih (fun k => holds_updateNoPersist h x.key x.value k) k

theorem batchApply_fst (l : List KVStr) : ∀ s : State V, (batchApply s l).1 = loadPairs s l := by
  induction l with
  | nil => intro s; rfl
  | cons x l ih =>
    intro s
    simp only [batchApply, loadPairs]
    rw [← ih]
    cases hu : updateNoPersist s x.key x.value with
    | mk s1 r => cases r <;> rfl

theorem batchUpdate_fst (s : State V) (l : List KVStr) (r : PRes) : ∃ h, (batchUpdate s l r).1 = { loadPairs s l with hash := h } := by
  simp only [batchUpdate]
  split
  · rename_i h; subst h; exact ⟨s.hash, rfl⟩
  · exact ⟨_, by rw [batchApply_fst]⟩

theorem update_fst (s : State V) (k v : String) (r : PRes) : ∃ h, (update s k v r).1 = { (updateNoPersist s k v).1 with hash := h } := by
  simp only [update]
  cases hu : updateNoPersist s k v with
  | mk s1 e =>
    cases e with
    | none => exact ⟨s1.hash, rfl⟩
    | some e =>
      simp only
      cases batchSave s1.hash [⟨k, v⟩] r with
      | mk h b => cases b <;> exact ⟨h, rfl⟩

theorem foldl_key_ne {k : String} {l : List (Ev V)} (h : ∀ e ∈ l, e.key ≠ k) (x : Entry V) : l.foldl (evStep k) x = x := by
  induction l generalizing x with
  | nil => rfl
  | cons e l ih =>
    rw [List.foldl_cons, ih (fun e he => h e (by simp [he]))]
    simp [evStep, h e]

theorem holds_register {s : State V} {e : String → Entry V} (h : ∀ k, Holds s k (e k)) (k' d : String) (vp : Option (Proc V)) (k : String) :
    Holds (register s k' d vp).1 k ((match (register s k' d vp).2, vp with
      | .ok, some p => [Ev.registered k' d p]
      | _, _ => []).foldl (evStep k) (e k)) := by
  have hk := h k
  have hk' := h k'
  simp only [register]
  split
  · simpa using hk
  rename_i hn
  split
  · simpa using hk
  rename_i p
  split
  · simpa using hk
  rename_i hp
  split
  · simpa using hk
  rename_i hd
  split
  · simpa using hk
  rename_i hv
  simp only [List.foldl_cons, List.foldl_nil, evStep, Ev.key]
  by_cases hkk : k' = k
  · subst hkk
    cases he : e k' with
    | none =>
      rw [he] at hk
      simp [Holds, setKey, hn, hk.2.2.2.1, hk.2.2.2.2, hv]
    | some y =>
      rw [he] at hk
      simp [hk.2.1] at hp
  · simp only [hkk, if_false]
    cases he : e k with
    | none => rw [he] at hk; simpa [Holds, setKey, Ne.symm hkk] using hk
    | some y => rw [he] at hk; simpa [Holds, setKey, Ne.symm hkk] using hk

theorem holds_deregister {s : State V} {e : String → Entry V} (h : ∀ k, Holds s k (e k)) (k' : String) (r : PRes) (k : String) :
    Holds (deregister s k' r) k ([.deregistered k'].foldl (evStep k) (e k)) := by
  have hk := h k
  simp only [deregister, List.foldl_cons, List.foldl_nil, evStep, Ev.key]
  by_cases hkk : k' = k
  · subst hkk
    simp only [if_true]
    split
    · rename_i hn
      cases he : e k' with
      | none => rw [he] at hk; exact hk
      | some y => rw [he] at hk; exact absurd hn hk.1
    · simp [Holds, setKey]
  · simp only [hkk, if_false]
    split
    · exact hk
    · cases he : e k with
      | none => rw [he] at hk; simpa [Holds, setKey, Ne.symm hkk] using hk
      | some y => rw [he] at hk; simpa [Holds, setKey, Ne.symm hkk] using hk

theorem holds_reset {s : State V} {e : String → Entry V} (h : ∀ k, Holds s k (e k)) (k' : String) (r : PRes) (k : String) :
    Holds (reset s k' r) k ([.reset k'].foldl (evStep k) (e k)) := by
  have hk := h k
  simp only [reset, List.foldl_cons, List.foldl_nil, evStep, Ev.key]
  by_cases hkk : k' = k
  · subst hkk
    cases he : e k' with
    | none => rw [he] at hk; simp [Holds, setKey, hk.1, hk.2.1, hk.2.2.1]
    | some y =>
      rw [he] at hk
      obtain ⟨p, d, c⟩ := y
      obtain ⟨h0, h1, h2, h3, h4, h5, h6, h7⟩ := hk
      simp [Holds, setKey, h0, h1, h2, h3, h6]
  · simp only [hkk, if_false]
    cases he : e k with
    | none => rw [he] at hk; simpa [Holds, setKey, Ne.symm hkk] using hk
    | some y => rw [he] at hk; simpa [Holds, setKey, Ne.symm hkk] using hk

/-- The store always holds what the history says. -/
theorem reach_holds {hash : String → Option String} {s : State V} {log : List (Ev V)} (h : Reach hash s log) (k : String) :
    Holds s k (entry k log) := by
  have key := Reachable.inv (I := fun x : State V × List (Ev V) => ∀ k, Holds x.1 k (entry k x.2)) h
    (fun k => by simp [Holds, entry, new]) (by
      rintro ⟨s, log⟩ op ⟨s', log'⟩ hI hs
      intro k
      cases op <;> simp only [opStep, Option.some.injEq, Prod.mk.injEq] at hs <;> obtain ⟨rfl, rfl⟩ := hs <;>
        simp only [entry, List.foldl_append]
      · exact holds_register hI _ _ _ k
      · exact holds_deregister hI _ _ k
      · exact holds_loadPairs (l := [⟨_, _⟩]) hI k
      · rename_i k' v r
        obtain ⟨g, hg⟩ := update_fst s k' v r
        rw [hg]
        exact holds_hash (holds_loadPairs (l := [⟨_, _⟩]) hI k) g
      · rename_i l r
        obtain ⟨g, hg⟩ := batchUpdate_fst s l r
        rw [hg]
        exact holds_hash (holds_loadPairs hI k) g
      · exact holds_reset hI _ _ k
      · exact holds_loadPairs hI k
      · exact holds_hash (hI k) _)
  exact key k

end Gears.Confstore
