import Verif.Confstore.Props

/-
The store used by many goroutines.  RegisterKey and DeregisterKey hold both locks and ResetKey holds kvLock, so they are
single steps; so are the reads of GetValue and GetValueString, under kvLock.  UpdateNoPersist is two steps: it takes the
processor under kvProcessorLock and validates the value (store.go:143-161), then it writes under kvLock (163-166).
Update, BatchUpdate and loading call it, in any number of goroutines.  What the persister does, and what others do to the
redis hash, is a step that changes the hash in any way.
-/

namespace Gears.Confstore

variable {V : Type}

/-- An update between its two steps. -/
structure Pending (V : Type) where
  key   : String
  value : String
  proc  : Proc V

structure CState (V : Type) where
  st   : State V
  pend : List (Pending V)
  /-- ghost: all registrations that were made -/
  regs : List (String × Proc V)

inductive CAction (V : Type) where
  | register (k d : String) (vp : Option (Proc V))
  | deregister (k : String) (r : PRes)
  | reset (k : String) (r : PRes)
  /-- store.go:139-161 -/
  | lookup (k v : String)
  /-- store.go:163-166, of the `i`th pending update -/
  | write (i : Nat)
  | other (h : String → Option String)

def cStep (s : CState V) : CAction V → Option (CState V)
  | .register k d vp => some { s with
      st := (register s.st k d vp).1
      regs := match (register s.st k d vp).2, vp with
        | .ok, some p => (k, p) :: s.regs
        | _, _ => s.regs }
  | .deregister k r => some { s with st := deregister s.st k r }
  | .reset k r => some { s with st := reset s.st k r }
  | .lookup k v =>
    if k = "" then some s
    else match s.st.proc k with
      | none => some s
      | some p =>
        match p.validate v with
        | some _ => some s
        | none => some { s with pend := s.pend ++ [⟨k, v, p⟩] }
  | .write i =>
    match s.pend[i]? with
    | none => none
    | some x => some
        { st := { s.st with kv := setKey s.st.kv x.key (some (x.proc.convert x.value))
                            kvStr := setKey s.st.kvStr x.key (some x.value) }
          pend := s.pend.eraseIdx i
          regs := s.regs }
  | .other h => some { s with st := { s.st with hash := h } }

def cInit (V : Type) (hash : String → Option String) : CState V := ⟨new V hash, [], []⟩

/-! ## Values belong together -/

/-- `v` is accepted by, and `w` is the conversion of it by, a processor that the key was registered with. -/
def Together (s : CState V) (k v : String) (w : Option V) : Prop :=
  ∃ p : Proc V, (k, p) ∈ s.regs ∧ p.validate v = none ∧ w = some (p.convert v)

structure CInv (s : CState V) : Prop where
  procs : ∀ k p, s.st.proc k = some p → (k, p) ∈ s.regs
  pend : ∀ x ∈ s.pend, (x.key, x.proc) ∈ s.regs ∧ x.proc.validate x.value = none
  vals : ∀ k, (s.st.kvStr k = none ↔ s.st.kv k = none) ∧ ∀ v, s.st.kvStr k = some v → Together s k v (s.st.kv k)
  dflts : ∀ k, (s.st.dfltStr k = none ↔ s.st.dflt k = none) ∧ ∀ v, s.st.dfltStr k = some v → Together s k v (s.st.dflt k)

theorem mem_eraseIdx {α : Type} {l : List α} {i : Nat} {x : α} (h : x ∈ l.eraseIdx i) : x ∈ l :=
  (List.eraseIdx_sublist l i).subset h

theorem cInv_step {s s' : CState V} {a : CAction V} (h : CInv s) (hs : cStep s a = some s') : CInv s' := by
  obtain ⟨h0, h1, h2, h3⟩ := h
  cases a with
  | register k d vp =>
    simp only [cStep, Option.some.injEq] at hs; subst hs
    have hsame : (∃ r, r ≠ .ok ∧ register s.st k d vp = (s.st, r)) ∨ ∃ p, vp = some p ∧ p.validate d = none ∧
        register s.st k d vp = ({ s.st with
              dflt := setKey s.st.dflt k (some (p.convert d))
              dfltStr := setKey s.st.dfltStr k (some d)
              proc := setKey s.st.proc k (some p) }, .ok) := by
      simp only [register]
      split
      · exact .inl ⟨_, by simp, rfl⟩
      split
      · exact .inl ⟨_, by simp, rfl⟩
      split
      · exact .inl ⟨_, by simp, rfl⟩
      split
      · exact .inl ⟨_, by simp, rfl⟩
      split
      · exact .inl ⟨_, by simp, rfl⟩
      · rename_i hv
        exact .inr ⟨_, rfl, hv, rfl⟩
    rcases hsame with ⟨r, hr, he⟩ | ⟨p, rfl, hv, he⟩
    · rw [he]
      cases r <;> first | exact absurd rfl hr | exact ⟨h0, h1, h2, h3⟩
    · rw [he]
      have mono : ∀ k1 v w, Together s k1 v w → ∃ q : Proc V, (k1, q) ∈ (k, p) :: s.regs ∧ q.validate v = none ∧ w = some (q.convert v) := by
        rintro k v w ⟨q, hq, h⟩
        exact ⟨q, by simp [hq], h⟩
      refine ⟨fun k' q hq => ?_, fun x hx => ?_, fun k' => ⟨(h2 k').1, fun v hv' => mono _ _ _ ((h2 k').2 v hv')⟩, fun k' => ?_⟩
      · simp only [setKey] at hq
        split at hq
        · rename_i e; simp at hq; subst hq; subst e; simp
        · simp [h0 k' q hq]
      · have := h1 x hx
        exact ⟨by simp [this.1], this.2⟩
      · simp only [setKey]
        by_cases e : k' = k
        · subst e
          simp only [if_true]
          exact ⟨by simp, fun v hv' => by simp at hv'; subst hv'; exact ⟨p, by simp, hv, rfl⟩⟩
        · simp only [e, if_false]
          exact ⟨(h3 k').1, fun v hv' => mono _ _ _ ((h3 k').2 v hv')⟩
  | deregister k r =>
    simp only [cStep, Option.some.injEq] at hs; subst hs
    simp only [deregister]
    split
    · exact ⟨h0, h1, h2, h3⟩
    · refine ⟨fun k' q hq => ?_, h1, fun k' => ?_, fun k' => ?_⟩
      · simp only [setKey] at hq
        split at hq
        · simp at hq
        · exact h0 k' q hq
      · simp only [setKey]
        by_cases e : k' = k
        · simp [e]
        · simp only [e, if_false]; exact h2 k'
      · simp only [setKey]
        by_cases e : k' = k
        · simp [e]
        · simp only [e, if_false]; exact h3 k'
  | reset k r =>
    simp only [cStep, Option.some.injEq] at hs; subst hs
    simp only [reset]
    refine ⟨h0, h1, fun k' => ?_, h3⟩
    simp only [setKey]
    by_cases e : k' = k
    · simp [e]
    · simp only [e, if_false]; exact h2 k'
  | lookup k v =>
    simp only [cStep] at hs
    (repeat' split at hs) <;> simp only [Option.some.injEq] at hs <;> subst hs <;> try exact ⟨h0, h1, h2, h3⟩
    rename_i hp _ hv
    refine ⟨h0, fun x hx => ?_, h2, h3⟩
    rcases List.mem_append.1 hx with hx | hx
    · exact h1 x hx
    · simp at hx; subst hx; exact ⟨h0 _ _ hp, hv⟩
  | write i =>
    simp only [cStep] at hs
    split at hs
    · simp at hs
    · rename_i x hx
      simp only [Option.some.injEq] at hs; subst hs
      have hm := h1 x (List.mem_of_getElem? hx)
      refine ⟨h0, fun y hy => h1 y (mem_eraseIdx hy), fun k' => ?_, h3⟩
      simp only [setKey]
      by_cases e : k' = x.key
      · simp only [e, if_true]
        exact ⟨by simp, fun v hv' => by simp at hv'; subst hv'; exact ⟨x.proc, hm.1, hm.2, rfl⟩⟩
      · simp only [e, if_false]; exact h2 k'
  | other h =>
    simp only [cStep, Option.some.injEq] at hs; subst hs
    exact ⟨h0, h1, h2, h3⟩

/-- **C66** (values).  Under every interleaving a key has either both or neither of the two views, and the typed value is
what a processor makes of the string that accepts it and that the key is, or was, registered with. -/
theorem C66_views_partial (hash : String → Option String) (s : CState V) (h : Reachable cStep (cInit V hash) s) (k : String) :
    (∀ v, getValueString s.st k = some v →
      ∃ p : Proc V, (k, p) ∈ s.regs ∧ p.validate v = none ∧ getValue s.st k = some (p.convert v)) ∧
    (getValueString s.st k = none ↔ getValue s.st k = none) := by
  have hi : CInv s := Reachable.inv h ⟨by simp [cInit, new], by simp [cInit], by simp [cInit, new], by simp [cInit, new]⟩
    (fun _ _ _ hs h => cInv_step hs h)
  have g2 := hi.vals k
  have g3 := hi.dflts k
  simp only [getValueString, getValue]
  cases hs : s.st.kvStr k with
  | none =>
    rw [g2.1.1 hs]
    exact ⟨g3.2, g3.1⟩
  | some v =>
    obtain ⟨p, hr, hp, hv⟩ := g2.2 v hs
    simp only [hv]
    exact ⟨fun w hw => by simp at hw; subst hw; exact ⟨p, hr, hp, rfl⟩, by simp⟩

/-! ## Violations -/

def anyProc : Proc Nat := ⟨fun _ => none, String.length⟩
def noneProc : Proc Nat := ⟨fun v => if v = "0" then none else some "no", fun _ => 0⟩

/-- **C66** is violated: an update that took the processor before the key was deregistered writes afterwards, and the
unregistered key hits. -/
theorem C66_unregistered_violated : ∃ s : CState Nat, Reachable cStep (cInit Nat fun _ => none) s ∧
    s.st.proc "a" = none ∧ getValueString s.st "a" = some "xyz" ∧ getValue s.st "a" = some 3 :=
  ⟨_, ⟨[.register "a" "0" (some anyProc), .lookup "a" "xyz", .deregister "a" .ok, .write 0], rfl⟩, rfl, rfl, rfl⟩

/-- … and if the key is registered again, the value may be one that its processor rejects. -/
theorem C66_processor_violated : ∃ s : CState Nat, Reachable cStep (cInit Nat fun _ => none) s ∧
    ∃ p, s.st.proc "a" = some p ∧ getValueString s.st "a" = some "xyz" ∧ p.validate "xyz" ≠ none ∧
      getValue s.st "a" ≠ some (p.convert "xyz") :=
  ⟨_, ⟨[.register "a" "0" (some anyProc), .lookup "a" "xyz", .deregister "a" .ok, .register "a" "0" (some noneProc),
    .write 0], rfl⟩, noneProc, rfl, rfl, by decide, by decide⟩

/-! ## Without deregistrations during updates -/

/-- Keys are deregistered only while no update of the key is between its two steps. -/
def qStep (s : CState V) (a : CAction V) : Option (CState V) :=
  match a with
  | .deregister k r => if s.pend.any (·.key = k) then none else cStep s (.deregister k r)
  | a => cStep s a

structure QInv (hash : String → Option String) (s : CState V) : Prop where
  reach : ∃ log, Reach hash s.st log
  pend : ∀ x ∈ s.pend, x.key ≠ "" ∧ s.st.proc x.key = some x.proc ∧ x.proc.validate x.value = none

theorem reach_step {hash : String → Option String} {s s' : State V} {log log' : List (Ev V)} (h : Reach hash s log) (op : Op V)
    (hs : opStep (s, log) op = some (s', log')) : Reach hash s' log' :=
  Reachable.trans (b := (s, log)) h (Reachable.step op hs)

theorem qInv_step {hash : String → Option String} {s s' : CState V} {a : CAction V} (h : QInv hash s)
    (hs : qStep s a = some s') : QInv hash s' := by
  obtain ⟨⟨log, hr⟩, hp⟩ := h
  cases a with
  | register k d vp =>
    simp only [qStep, cStep, Option.some.injEq] at hs; subst hs
    refine ⟨⟨_, reach_step hr (.register k d vp) rfl⟩, fun x hx => ?_⟩
    obtain ⟨h1, h2, h3⟩ := hp x hx
    refine ⟨h1, ?_, h3⟩
    obtain ⟨g1, g2, -, g4⟩ := C63_register hash s.st log hr k d vp
    by_cases e : x.key = k
    · have : (register s.st k d vp).2 ≠ .ok := by
        rw [Ne, g1]
        rintro ⟨-, hn, -⟩
        rw [← e, h2] at hn; simp at hn
      simp only [g2 this]; exact h2
    · exact (g4 x.key e).2.2.trans h2
  | deregister k r =>
    simp only [qStep] at hs
    split at hs
    · simp at hs
    · rename_i hq
      simp only [cStep, Option.some.injEq] at hs; subst hs
      refine ⟨⟨_, reach_step hr (.deregister k r) rfl⟩, fun x hx => ?_⟩
      obtain ⟨h1, h2, h3⟩ := hp x hx
      refine ⟨h1, ?_, h3⟩
      have e : x.key ≠ k := by
        intro e
        exact hq (List.any_eq_true.2 ⟨x, hx, by simp [e]⟩)
      simp only [deregister]
      split
      · exact h2
      · simp only [setKey, e, if_false]; exact h2
  | reset k r =>
    simp only [qStep, cStep, Option.some.injEq] at hs; subst hs
    exact ⟨⟨_, reach_step hr (.reset k r) rfl⟩, fun x hx => hp x hx⟩
  | lookup k v =>
    simp only [qStep, cStep] at hs
    (repeat' split at hs) <;> simp only [Option.some.injEq] at hs <;> subst hs <;> try exact ⟨⟨log, hr⟩, hp⟩
    rename_i hk _ p hpk _ hv
    refine ⟨⟨log, hr⟩, fun x hx => ?_⟩
    rcases List.mem_append.1 hx with hx | hx
    · exact hp x hx
    · simp at hx; subst hx; exact ⟨hk, hpk, hv⟩
  | write i =>
    simp only [qStep, cStep] at hs
    split at hs
    · simp at hs
    · rename_i x hx
      simp only [Option.some.injEq] at hs; subst hs
      have hm := List.mem_of_getElem? hx
      obtain ⟨h1, h2, h3⟩ := hp x hm
      refine ⟨⟨_, reach_step hr (.updateNoPersist x.key x.value) (log' := log ++ updateEvs s.st [⟨x.key, x.value⟩]) ?_⟩,
        fun y hy => hp y (mem_eraseIdx hy)⟩
      simp only [opStep, Option.some.injEq, Prod.mk.injEq, and_true]
      simp [updateNoPersist, h1, h2, h3]
  | other h =>
    simp only [qStep, cStep, Option.some.injEq] at hs; subst hs
    exact ⟨⟨_, reach_step hr (.other h) rfl⟩, hp⟩

/-- **C66**, if keys are deregistered only while no update of them is under way: the store is then always as after some
sequence of whole operations; unregistered keys are missed, and the two views agree with the processor of the key. -/
theorem C66_partial (hash : String → Option String) (s : CState V) (h : Reachable qStep (cInit V hash) s) :
    (∃ log, Reach hash s.st log) ∧
    (∀ k, s.st.proc k = none → getValueString s.st k = none ∧ getValue s.st k = none) ∧
    (∀ k v, getValueString s.st k = some v →
      ∃ p, s.st.proc k = some p ∧ p.validate v = none ∧ getValue s.st k = some (p.convert v)) ∧
    (∀ k, getValueString s.st k = none ↔ getValue s.st k = none) := by
  have hi : QInv hash s := Reachable.inv h ⟨⟨[], Reachable.refl _⟩, by simp [cInit]⟩ (fun _ _ _ hs h => qInv_step hs h)
  obtain ⟨log, hr⟩ := hi.reach
  have hv := C58_views hash s.st log hr
  refine ⟨⟨log, hr⟩, fun k hk => ?_, fun k => (hv k).1, fun k => (hv k).2⟩
  have : getValueString s.st k = none := by
    cases hg : getValueString s.st k with
    | none => rfl
    | some v =>
      obtain ⟨p, hp, -⟩ := (hv k).1 v hg
      rw [hk] at hp; simp at hp
  exact ⟨this, ((hv k).2).1 this⟩

example : ∃ s : CState Nat, Reachable qStep (cInit Nat fun _ => none) s ∧ getValue s.st "a" = some 3 ∧
    getValue s.st "b" = none :=
  ⟨_, ⟨[.register "a" "0" (some anyProc), .register "b" "0" (some anyProc), .lookup "a" "xyz", .deregister "b" .ok,
    .write 0], rfl⟩, rfl, rfl⟩

end Gears.Confstore
