import Verif.Confstore.Conc

/-
Loading while others use the store: redisPersister.Load reads the whole hash (persister.go:45) and then calls
UpdateNoPersist for every pair (persister.go:50-55).  In between, other goroutines do what they like.
-/

namespace Gears.Confstore

variable {V : Type}

structure LState (V : Type) where
  base  : CState V
  /-- the loads in progress: the pairs they still have to put into the store -/
  loads : List (List (String × String))

inductive LAction (V : Type) where
  /-- whatever the goroutines that do not load do -/
  | base (a : CAction V)
  /-- persister.go:45 HGetAll; `ks` is the order of the map iteration -/
  | hgetall (ks : List String)
  /-- persister.go:50-51: the `j`th load begins UpdateNoPersist for its next pair -/
  | next (j : Nat)

def lStep (s : LState V) : LAction V → Option (LState V)
  | .base a => (cStep s.base a).map (fun b => { s with base := b })
  | .hgetall ks => some { s with loads := s.loads ++ [ks.filterMap (fun k => (s.base.st.hash k).map (fun v => (k, v)))] }
  | .next j =>
    match s.loads[j]? with
    | some (x :: rest) => (cStep s.base (.lookup x.1 x.2)).map (fun b => ⟨b, s.loads.set j rest⟩)
    | _ => none

def lInit (V : Type) (hash : String → Option String) : LState V := ⟨cInit V hash, []⟩

/-! ## C94 -/

/-- Actions by which nobody gives the key a value: no update of it begins, and nobody writes it into redis. -/
def Leaves (k : String) : LAction V → Prop
  | .base (.lookup k' _) => k' ≠ k
  | .base (.other h) => h k = none
  | _ => True

/-- C94 in full: when ResetKey has returned, the key reads as its default until somebody gives it a value again.  (Updates of
    the key that had begun before, and may come after the reset, are left out by `hp`.) -/
def C94Claim (V : Type) : Prop := ∀ (hash : String → Option String) (s s1 s' : LState V) (k : String) (r : PRes) (as : List (LAction V)),
  Reachable lStep (lInit V hash) s → (∀ x ∈ s.base.pend, x.key ≠ k) → r.done = true → lStep s (.base (.reset k r)) = some s1 →
  (∀ a ∈ as, Leaves k a) → exec lStep s1 as = some s' →
  getValueString s'.base.st k = s'.base.st.dfltStr k ∧ getValue s'.base.st k = s'.base.st.dflt k

/-- **C94** (violated): a load that read the hash before the reset writes the old value back after it, in memory. -/
theorem C94_violated : ¬ C94Claim Nat := by
  intro h
  have := h (fun k => if k = "a" then some "xyz" else none) _ _ _ "a" .ok [.next 0, .base (.write 0)]
    ⟨[.base (.register "a" "0" (some anyProc)), .hgetall ["a"]], rfl⟩ (by decide) rfl rfl (by simp [Leaves]) rfl
  exact absurd this.1 (by decide)

/-- … and no later load corrects it: the hash does not have the key any more, and loading only adds. -/
theorem C94_stays_violated : ∃ (s : LState Nat) (as : List (LAction Nat)),
    exec lStep (lInit Nat (fun k => if k = "a" then some "xyz" else none)) (as ++ [.base (.reset "a" .ok), .next 0, .base (.write 0)]) = some s ∧
    s.base.pend = [] ∧ (∀ l ∈ s.loads, l = []) ∧ s.base.st.hash "a" = none ∧ s.base.st.dfltStr "a" = some "0" ∧
    ∀ order, Enumerates order s.base.st.hash →
      getValueString (loadPairs s.base.st order) "a" = some "xyz" := by
  refine ⟨_, [.base (.register "a" "0" (some anyProc)), .hgetall ["a"]], rfl, rfl, by decide, rfl, rfl, fun order ho => ?_⟩
  obtain ⟨-, h1, -, -, h4, -⟩ := C64_load _ order ho
  obtain ⟨h5, h6⟩ := h1 "a" (fun v hv => absurd hv (by simp [setKey, lInit, cInit, new, register, reset, hashDelete, PRes.done]))
  simp only [getValueString, h6]
  rfl

/-- No load will put a value into the key. -/
structure Clean (k : String) (s : LState V) : Prop where
  pend : ∀ x ∈ s.base.pend, x.key ≠ k
  loads : ∀ l ∈ s.loads, ∀ x ∈ l, x.1 ≠ k
  hash : s.base.st.hash k = none
  kv : s.base.st.kv k = none
  kvStr : s.base.st.kvStr k = none

theorem clean_base {k : String} {b b' : CState V} {a : CAction V} (hp : ∀ x ∈ b.pend, x.key ≠ k) (hh : b.st.hash k = none)
    (h1 : b.st.kv k = none) (h2 : b.st.kvStr k = none) (hl : Leaves k (.base a)) (hs : cStep b a = some b') :
    (∀ x ∈ b'.pend, x.key ≠ k) ∧ b'.st.hash k = none ∧ b'.st.kv k = none ∧ b'.st.kvStr k = none := by
  cases a with
  | register k' d vp =>
    simp only [cStep, Option.some.injEq] at hs; subst hs
    refine ⟨hp, ?_⟩
    simp only [register]
    repeat' split
    all_goals exact ⟨hh, h1, h2⟩
  | deregister k' r =>
    simp only [cStep, Option.some.injEq] at hs; subst hs
    refine ⟨hp, ?_⟩
    simp only [deregister]
    split
    · exact ⟨hh, h1, h2⟩
    · simp only [hashDelete, setKey]
      grind [setKey]
  | reset k' r =>
    simp only [cStep, Option.some.injEq] at hs; subst hs
    refine ⟨hp, ?_⟩
    simp only [reset, hashDelete, setKey]
    grind [setKey]
  | lookup k' v =>
    simp only [cStep] at hs
    split at hs
    · simp at hs; subst hs; exact ⟨hp, hh, h1, h2⟩
    split at hs
    · simp at hs; subst hs; exact ⟨hp, hh, h1, h2⟩
    split at hs
    · simp at hs; subst hs; exact ⟨hp, hh, h1, h2⟩
    · simp at hs; subst hs
      refine ⟨fun x hx => ?_, hh, h1, h2⟩
      rcases List.mem_append.1 hx with hx | hx
      · exact hp x hx
      · simp at hx; subst hx; exact hl
  | write i =>
    simp only [cStep] at hs
    split at hs
    · simp at hs
    · rename_i x hx
      simp at hs; subst hs
      have hk := hp x (List.mem_of_getElem? hx)
      refine ⟨fun y hy => hp y (mem_eraseIdx hy), hh, ?_, ?_⟩ <;> simp [setKey, Ne.symm hk, h1, h2]
  | other h =>
    simp only [cStep, Option.some.injEq] at hs; subst hs
    exact ⟨hp, hl, h1, h2⟩

theorem clean_step {k : String} {s s' : LState V} {a : LAction V} (ha : Leaves k a) (h : Clean k s) (hs : lStep s a = some s') :
    Clean k s' := by
  obtain ⟨h1, h2, h3, h4, h5⟩ := h
  cases a with
  | base a =>
    simp only [lStep, Option.map_eq_some_iff] at hs
    obtain ⟨b, hb, rfl⟩ := hs
    obtain ⟨g1, g2, g3, g4⟩ := clean_base h1 h3 h4 h5 ha hb
    exact ⟨g1, h2, g2, g3, g4⟩
  | hgetall ks =>
    simp only [lStep, Option.some.injEq] at hs; subst hs
    refine ⟨h1, fun l hl x hx => ?_, h3, h4, h5⟩
    rcases List.mem_append.1 hl with hl | hl
    · exact h2 l hl x hx
    · simp at hl; subst hl
      simp only [List.mem_filterMap, Option.map_eq_some_iff] at hx
      obtain ⟨k', -, v, hv, rfl⟩ := hx
      rintro rfl
      rw [h3] at hv; simp at hv
  | next j =>
    simp only [lStep] at hs
    split at hs
    · rename_i x rest hj
      simp only [Option.map_eq_some_iff] at hs
      obtain ⟨b, hb, rfl⟩ := hs
      have hm := h2 _ (List.mem_of_getElem? hj)
      obtain ⟨g1, g2, g3, g4⟩ := clean_base (k := k) (a := .lookup x.1 x.2) h1 h3 h4 h5 (hm x (by simp)) hb
      refine ⟨g1, fun l hl y hy => ?_, g2, g3, g4⟩
      rcases List.mem_or_eq_of_mem_set hl with hl | rfl
      · exact h2 l hl y hy
      · exact hm y (by simp [hy])
    · simp at hs

/-- **C94** (partial): … if no load in progress has read the key before.  Missing: such loads. -/
theorem C94_partial (s s1 s' : LState V) (k : String) (r : PRes) (as : List (LAction V))
    (hp : ∀ x ∈ s.base.pend, x.key ≠ k) (hload : ∀ l ∈ s.loads, ∀ v, (k, v) ∉ l) (hr : r.done = true)
    (h1 : lStep s (.base (.reset k r)) = some s1) (hl : ∀ a ∈ as, Leaves k a) (h : exec lStep s1 as = some s') :
    getValueString s'.base.st k = s'.base.st.dfltStr k ∧ getValue s'.base.st k = s'.base.st.dflt k := by
  have hc : Clean k s1 := by
    simp only [lStep, cStep, Option.map_some, Option.some.injEq] at h1
    subst h1
    refine ⟨hp, fun l hl x hx e => hload l hl x.2 (by rw [← e]; exact hx), ?_, ?_, ?_⟩ <;>
      simp [reset, hashDelete, hr, setKey]
  have := exec_inv_on (P := Leaves k) (I := Clean k) (fun _ _ _ a b c => clean_step a b c) as s1 s' hl hc h
  simp [getValueString, getValue, this.kv, this.kvStr]

/-- A load that begins after the reset. -/
example : ∃ s s1 s' : LState Nat, Reachable lStep (lInit Nat (fun k => if k = "a" then some "xyz" else some "2")) s ∧
    getValueString s.base.st "a" = some "xyz" ∧ lStep s (.base (.reset "a" .ok)) = some s1 ∧
    exec lStep s1 [.hgetall ["a", "b"], .next 1, .base (.write 0)] = some s' ∧
    getValueString s'.base.st "b" = some "2" ∧ getValueString s'.base.st "a" = some "0" :=
  ⟨_, _, _, ⟨[.base (.register "a" "0" (some anyProc)), .base (.register "b" "0" (some anyProc)), .hgetall ["a"], .next 0, .base (.write 0)], rfl⟩,
    rfl, rfl, rfl, rfl, rfl⟩

end Gears.Confstore
