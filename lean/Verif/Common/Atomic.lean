import Verif.Common.Exec

/-
Goroutines that call methods whose bodies are given instruction by instruction, on shared memory, with the read-write locks
of Go's package sync (a sync.Mutex is a lock that nobody locks for reading).  Any two instructions of different goroutines may
be interleaved.

Two theorems, for methods which touch a variable only while they hold its lock (`Guarded`):
* no two goroutines ever access a variable at the same time, one of them writing (`race_free`);
* if a method gives back locks only when it is through with the variables (`TwoPhase`), every call takes effect at one point
  between its invocation and its return: the results are those of the bodies run one after the other (`atomic_effects`).

The machine is sequentially consistent.  Go guarantees this for programs without data races, and that is what the first
theorem shows.  Locks are not fair here, and a waiting writer does not keep readers out: every execution of Go's locks is an
execution of this machine.
-/

namespace Gears.Atomic

inductive Mode where
  | R | W
deriving DecidableEq, Repr

/-- The body of a method; the continuations are what is done after the instruction.  `ι` are the variables, `ν` their types. -/
inductive Prog (ι : Type) (ν : ι → Type) (ρ : Type) where
  | ret (r : ρ)
  | load (x : ι) (k : ν x → Prog ι ν ρ)
  | store (x : ι) (v : ν x) (k : Prog ι ν ρ)
  /-- a clock reading -/
  | now (k : Int → Prog ι ν ρ)
  | acq (l : Nat) (m : Mode) (k : Prog ι ν ρ)
  | rel (l : Nat) (m : Mode) (k : Prog ι ν ρ)

abbrev Mem {ι : Type} (ν : ι → Type) := (x : ι) → ν x

variable {ι : Type} [DecidableEq ι] {ν : ι → Type} {ρ κ : Type}

/-- Memory after the assignment of `v` to `x`. -/
def put (m : Mem ν) (x : ι) (v : ν x) : Mem ν := fun y => if h : x = y then h ▸ v else m y

theorem put_same (m : Mem ν) (x : ι) (v : ν x) : put m x v x = v := by simp [put]

theorem put_ne (m : Mem ν) {x y : ι} (h : x ≠ y) (v : ν x) : put m x v y = m y := by simp [put, h]

/-- A value of a function on goroutines changed. -/
def upd {α : Type} (f : Nat → α) (i : Nat) (x : α) : Nat → α := fun j => if j = i then x else f j

theorem upd_same {α : Type} (f : Nat → α) (i : Nat) (x : α) : upd f i x i = x := by simp [upd]

theorem upd_ne {α : Type} (f : Nat → α) {i j : Nat} (h : j ≠ i) (x : α) : upd f i x j = f j := by simp [upd, h]

/-- A lock: who has it for writing, and who for reading. -/
structure Lock where
  writer  : Option Nat
  readers : List Nat
deriving DecidableEq, Repr

/-- A call that has not returned: its number, what is left of its body, the clock readings it took, the locks it has, and
whether it has given back one (`done`). -/
structure Run (ι : Type) (ν : ι → Type) (ρ κ : Type) where
  id       : Nat
  call     : κ
  prog     : Prog ι ν ρ
  readings : List Int
  held     : Nat → Option Mode
  done     : Bool

/-- What happened, with the time.  `eff` marks the moment at which a call gives back its first lock (or returns, if it took
none). -/
inductive Event (ρ κ : Type) where
  | inv (n : Nat) (c : κ) (t : Int)
  | eff (n : Nat) (c : κ) (readings : List Int) (t : Int)
  | res (n : Nat) (r : ρ) (t : Int)
deriving DecidableEq, Repr

structure Sys (ι : Type) (ν : ι → Type) (ρ κ : Type) where
  mem   : Mem ν
  clock : Int
  lock  : Nat → Lock
  thr   : Nat → Option (Run ι ν ρ κ)
  next  : Nat
  hist  : List (Event ρ κ)

inductive Action (κ : Type) where
  | tick (d : Nat)
  /-- goroutine `i` calls -/
  | call (i : Nat) (c : κ)
  /-- goroutine `i` makes its next instruction -/
  | step (i : Nat)
deriving DecidableEq, Repr

/-- Can goroutine `i` take the lock? -/
def Lock.free (k : Lock) : Mode → Bool
  | .W => k.writer = none && k.readers = []
  | .R => k.writer = none

def Lock.take (k : Lock) (i : Nat) : Mode → Lock
  | .W => ⟨some i, k.readers⟩
  | .R => ⟨k.writer, i :: k.readers⟩

def Lock.has (k : Lock) (i : Nat) : Mode → Bool
  | .W => k.writer = some i
  | .R => k.readers.contains i

def Lock.give (k : Lock) (i : Nat) : Mode → Lock
  | .W => ⟨none, k.readers⟩
  | .R => ⟨k.writer, k.readers.filter (· ≠ i)⟩

/-- The event for a call that gives back its first lock or returns. -/
def Run.effect (a : Run ι ν ρ κ) (t : Int) : List (Event ρ κ) := if a.done then [] else [.eff a.id a.call a.readings t]

def step (body : κ → Prog ι ν ρ) (s : Sys ι ν ρ κ) : Action κ → Option (Sys ι ν ρ κ)
  | .tick d => some { s with clock := s.clock + d }
  | .call i c =>
    match s.thr i with
    | some _ => none
    | none => some { s with thr := upd s.thr i (some ⟨s.next, c, body c, [], fun _ => none, false⟩), next := s.next + 1
                            hist := s.hist ++ [.inv s.next c s.clock] }
  | .step i =>
    match s.thr i with
    | none => none
    | some a =>
      match a.prog with
      | .ret r => some { s with thr := upd s.thr i none, hist := s.hist ++ a.effect s.clock ++ [.res a.id r s.clock] }
      | .load x k => some { s with thr := upd s.thr i (some { a with prog := k (s.mem x) }) }
      | .store x v k => some { s with mem := put s.mem x v, thr := upd s.thr i (some { a with prog := k }) }
      | .now k => some { s with thr := upd s.thr i (some { a with prog := k s.clock, readings := a.readings ++ [s.clock] }) }
      | .acq l m k =>
        if (s.lock l).free m then
          some { s with lock := upd s.lock l ((s.lock l).take i m)
                        thr := upd s.thr i (some { a with prog := k, held := upd a.held l (some m) }) }
        else none
      | .rel l m k =>
        if (s.lock l).has i m then
          some { s with lock := upd s.lock l ((s.lock l).give i m)
                        thr := upd s.thr i (some { a with prog := k, held := upd a.held l none, done := true })
                        hist := s.hist ++ a.effect s.clock }
        else none

/-- Nobody has called yet. -/
def start (m0 : Mem ν) (c0 : Int) : Sys ι ν ρ κ := ⟨m0, c0, fun _ => ⟨none, []⟩, fun _ => none, 0, []⟩

/-! ### What the theorems speak of -/

/-- Variables are touched only while their lock is held (for writing, if they are assigned); variables that are never
assigned (`imm`) may be read without.  `g` is the lock of a variable, `H` the locks held. -/
def Guarded (g : ι → Nat) (imm : ι → Bool) : (Nat → Option Mode) → Prog ι ν ρ → Prop
  | H, .ret _ => ∀ l, H l = none
  | H, .load x k => (imm x = true ∨ H (g x) ≠ none) ∧ ∀ v, Guarded g imm H (k v)
  | H, .store x _ k => imm x = false ∧ H (g x) = some .W ∧ Guarded g imm H k
  | H, .now k => ∀ t, Guarded g imm H (k t)
  | H, .acq l m k => H l = none ∧ Guarded g imm (upd H l (some m)) k
  | H, .rel l m k => H l = some m ∧ Guarded g imm (upd H l none) k

/-- After a lock is given back, more are given back at most. -/
def TwoPhase : Bool → Prog ι ν ρ → Prop
  | _, .ret _ => True
  | d, .load _ k => d = false ∧ ∀ v, TwoPhase d (k v)
  | d, .store _ _ k => d = false ∧ TwoPhase d k
  | d, .now k => d = false ∧ ∀ t, TwoPhase d (k t)
  | d, .acq _ _ k => d = false ∧ TwoPhase d k
  | _, .rel _ _ k => TwoPhase true k

/-- The body run by itself, with the given clock readings. -/
def seq : Prog ι ν ρ → List Int → Mem ν → Option (Mem ν × ρ)
  | .ret r, rs, m => if rs = [] then some (m, r) else none
  | .load x k, rs, m => seq (k (m x)) rs m
  | .store x v k, rs, m => seq k rs (put m x v)
  | .now k, rs, m =>
    match rs with
    | [] => none
    | t :: rs => seq (k t) rs m
  | .acq _ _ k, rs, m => seq k rs m
  | .rel _ _ k, rs, m => seq k rs m

/-- Calls one after the other: the memory at the end, and the results. -/
def seqAll (body : κ → Prog ι ν ρ) (m : Mem ν) : List (Nat × κ × List Int) → Option (Mem ν × List (Nat × ρ))
  | [] => some (m, [])
  | (n, c, rs) :: L =>
    match seq (body c) rs m with
    | none => none
    | some (m1, r) =>
      match seqAll body m1 L with
      | none => none
      | some (m2, R) => some (m2, (n, r) :: R)

/-- The calls that have taken effect, in that order. -/
def effects : List (Event ρ κ) → List (Nat × κ × List Int)
  | [] => []
  | .eff n c rs _ :: h => (n, c, rs) :: effects h
  | _ :: h => effects h

/-- The variable the next instruction accesses, and whether it writes. -/
def access : Prog ι ν ρ → Option (ι × Bool)
  | .load x _ => some (x, false)
  | .store x _ _ => some (x, true)
  | _ => none

/-- Two goroutines are about to access one variable, at least one of them writing. -/
def Race (s : Sys ι ν ρ κ) : Prop :=
  ∃ i j a b x w w', i ≠ j ∧ s.thr i = some a ∧ s.thr j = some b ∧ access a.prog = some (x, w) ∧ access b.prog = some (x, w') ∧
    (w = true ∨ w' = true)

/-! ### Locks -/

/-- The locks are held by those who think so, and what is left of the bodies is guarded. -/
structure LockInv (g : ι → Nat) (imm : ι → Bool) (s : Sys ι ν ρ κ) : Prop where
  writer : ∀ l i, (s.lock l).writer = some i ↔ ∃ a, s.thr i = some a ∧ a.held l = some .W
  reader : ∀ l i, i ∈ (s.lock l).readers ↔ ∃ a, s.thr i = some a ∧ a.held l = some .R
  alone : ∀ l, (s.lock l).writer ≠ none → (s.lock l).readers = []
  prog : ∀ i a, s.thr i = some a → Guarded g imm a.held a.prog

omit [DecidableEq ι] in
/-- Two goroutines do not hold a lock together, unless both for reading. -/
theorem LockInv.excl {g : ι → Nat} {imm : ι → Bool} {s : Sys ι ν ρ κ} (h : LockInv g imm s) {i j : Nat} (hij : i ≠ j) {a b : Run ι ν ρ κ}
    (ha : s.thr i = some a) (hb : s.thr j = some b) {l : Nat} (hw : a.held l = some .W) : b.held l = none := by
  have h1 := (h.writer l i).2 ⟨a, ha, hw⟩
  cases hc : b.held l with
  | none => rfl
  | some m =>
    cases m with
    | W =>
      have h2 := (h.writer l j).2 ⟨b, hb, hc⟩
      rw [h1] at h2
      exact absurd (Option.some.inj h2) hij
    | R =>
      have h2 := (h.reader l j).2 ⟨b, hb, hc⟩
      rw [h.alone l (by simp [h1])] at h2
      simp at h2

omit [DecidableEq ι] in
theorem lockInv_start (g : ι → Nat) (imm : ι → Bool) (m0 : Mem ν) (c0 : Int) : LockInv g imm (start (ρ := ρ) (κ := κ) m0 c0) :=
  ⟨by simp [start], by simp [start], by simp [start], by simp [start]⟩

omit [DecidableEq ι] in
/-- A step that leaves locks and held locks alone. -/
theorem LockInv.same {g : ι → Nat} {imm : ι → Bool} {s s' : Sys ι ν ρ κ} (h : LockInv g imm s) (hl : s'.lock = s.lock) {i : Nat}
    {a b : Run ι ν ρ κ} (ha : s.thr i = some a) (ht : s'.thr = upd s.thr i (some b)) (hh : b.held = a.held)
    (hp : Guarded g imm b.held b.prog) : LockInv g imm s' := by
  have key : ∀ l j m, (∃ c, s'.thr j = some c ∧ c.held l = some m) ↔ ∃ c, s.thr j = some c ∧ c.held l = some m := by
    intro l j m
    rw [ht]
    by_cases hj : j = i
    · subst hj; rw [upd_same, ha]; simp [hh]
    · rw [upd_ne _ hj]
  refine ⟨fun l j => by rw [hl, key]; exact h.writer l j, fun l j => by rw [hl, key]; exact h.reader l j,
    fun l => by rw [hl]; exact h.alone l, fun j c hc => ?_⟩
  rw [ht] at hc
  by_cases hj : j = i
  · subst hj; rw [upd_same] at hc; obtain rfl := Option.some.inj hc; exact hp
  · rw [upd_ne _ hj] at hc; exact h.prog j c hc

theorem lockInv_step {g : ι → Nat} {imm : ι → Bool} {body : κ → Prog ι ν ρ} (hb : ∀ c, Guarded g imm (fun _ => none) (body c))
    {s s' : Sys ι ν ρ κ} {act : Action κ} (h : LockInv g imm s) (hs : step body s act = some s') : LockInv g imm s' := by
  cases act with
  | tick d =>
    simp only [step, Option.some.injEq] at hs; subst hs
    exact ⟨h.writer, h.reader, h.alone, h.prog⟩
  | call i c =>
    simp only [step] at hs
    split at hs
    · simp at hs
    rename_i hi
    simp only [Option.some.injEq] at hs; subst hs
    have key : ∀ l j m, (∃ b, upd s.thr i (some ⟨s.next, c, body c, [], fun _ => none, false⟩) j = some b ∧ b.held l = some m) ↔
        ∃ b, s.thr j = some b ∧ b.held l = some m := by
      intro l j m
      by_cases hj : j = i
      · subst hj; rw [upd_same, hi]; simp
      · rw [upd_ne _ hj]
    refine ⟨fun l j => by rw [key]; exact h.writer l j, fun l j => by rw [key]; exact h.reader l j, h.alone, fun j b hj => ?_⟩
    simp only at hj
    by_cases hji : j = i
    · subst hji; rw [upd_same] at hj; obtain rfl := Option.some.inj hj; exact hb c
    · rw [upd_ne _ hji] at hj; exact h.prog j b hj
  | step i =>
    simp only [step] at hs
    split at hs
    · simp at hs
    rename_i a ha
    have hg := h.prog i a ha
    split at hs
    · rename_i r hp
      simp only [Option.some.injEq] at hs; subst hs
      rw [hp] at hg
      have key : ∀ l j m, (∃ b, upd s.thr i none j = some b ∧ b.held l = some m) ↔ ∃ b, s.thr j = some b ∧ b.held l = some m := by
        intro l j m
        by_cases hj : j = i
        · subst hj; rw [upd_same, ha]; simp [hg l]
        · rw [upd_ne _ hj]
      refine ⟨fun l j => by rw [key]; exact h.writer l j, fun l j => by rw [key]; exact h.reader l j, h.alone, fun j b hj => ?_⟩
      simp only at hj
      by_cases hji : j = i
      · subst hji; rw [upd_same] at hj; simp at hj
      · rw [upd_ne _ hji] at hj; exact h.prog j b hj
    · rename_i x k hp
      simp only [Option.some.injEq] at hs; subst hs
      rw [hp] at hg
      exact h.same rfl ha rfl rfl (hg.2 _)
    · rename_i x v k hp
      simp only [Option.some.injEq] at hs; subst hs
      rw [hp] at hg
      exact h.same rfl ha rfl rfl hg.2.2
    · rename_i k hp
      simp only [Option.some.injEq] at hs; subst hs
      rw [hp] at hg
      exact h.same rfl ha rfl rfl (hg _)
    · rename_i l m k hp
      split at hs
      · rename_i hfree
        simp only [Option.some.injEq] at hs; subst hs
        rw [hp] at hg
        have hw0 : (s.lock l).writer = none := by cases m <;> simp [Lock.free] at hfree <;> simp [hfree]
        refine ⟨fun l' j => ?_, fun l' j => ?_, fun l' => ?_, fun j b hj => ?_⟩
        · have hold := h.writer l' j
          simp only
          by_cases hl : l' = l
          · subst hl
            rw [upd_same]
            by_cases hj : j = i
            · subst hj; rw [upd_same]; simp only [Option.some.injEq, exists_eq_left', upd_same]
              cases m <;> simp [Lock.take, hw0]
            · rw [upd_ne _ hj, ← hold, hw0]
              cases m <;> simp [Lock.take, hw0]; exact fun e => hj e.symm
          · rw [upd_ne _ hl, hold]
            by_cases hj : j = i
            · subst hj; rw [upd_same, ha]; simp [upd_ne _ hl]
            · rw [upd_ne _ hj]
        · have hold := h.reader l' j
          simp only
          by_cases hl : l' = l
          · subst hl
            rw [upd_same]
            by_cases hj : j = i
            · subst hj; rw [upd_same]; simp only [Option.some.injEq, exists_eq_left', upd_same]
              have : j ∉ (s.lock l').readers := by rw [hold, ha]; simp [hg.1]
              cases m <;> simp [Lock.take, this]
            · rw [upd_ne _ hj, ← hold]
              cases m <;> simp [Lock.take, hj]
          · rw [upd_ne _ hl, hold]
            by_cases hj : j = i
            · subst hj; rw [upd_same, ha]; simp [upd_ne _ hl]
            · rw [upd_ne _ hj]
        · simp only
          by_cases hl : l' = l
          · subst hl; rw [upd_same]
            cases m with
            | W => simp [Lock.free] at hfree; simp [Lock.take, hfree.2]
            | R => simp [Lock.take, hw0]
          · rw [upd_ne _ hl]; exact h.alone l'
        · simp only at hj
          by_cases hji : j = i
          · subst hji; rw [upd_same] at hj; obtain rfl := Option.some.inj hj; exact hg.2
          · rw [upd_ne _ hji] at hj; exact h.prog j b hj
      · simp at hs
    · rename_i l m k hp
      split at hs
      · rename_i hhas
        simp only [Option.some.injEq] at hs; subst hs
        rw [hp] at hg
        refine ⟨fun l' j => ?_, fun l' j => ?_, fun l' => ?_, fun j b hj => ?_⟩
        · have hold := h.writer l' j
          simp only
          by_cases hl : l' = l
          · subst hl
            rw [upd_same]
            by_cases hj : j = i
            · subst hj; rw [upd_same]; simp only [Option.some.injEq, exists_eq_left', upd_same]
              cases m with
              | W => simp [Lock.give]
              | R => simp only [Lock.give, reduceCtorEq, iff_false]; rw [hold, ha]; simp [hg.1]
            · rw [upd_ne _ hj, ← hold]
              cases m with
              | W => simp [Lock.has] at hhas; simp [Lock.give, hhas]; exact fun e => hj e.symm
              | R => simp [Lock.give]
          · rw [upd_ne _ hl, hold]
            by_cases hj : j = i
            · subst hj; rw [upd_same, ha]; simp [upd_ne _ hl]
            · rw [upd_ne _ hj]
        · have hold := h.reader l' j
          simp only
          by_cases hl : l' = l
          · subst hl
            rw [upd_same]
            by_cases hj : j = i
            · subst hj; rw [upd_same]; simp only [Option.some.injEq, exists_eq_left', upd_same]
              cases m with
              | W => simp only [Lock.give, reduceCtorEq, iff_false]; rw [hold, ha]; simp [hg.1]
              | R => simp [Lock.give]
            · rw [upd_ne _ hj, ← hold]
              cases m <;> simp [Lock.give, hj]
          · rw [upd_ne _ hl, hold]
            by_cases hj : j = i
            · subst hj; rw [upd_same, ha]; simp [upd_ne _ hl]
            · rw [upd_ne _ hj]
        · simp only
          by_cases hl : l' = l
          · subst hl; rw [upd_same]
            cases m with
            | W => simp [Lock.give]
            | R => intro hne; simp only [Lock.give] at hne ⊢; rw [h.alone l' hne]; rfl
          · rw [upd_ne _ hl]; exact h.alone l'
        · simp only at hj
          by_cases hji : j = i
          · subst hji; rw [upd_same] at hj; obtain rfl := Option.some.inj hj; exact hg.2
          · rw [upd_ne _ hji] at hj; exact h.prog j b hj
      · simp at hs

omit [DecidableEq ι] in
theorem LockInv.no_race {g : ι → Nat} {imm : ι → Bool} {s : Sys ι ν ρ κ} (h : LockInv g imm s) : ¬ Race s := by
  rintro ⟨i, j, a, b, x, w, w', hij, ha, hb, hxa, hxb, hw⟩
  have main : ∀ {i j : Nat} {a b : Run ι ν ρ κ} {w' : Bool}, i ≠ j → s.thr i = some a → s.thr j = some b → access a.prog = some (x, true) →
      access b.prog = some (x, w') → False := by
    intro i j a b w' hij ha hb hxa hxb
    have hga := h.prog i a ha
    have hgb := h.prog j b hb
    cases hpa : a.prog <;> rw [hpa] at hxa hga <;> simp [access] at hxa
    obtain rfl := hxa
    have hne := h.excl hij ha hb hga.2.1
    cases hpb : b.prog <;> rw [hpb] at hxb hgb <;> simp [access] at hxb
    · obtain ⟨rfl, -⟩ := hxb
      rcases hgb.1 with h1 | h1
      · rw [hga.1] at h1; simp at h1
      · exact h1 hne
    · obtain ⟨rfl, -⟩ := hxb
      rw [hgb.2.1] at hne; simp at hne
  rcases hw with rfl | rfl
  · exact main hij ha hb hxa hxb
  · exact main (Ne.symm hij) hb ha hxb hxa

/-- Methods whose bodies are guarded have no data races, whatever the number of goroutines and the schedule. -/
theorem race_free {g : ι → Nat} {imm : ι → Bool} {body : κ → Prog ι ν ρ} (hb : ∀ c, Guarded g imm (fun _ => none) (body c))
    (m0 : Mem ν) (c0 : Int) (as : List (Action κ)) (s : Sys ι ν ρ κ) (h : exec (step body) (start m0 c0) as = some s) : ¬ Race s :=
  (exec_inv (fun _ _ _ hi hs => lockInv_step hb hi hs) as _ _ (lockInv_start g imm m0 c0) h).no_race

/-! ### Effects -/

/-- Memory with the assignments of a call on top. -/
def over (m : Mem ν) (d : (x : ι) → Option (ν x)) : Mem ν := fun x => (d x).getD (m x)

/-- One more assignment. -/
def setD (d : (x : ι) → Option (ν x)) (x : ι) (v : ν x) : (x : ι) → Option (ν x) := fun y => if h : x = y then some (h ▸ v) else d y

theorem setD_same (d : (x : ι) → Option (ν x)) (x : ι) (v : ν x) : setD d x v x = some v := by simp [setD]

theorem setD_ne (d : (x : ι) → Option (ν x)) {x y : ι} (h : x ≠ y) (v : ν x) : setD d x v y = d y := by simp [setD, h]

theorem over_setD (m : Mem ν) (d : (x : ι) → Option (ν x)) (x : ι) (v : ν x) : over m (setD d x v) = put (over m d) x v := by
  funext y
  by_cases h : x = y
  · subst h; simp [over, setD_same, put_same]
  · simp [over, setD_ne d h, put_ne _ h]

omit [DecidableEq ι] in
theorem over_none (m : Mem ν) : over m (fun _ => none) = m := rfl

omit [DecidableEq ι] in
theorem effects_append (h h' : List (Event ρ κ)) : effects (h ++ h') = effects h ++ effects h' := by
  induction h with
  | nil => rfl
  | cons e h ih => cases e <;> simp [effects, ih]

theorem seqAll_snoc {body : κ → Prog ι ν ρ} : ∀ (L : List (Nat × κ × List Int)) {m m1 m2 : Mem ν} {R : List (Nat × ρ)} {n : Nat} {c : κ}
    {rs : List Int} {r : ρ}, seqAll body m L = some (m1, R) → seq (body c) rs m1 = some (m2, r) →
    seqAll body m (L ++ [(n, c, rs)]) = some (m2, R ++ [(n, r)])
  | [], m, m1, m2, R, n, c, rs, r, h, h' => by
    simp only [seqAll, Option.some.injEq, Prod.mk.injEq] at h
    obtain ⟨rfl, rfl⟩ := h
    simp [seqAll, h']
  | (n0, c0, rs0) :: L, m, m1, m2, R, n, c, rs, r, h, h' => by
    simp only [seqAll] at h
    split at h
    · simp at h
    rename_i m3 r3 h3
    split at h
    · simp at h
    rename_i m4 R4 h4
    simp only [Option.some.injEq, Prod.mk.injEq] at h
    obtain ⟨rfl, rfl⟩ := h
    simp [seqAll, h3, seqAll_snoc L h4 h']

/-- What is left after a lock is given back does nothing but return. -/
theorem twoPhase_done : ∀ (p : Prog ι ν ρ), TwoPhase true p → ∃ r, ∀ m, seq p [] m = some (m, r)
  | .ret r, _ => ⟨r, fun m => by simp [seq]⟩
  | .load _ _, h => absurd h.1 (by simp)
  | .store _ _ _, h => absurd h.1 (by simp)
  | .now _, h => absurd h.1 (by simp)
  | .acq _ _ _, h => absurd h.1 (by simp)
  | .rel _ _ k, h => by
    obtain ⟨r, hr⟩ := twoPhase_done k h
    exact ⟨r, fun m => by simp only [seq]; exact hr m⟩

/-- `base` is the memory after the calls that have taken effect, one after the other; the memory differs from it by the
assignments `dirty` of the calls that have not; each of these has done what its body would do by itself on `base`. -/
structure EffInv (g : ι → Nat) (imm : ι → Bool) (body : κ → Prog ι ν ρ) (m0 : Mem ν) (s : Sys ι ν ρ κ) (base : Mem ν)
    (dirty : Nat → (x : ι) → Option (ν x)) (R : List (Nat × ρ)) : Prop where
  all : seqAll body m0 (effects s.hist) = some (base, R)
  clean : ∀ x, (∀ i, dirty i x = none) → s.mem x = base x
  dirt : ∀ i x v, dirty i x = some v → s.mem x = v ∧ imm x = false ∧ ∃ a, s.thr i = some a ∧ a.held (g x) = some .W ∧ a.done = false
  run : ∀ i a, s.thr i = some a → a.done = false → ∀ m', (∀ x, (imm x = true ∨ a.held (g x) ≠ none) → m' x = base x) → ∀ rs',
    seq (body a.call) (a.readings ++ rs') m' = seq a.prog rs' (over m' (dirty i))
  fin : ∀ i a, s.thr i = some a → a.done = true → ∃ r, (a.id, r) ∈ R ∧ ∀ m, seq a.prog [] m = some (m, r)
  two : ∀ i a, s.thr i = some a → TwoPhase a.done a.prog
  ret : ∀ n r t, Event.res n r t ∈ s.hist → (n, r) ∈ R

theorem effInv_start (g : ι → Nat) (imm : ι → Bool) (body : κ → Prog ι ν ρ) (m0 : Mem ν) (c0 : Int) :
    EffInv g imm body m0 (start m0 c0) m0 (fun _ _ => none) [] :=
  ⟨rfl, fun _ _ => rfl, by simp, by simp [start], by simp [start], by simp [start], by simp [start]⟩

/-- A step of goroutine `i` before its call takes effect, which leaves the history alone. -/
theorem EffInv.quiet {g : ι → Nat} {imm : ι → Bool} {body : κ → Prog ι ν ρ} {m0 : Mem ν} {s s' : Sys ι ν ρ κ} {base : Mem ν}
    {dirty : Nat → (x : ι) → Option (ν x)} {R : List (Nat × ρ)} (h : EffInv g imm body m0 s base dirty R) {i : Nat} {a b : Run ι ν ρ κ}
    (ha : s.thr i = some a) (ht : s'.thr = upd s.thr i (some b)) (hm : s'.mem = s.mem) (hh : s'.hist = s.hist)
    (hbd : b.done = false) (hheld : ∀ l, a.held l ≠ none → b.held l = a.held l) (htw : TwoPhase b.done b.prog)
    (hrun : ∀ m', (∀ x, (imm x = true ∨ b.held (g x) ≠ none) → m' x = base x) → ∀ rs',
      seq (body b.call) (b.readings ++ rs') m' = seq b.prog rs' (over m' (dirty i))) :
    EffInv g imm body m0 s' base dirty R := by
  refine ⟨by rw [hh]; exact h.all, by rw [hm]; exact h.clean, fun j x v hv => ?_, fun j c hc => ?_, fun j c hc => ?_, fun j c hc => ?_,
    by rw [hh]; exact h.ret⟩
  · obtain ⟨h1, h2, c, hc, h3, h4⟩ := h.dirt j x v hv
    rw [hm, ht]
    by_cases hj : j = i
    · subst hj
      rw [ha] at hc
      obtain rfl := Option.some.inj hc
      exact ⟨h1, h2, b, upd_same _ _ _, by rw [hheld _ (by rw [h3]; simp), h3], hbd⟩
    · exact ⟨h1, h2, c, by rw [upd_ne _ hj, hc], h3, h4⟩
  all_goals rw [ht] at hc; by_cases hj : j = i
  · subst hj; rw [upd_same] at hc; obtain rfl := Option.some.inj hc; exact fun _ => hrun
  · rw [upd_ne _ hj] at hc; exact h.run j c hc
  · subst hj; rw [upd_same] at hc; obtain rfl := Option.some.inj hc; intro hd; rw [hbd] at hd; simp at hd
  · rw [upd_ne _ hj] at hc; exact h.fin j c hc
  · subst hj; rw [upd_same] at hc; obtain rfl := Option.some.inj hc; exact htw
  · rw [upd_ne _ hj] at hc; exact h.two j c hc

/-- The call of goroutine `i` takes effect. -/
theorem EffInv.commit {g : ι → Nat} {imm : ι → Bool} {body : κ → Prog ι ν ρ} {m0 : Mem ν} {s s' : Sys ι ν ρ κ} {base : Mem ν}
    {dirty : Nat → (x : ι) → Option (ν x)} {R : List (Nat × ρ)} (h : EffInv g imm body m0 s base dirty R) (hl : LockInv g imm s)
    {i : Nat} {a : Run ι ν ρ κ} (ha : s.thr i = some a) (had : a.done = false) {r : ρ} (hr : ∀ m, seq a.prog [] m = some (m, r))
    (hm : s'.mem = s.mem) (hh : effects s'.hist = effects s.hist ++ [(a.id, a.call, a.readings)]) (ht : ∀ j, j ≠ i → s'.thr j = s.thr j)
    (hi : ∀ b, s'.thr i = some b → b.done = true ∧ b.id = a.id ∧ TwoPhase true b.prog ∧ ∀ m, seq b.prog [] m = some (m, r))
    (hres : ∀ n r' t, Event.res n r' t ∈ s'.hist → Event.res n r' t ∈ s.hist ∨ (n = a.id ∧ r' = r)) :
    EffInv g imm body m0 s' (over base (dirty i)) (upd dirty i (fun _ => none)) (R ++ [(a.id, r)]) := by
  refine ⟨?_, fun x hx => ?_, fun j x v hv => ?_, fun j c hc hd m' hm' rs' => ?_, fun j c hc hd => ?_, fun j c hc => ?_, fun n r' t hn => ?_⟩
  · rw [hh]
    refine seqAll_snoc _ h.all ?_
    have := h.run i a ha had base (fun _ _ => rfl) []
    rw [List.append_nil] at this
    rw [this, hr]
  · rw [hm]
    cases hd : dirty i x with
    | some v => rw [(h.dirt i x v hd).1]; simp [over, hd]
    | none =>
      simp only [over, hd, Option.getD_none]
      apply h.clean
      intro j
      by_cases hj : j = i
      · subst hj; exact hd
      · have := hx j; rwa [upd_ne _ hj] at this
  · by_cases hj : j = i
    · subst hj; rw [upd_same] at hv; simp at hv
    · rw [upd_ne _ hj] at hv
      obtain ⟨h1, h2, c, hc, h3, h4⟩ := h.dirt j x v hv
      exact ⟨by rw [hm]; exact h1, h2, c, by rw [ht j hj]; exact hc, h3, h4⟩
  · by_cases hj : j = i
    · subst hj; rw [(hi c hc).1] at hd; simp at hd
    · rw [upd_ne _ hj]
      rw [ht j hj] at hc
      refine h.run j c hc hd m' (fun x hx => ?_) rs'
      rw [hm' x hx]
      cases hdx : dirty i x with
      | none => simp [over, hdx]
      | some v =>
        obtain ⟨-, h2, a', ha', h3, -⟩ := h.dirt i x v hdx
        have := hl.excl (Ne.symm hj) ha' hc h3
        rcases hx with hx | hx
        · rw [h2] at hx; simp at hx
        · exact absurd this hx
  · by_cases hj : j = i
    · subst hj
      obtain ⟨-, h2, -, h4⟩ := hi c hc
      exact ⟨r, by rw [h2]; simp, h4⟩
    · rw [ht j hj] at hc
      obtain ⟨r', h1, h2⟩ := h.fin j c hc hd
      exact ⟨r', by simp [h1], h2⟩
  · by_cases hj : j = i
    · subst hj; obtain ⟨h1, -, h3, -⟩ := hi c hc; rw [h1]; exact h3
    · rw [ht j hj] at hc; exact h.two j c hc
  · rcases hres n r' t hn with h1 | ⟨rfl, rfl⟩
    · simp [h.ret n r' t h1]
    · simp

theorem effInv_step {g : ι → Nat} {imm : ι → Bool} {body : κ → Prog ι ν ρ} {m0 : Mem ν}
    (h2p : ∀ c, TwoPhase false (body c)) {s s' : Sys ι ν ρ κ} {act : Action κ} (hl : LockInv g imm s)
    {base : Mem ν} {dirty : Nat → (x : ι) → Option (ν x)} {R : List (Nat × ρ)} (h : EffInv g imm body m0 s base dirty R)
    (hs : step body s act = some s') : ∃ base' dirty' R', EffInv g imm body m0 s' base' dirty' R' := by
  cases act with
  | tick d =>
    simp only [step, Option.some.injEq] at hs; subst hs
    exact ⟨base, dirty, R, h.all, h.clean, h.dirt, h.run, h.fin, h.two, h.ret⟩
  | call i c =>
    simp only [step] at hs
    split at hs
    · simp at hs
    rename_i hi
    simp only [Option.some.injEq] at hs; subst hs
    have hdi : dirty i = fun _ => none := by
      funext x
      cases hd : dirty i x with
      | none => rfl
      | some v =>
        obtain ⟨-, -, a, ha, -⟩ := h.dirt i x v hd
        rw [hi] at ha; simp at ha
    refine ⟨base, dirty, R, by simp [effects_append, effects, h.all], h.clean, fun j x v hv => ?_, fun j b hb => ?_, fun j b hb => ?_,
      fun j b hb => ?_, fun n r t hn => h.ret n r t (by simpa using hn)⟩
    · obtain ⟨h1, h2, a, ha, h3⟩ := h.dirt j x v hv
      refine ⟨h1, h2, a, ?_, h3⟩
      by_cases hj : j = i
      · subst hj; rw [hi] at ha; simp at ha
      · simp only; rw [upd_ne _ hj]; exact ha
    all_goals simp only at hb; by_cases hj : j = i
    · subst hj; rw [upd_same] at hb; obtain rfl := Option.some.inj hb
      intro _ m' _ rs'
      simp [hdi, over_none]
    · rw [upd_ne _ hj] at hb; exact h.run j b hb
    · subst hj; rw [upd_same] at hb; obtain rfl := Option.some.inj hb; simp
    · rw [upd_ne _ hj] at hb; exact h.fin j b hb
    · subst hj; rw [upd_same] at hb; obtain rfl := Option.some.inj hb; exact h2p c
    · rw [upd_ne _ hj] at hb; exact h.two j b hb
  | step i =>
    simp only [step] at hs
    split at hs
    · simp at hs
    rename_i a ha
    have hg := hl.prog i a ha
    have htw := h.two i a ha
    split at hs
    · rename_i r hp
      simp only [Option.some.injEq] at hs; subst hs
      cases hd : a.done with
      | false =>
        refine ⟨_, _, _, h.commit hl ha hd (r := r) (fun m => by rw [hp]; simp [seq]) rfl ?_ (fun j hj => upd_ne _ hj _) ?_ ?_⟩
        · simp [effects_append, Run.effect, hd, effects]
        · intro b hb; simp only [upd_same] at hb; simp at hb
        · intro n r' t hn
          simp only [List.mem_append, Run.effect, hd, List.mem_singleton, Event.res.injEq] at hn
          rcases hn with (hn | hn) | ⟨rfl, rfl, -⟩
          · exact .inl hn
          · simp at hn
          · exact .inr ⟨rfl, rfl⟩
      | true =>
        obtain ⟨r', hr', hf⟩ := h.fin i a ha hd
        rw [hp] at hf
        have hrr : r' = r := by have := hf s.mem; simp [seq] at this; exact this.symm
        subst hrr
        refine ⟨base, dirty, R, by simp [effects_append, Run.effect, hd, effects, h.all], h.clean, fun j x v hv => ?_, fun j b hb => ?_,
          fun j b hb => ?_, fun j b hb => ?_, fun n r t hn => ?_⟩
        · obtain ⟨h1, h2, c, hc, h3, h4⟩ := h.dirt j x v hv
          refine ⟨h1, h2, c, ?_, h3, h4⟩
          by_cases hj : j = i
          · subst hj; rw [ha] at hc; obtain rfl := Option.some.inj hc; rw [hd] at h4; simp at h4
          · simp only; rw [upd_ne _ hj]; exact hc
        all_goals try (simp only at hb; by_cases hj : j = i)
        · subst hj; rw [upd_same] at hb; simp at hb
        · rw [upd_ne _ hj] at hb; exact h.run j b hb
        · subst hj; rw [upd_same] at hb; simp at hb
        · rw [upd_ne _ hj] at hb; exact h.fin j b hb
        · subst hj; rw [upd_same] at hb; simp at hb
        · rw [upd_ne _ hj] at hb; exact h.two j b hb
        · simp only [List.mem_append, Run.effect, hd, List.mem_singleton, Event.res.injEq] at hn
          rcases hn with (hn | hn) | ⟨rfl, rfl, -⟩
          · exact h.ret n r t hn
          · simp at hn
          · exact hr'
    · rename_i x k hp
      simp only [Option.some.injEq] at hs; subst hs
      rw [hp] at hg htw
      refine ⟨base, dirty, R, h.quiet ha rfl rfl rfl htw.1 (fun _ _ => rfl) (htw.2 _) (fun m' hm' rs' => ?_)⟩
      have := h.run i a ha htw.1 m' hm' rs'
      simp only
      rw [this, hp]
      simp only [seq]
      have hx : over m' (dirty i) x = s.mem x := by
        cases hd : dirty i x with
        | some v => rw [(h.dirt i x v hd).1]; simp [over, hd]
        | none =>
          simp only [over, hd, Option.getD_none]
          rw [hm' x hg.1]
          symm
          apply h.clean
          intro j
          cases hdj : dirty j x with
          | none => rfl
          | some v =>
            obtain ⟨-, h2, c, hc, h3, -⟩ := h.dirt j x v hdj
            by_cases hj : j = i
            · subst hj; rw [hd] at hdj; simp at hdj
            · rcases hg.1 with h1 | h1
              · rw [h2] at h1; simp at h1
              · exact absurd (hl.excl hj hc ha h3) h1
      rw [hx]
    · rename_i x v k hp
      simp only [Option.some.injEq] at hs; subst hs
      rw [hp] at hg htw
      have hother : ∀ j, j ≠ i → dirty j x = none := by
        intro j hj
        cases hdj : dirty j x with
        | none => rfl
        | some v =>
          obtain ⟨-, -, c, hc, h3, -⟩ := h.dirt j x v hdj
          have := hl.excl hj hc ha h3
          rw [hg.2.1] at this; simp at this
      refine ⟨base, upd dirty i (setD (dirty i) x v), R, h.all, fun y hy => ?_, fun j y w hw => ?_, fun j b hb => ?_, fun j b hb => ?_,
        fun j b hb => ?_, h.ret⟩
      · have hne : x ≠ y := by
          rintro rfl
          have := hy i
          rw [upd_same, setD_same] at this; simp at this
        simp only
        rw [put_ne _ hne]
        apply h.clean
        intro j
        have := hy j
        by_cases hj : j = i
        · subst hj; rwa [upd_same, setD_ne _ hne] at this
        · rwa [upd_ne _ hj] at this
      · by_cases hj : j = i
        · subst hj
          rw [upd_same] at hw
          simp only
          rw [upd_same]
          by_cases hxy : x = y
          · subst hxy
            rw [setD_same] at hw
            obtain rfl := Option.some.inj hw
            exact ⟨put_same _ _ _, hg.1, _, rfl, hg.2.1, htw.1⟩
          · rw [setD_ne _ hxy] at hw
            obtain ⟨h1, h2, c, hc, h3, h4⟩ := h.dirt j y w hw
            rw [ha] at hc; obtain rfl := Option.some.inj hc
            exact ⟨by rw [put_ne _ hxy]; exact h1, h2, _, rfl, h3, h4⟩
        · rw [upd_ne _ hj] at hw
          obtain ⟨h1, h2, c, hc, h3, h4⟩ := h.dirt j y w hw
          have hxy : x ≠ y := by rintro rfl; rw [hother j hj] at hw; simp at hw
          exact ⟨by simp only; rw [put_ne _ hxy]; exact h1, h2, c, by simp only; rw [upd_ne _ hj]; exact hc, h3, h4⟩
      all_goals simp only at hb; by_cases hj : j = i
      · subst hj; rw [upd_same] at hb; obtain rfl := Option.some.inj hb
        intro _ m' hm' rs'
        have := h.run j a ha htw.1 m' hm' rs'
        simp only
        rw [this, hp, upd_same, over_setD]
        simp only [seq]
      · rw [upd_ne _ hj] at hb ⊢; exact h.run j b hb
      · subst hj; rw [upd_same] at hb; obtain rfl := Option.some.inj hb
        intro hd; simp only at hd; rw [htw.1] at hd; simp at hd
      · rw [upd_ne _ hj] at hb; exact h.fin j b hb
      · subst hj; rw [upd_same] at hb; obtain rfl := Option.some.inj hb; exact htw.2
      · rw [upd_ne _ hj] at hb; exact h.two j b hb
    · rename_i k hp
      simp only [Option.some.injEq] at hs; subst hs
      rw [hp] at htw
      refine ⟨base, dirty, R, h.quiet ha rfl rfl rfl htw.1 (fun _ _ => rfl) (htw.2 _) (fun m' hm' rs' => ?_)⟩
      have := h.run i a ha htw.1 m' hm' (s.clock :: rs')
      simp only [List.append_assoc, List.singleton_append]
      rw [this, hp]
      simp only [seq]
    · rename_i l m k hp
      split at hs
      · simp only [Option.some.injEq] at hs; subst hs
        rw [hp] at hg htw
        refine ⟨base, dirty, R, h.quiet ha rfl rfl rfl htw.1 (fun l' hl' => ?_) htw.2 (fun m' hm' rs' => ?_)⟩
        · exact upd_ne _ (by rintro rfl; exact hl' hg.1) _
        · have := h.run i a ha htw.1 m' (fun x hx => hm' x ?_) rs'
          · simp only
            rw [this, hp]
            simp only [seq]
          · rcases hx with hx | hx
            · exact .inl hx
            · refine .inr ?_
              simp only
              by_cases hxl : g x = l
              · rw [hxl, upd_same]; simp
              · rw [upd_ne _ hxl]; exact hx
      · simp at hs
    · rename_i l m k hp
      split at hs
      · simp only [Option.some.injEq] at hs; subst hs
        rw [hp] at htw
        obtain ⟨r, hr⟩ := twoPhase_done k htw
        cases hd : a.done with
        | false =>
          refine ⟨_, _, _, h.commit hl ha hd (r := r) (fun m => by rw [hp]; simp only [seq]; exact hr m) rfl ?_ (fun j hj => upd_ne _ hj _) ?_ ?_⟩
          · simp [effects_append, Run.effect, hd, effects]
          · intro b hb; simp only [upd_same] at hb; obtain rfl := Option.some.inj hb; exact ⟨rfl, rfl, htw, hr⟩
          · intro n r' t hn
            simp only [List.mem_append, Run.effect, hd] at hn
            rcases hn with hn | hn
            · exact .inl hn
            · simp at hn
        | true =>
          refine ⟨base, dirty, R, by simp [Run.effect, hd, h.all], h.clean, fun j x v hv => ?_, fun j b hb => ?_,
            fun j b hb => ?_, fun j b hb => ?_, fun n r t hn => ?_⟩
          · obtain ⟨h1, h2, c, hc, h3, h4⟩ := h.dirt j x v hv
            refine ⟨h1, h2, c, ?_, h3, h4⟩
            by_cases hj : j = i
            · subst hj; rw [ha] at hc; obtain rfl := Option.some.inj hc; rw [hd] at h4; simp at h4
            · simp only; rw [upd_ne _ hj]; exact hc
          all_goals try (simp only at hb; by_cases hj : j = i)
          · subst hj; rw [upd_same] at hb; obtain rfl := Option.some.inj hb; simp
          · rw [upd_ne _ hj] at hb; exact h.run j b hb
          · subst hj; rw [upd_same] at hb; obtain rfl := Option.some.inj hb
            intro _
            obtain ⟨r', h1, h2⟩ := h.fin j a ha hd
            rw [hp] at h2
            exact ⟨r', h1, fun m => by have := h2 m; simpa only [seq] using this⟩
          · rw [upd_ne _ hj] at hb; exact h.fin j b hb
          · subst hj; rw [upd_same] at hb; obtain rfl := Option.some.inj hb; exact htw
          · rw [upd_ne _ hj] at hb; exact h.two j b hb
          · simp only [List.mem_append, Run.effect, hd] at hn
            rcases hn with hn | hn
            · exact h.ret n r t hn
            · simp at hn
      · simp at hs

/-- Methods whose bodies are guarded and give back locks last: whatever the number of goroutines and the schedule, the results
are those of the calls made one after the other in the order of the history, and so is the memory when no call is under way. -/
theorem atomic_effects {g : ι → Nat} {imm : ι → Bool} {body : κ → Prog ι ν ρ} (hb : ∀ c, Guarded g imm (fun _ => none) (body c))
    (h2p : ∀ c, TwoPhase false (body c)) (m0 : Mem ν) (c0 : Int) (as : List (Action κ)) (s : Sys ι ν ρ κ)
    (h : exec (step body) (start m0 c0) as = some s) :
    ∃ m R, seqAll body m0 (effects s.hist) = some (m, R) ∧ (∀ n r t, Event.res n r t ∈ s.hist → (n, r) ∈ R) ∧
      ((∀ i, s.thr i = none) → s.mem = m) := by
  obtain ⟨-, base, dirty, R, inv⟩ := exec_inv (I := fun s => LockInv g imm s ∧ ∃ base dirty R, EffInv g imm body m0 s base dirty R)
    (fun _ _ _ hi hs => by
      obtain ⟨hl, base, dirty, R, hi⟩ := hi
      exact ⟨lockInv_step hb hl hs, effInv_step h2p hl hi hs⟩) as _ _
    ⟨lockInv_start g imm m0 c0, m0, _, [], effInv_start g imm body m0 c0⟩ h
  refine ⟨base, R, inv.all, inv.ret, fun hq => ?_⟩
  funext x
  apply inv.clean
  intro i
  cases hd : dirty i x with
  | none => rfl
  | some v =>
    obtain ⟨-, -, a, ha, -⟩ := inv.dirt i x v hd
    rw [hq i] at ha; simp at ha

/-! ### The order of events -/

def Event.num : Event ρ κ → Nat
  | .inv n _ _ => n
  | .eff n _ _ _ => n
  | .res n _ _ => n

def Event.time : Event ρ κ → Int
  | .inv _ _ t => t
  | .eff _ _ _ t => t
  | .res _ _ t => t

/-- What must have happened before an event: a call takes effect once, after its invocation, with clock readings taken since,
and returns once, after it took effect. -/
def Allowed (h : List (Event ρ κ)) : Event ρ κ → Prop
  | .inv n _ _ => ∀ e ∈ h, e.num ≠ n
  | .eff n c rs t => (∃ t0, .inv n c t0 ∈ h ∧ rs.Pairwise (· ≤ ·) ∧ ∀ x ∈ rs, t0 ≤ x ∧ x ≤ t) ∧ ∀ c' rs' t', .eff n c' rs' t' ∉ h
  | .res n _ _ => (∃ c rs t0, .eff n c rs t0 ∈ h) ∧ ∀ r' t', .res n r' t' ∉ h

def Orderly (h : List (Event ρ κ)) : Prop := ∀ pre e post, h = pre ++ e :: post → Allowed pre e ∧ ∀ e' ∈ pre, e'.time ≤ e.time

theorem orderly_snoc {h : List (Event ρ κ)} {e : Event ρ κ} (ho : Orderly h) (ha : Allowed h e) (ht : ∀ e' ∈ h, e'.time ≤ e.time) :
    Orderly (h ++ [e]) := by
  intro pre e1 post heq
  rcases List.eq_nil_or_concat post with rfl | ⟨post', e2, rfl⟩
  · obtain ⟨rfl, h2⟩ := List.append_inj' heq (by simp)
    simp only [List.cons.injEq, and_true] at h2
    subst h2
    exact ⟨ha, ht⟩
  · rw [List.concat_eq_append, ← List.cons_append, ← List.append_assoc] at heq
    exact ho pre e1 post' (List.append_inj' heq (by simp)).1

/-- The calls under way fit the history. -/
structure HistInv (s : Sys ι ν ρ κ) : Prop where
  ord : Orderly s.hist
  old : ∀ e ∈ s.hist, e.num < s.next ∧ e.time ≤ s.clock
  run : ∀ i a, s.thr i = some a → a.id < s.next ∧
    (∃ t0, .inv a.id a.call t0 ∈ s.hist ∧ a.readings.Pairwise (· ≤ ·) ∧ ∀ x ∈ a.readings, t0 ≤ x ∧ x ≤ s.clock) ∧
    (a.done = false → ∀ c rs t, .eff a.id c rs t ∉ s.hist) ∧ (a.done = true → ∃ c rs t, .eff a.id c rs t ∈ s.hist) ∧
    ∀ r t, .res a.id r t ∉ s.hist
  own : ∀ i j a b, s.thr i = some a → s.thr j = some b → a.id = b.id → i = j

omit [DecidableEq ι] in
theorem histInv_start (m0 : Mem ν) (c0 : Int) : HistInv (start (ρ := ρ) (κ := κ) m0 c0) :=
  ⟨by intro pre e post h; simp [start] at h, by simp [start], by simp [start], by simp [start]⟩

omit [DecidableEq ι] in
/-- A step of goroutine `i` that adds nothing to the history. -/
theorem HistInv.quiet {s s' : Sys ι ν ρ κ} (h : HistInv s) {i : Nat} {a b : Run ι ν ρ κ} (ha : s.thr i = some a)
    (ht : s'.thr = upd s.thr i (some b)) (hh : s'.hist = s.hist) (hc : s'.clock = s.clock) (hn : s'.next = s.next) (hid : b.id = a.id)
    (hcall : b.call = a.call) (hr : b.readings = a.readings ∨ b.readings = a.readings ++ [s.clock]) (hd : b.done = a.done) : HistInv s' := by
  refine ⟨by rw [hh]; exact h.ord, by rw [hh, hn, hc]; exact h.old, fun j c hj => ?_, fun j k c d hj hk he => ?_⟩
  · rw [ht] at hj
    rw [hh, hn, hc]
    by_cases hji : j = i
    · subst hji; rw [upd_same] at hj; obtain rfl := Option.some.inj hj
      obtain ⟨h1, ⟨t0, h2, h3, h4⟩, h5, h6, h7⟩ := h.run j a ha
      rw [hid, hcall, hd]
      refine ⟨h1, ⟨t0, h2, ?_⟩, h5, h6, h7⟩
      rcases hr with hr | hr <;> rw [hr]
      · exact ⟨h3, h4⟩
      · have h8 := (h.old _ h2).2
        simp only [Event.time] at h8
        refine ⟨?_, fun x hx => ?_⟩
        · rw [List.pairwise_append]
          refine ⟨h3, by simp, fun x hx y hy => ?_⟩
          simp only [List.mem_singleton] at hy
          subst hy
          exact (h4 x hx).2
        · rw [List.mem_append, List.mem_singleton] at hx
          rcases hx with hx | rfl
          · exact h4 x hx
          · exact ⟨h8, Int.le_refl _⟩
    · rw [upd_ne _ hji] at hj; exact h.run j c hj
  · rw [ht] at hj hk
    have key : ∀ j c, upd s.thr i (some b) j = some c → ∃ c', s.thr j = some c' ∧ c'.id = c.id := by
      intro j c hj
      by_cases hji : j = i
      · subst hji; rw [upd_same] at hj; obtain rfl := Option.some.inj hj; exact ⟨a, ha, hid.symm⟩
      · rw [upd_ne _ hji] at hj; exact ⟨c, hj, rfl⟩
    obtain ⟨c', hc', e1⟩ := key j c hj
    obtain ⟨d', hd', e2⟩ := key k d hk
    exact h.own j k c' d' hc' hd' (by rw [e1, e2, he])

omit [DecidableEq ι] in
/-- The history after the effect of `a`. -/
theorem HistInv.effect {s : Sys ι ν ρ κ} (h : HistInv s) {i : Nat} {a : Run ι ν ρ κ} (ha : s.thr i = some a) :
    Orderly (s.hist ++ a.effect s.clock) ∧ (∃ c rs t, .eff a.id c rs t ∈ s.hist ++ a.effect s.clock) ∧
    (∀ e ∈ a.effect s.clock, ∃ c rs t, e = .eff a.id c rs t ∧ t = s.clock) := by
  obtain ⟨h1, h2, h3, h4, -⟩ := h.run i a ha
  cases hd : a.done with
  | true =>
    simp only [Run.effect, hd, if_true, List.append_nil]
    exact ⟨h.ord, h4 hd, by simp⟩
  | false =>
    simp only [Run.effect, hd, Bool.false_eq_true, if_false]
    refine ⟨orderly_snoc h.ord ⟨h2, h3 hd⟩ (fun e he => (h.old e he).2), ⟨a.call, a.readings, s.clock, by simp⟩, ?_⟩
    simp

theorem histInv_step {body : κ → Prog ι ν ρ} {s s' : Sys ι ν ρ κ} {act : Action κ} (h : HistInv s) (hs : step body s act = some s') :
    HistInv s' := by
  cases act with
  | tick d =>
    simp only [step, Option.some.injEq] at hs; subst hs
    refine ⟨h.ord, fun e he => ⟨(h.old e he).1, by have := (h.old e he).2; simp only; omega⟩, fun i a ha => ?_, h.own⟩
    obtain ⟨h1, ⟨t0, h2, h3, h4⟩, h5⟩ := h.run i a ha
    exact ⟨h1, ⟨t0, h2, h3, fun x hx => ⟨(h4 x hx).1, by have := (h4 x hx).2; simp only; omega⟩⟩, h5⟩
  | call i c =>
    simp only [step] at hs
    split at hs
    · simp at hs
    simp only [Option.some.injEq] at hs; subst hs
    have hnew : ∀ e ∈ s.hist, e.num ≠ s.next := fun e he => by have := (h.old e he).1; omega
    refine ⟨orderly_snoc h.ord hnew (fun e he => (h.old e he).2), fun e he => ?_, fun j b hj => ?_, fun j k b b' hj hk he => ?_⟩
    · simp only [List.mem_append, List.mem_singleton] at he
      rcases he with he | rfl
      · have := h.old e he; simp only; omega
      · simp only [Event.num, Event.time]; omega
    · simp only at hj ⊢
      by_cases hji : j = i
      · subst hji; rw [upd_same] at hj; obtain rfl := Option.some.inj hj
        refine ⟨by simp, ⟨s.clock, by simp, by simp, by simp⟩, ?_, by simp, ?_⟩
        · intro _ c rs t hm
          simp only [List.mem_append, List.mem_singleton, reduceCtorEq, or_false] at hm
          exact hnew _ hm rfl
        · intro r t hm
          simp only [List.mem_append, List.mem_singleton, reduceCtorEq, or_false] at hm
          exact hnew _ hm rfl
      · rw [upd_ne _ hji] at hj
        obtain ⟨h1, ⟨t0, h2, h3⟩, h5, h6, h7⟩ := h.run j b hj
        refine ⟨by omega, ⟨t0, by simp [h2], h3⟩, fun hd c rs t hm => ?_, fun hd => ?_, fun r t hm => ?_⟩
        · simp only [List.mem_append, List.mem_singleton, reduceCtorEq, or_false] at hm
          exact h5 hd c rs t hm
        · obtain ⟨c, rs, t, hm⟩ := h6 hd
          exact ⟨c, rs, t, by simp [hm]⟩
        · simp only [List.mem_append, List.mem_singleton, reduceCtorEq, or_false] at hm
          exact h7 r t hm
    · simp only at hj hk
      by_cases hji : j = i <;> by_cases hki : k = i
      · rw [hji, hki]
      · subst hji; rw [upd_same] at hj; obtain rfl := Option.some.inj hj
        rw [upd_ne _ hki] at hk
        have := (h.run k b' hk).1
        simp only at he; omega
      · subst hki; rw [upd_same] at hk; obtain rfl := Option.some.inj hk
        rw [upd_ne _ hji] at hj
        have := (h.run j b hj).1
        simp only at he; omega
      · rw [upd_ne _ hji] at hj; rw [upd_ne _ hki] at hk
        exact h.own j k b b' hj hk he
  | step i =>
    simp only [step] at hs
    split at hs
    · simp at hs
    rename_i a ha
    have heff := h.effect ha
    have hother : ∀ j b, j ≠ i → s.thr j = some b → b.id ≠ a.id := fun j b hj hb he => hj (h.own j i b a hb ha he)
    split at hs
    · rename_i r hp
      simp only [Option.some.injEq] at hs; subst hs
      obtain ⟨h1, h2, h3⟩ := heff
      obtain ⟨g1, g2, g3, g4, g5⟩ := h.run i a ha
      have hold : ∀ e ∈ s.hist ++ a.effect s.clock, e.num < s.next ∧ e.time ≤ s.clock := by
        intro e he
        rw [List.mem_append] at he
        rcases he with he | he
        · exact h.old e he
        · obtain ⟨c, rs, t, rfl, rfl⟩ := h3 e he
          exact ⟨g1, Int.le_refl _⟩
      refine ⟨orderly_snoc h1 ⟨h2, fun r' t' hm => ?_⟩ (fun e he => (hold e he).2), fun e he => ?_, fun j b hj => ?_,
        fun j k b b' hj hk he => ?_⟩
      · rw [List.mem_append] at hm
        rcases hm with hm | hm
        · exact g5 r' t' hm
        · obtain ⟨c, rs, t, he, -⟩ := h3 _ hm
          simp at he
      · rw [List.mem_append, List.mem_singleton] at he
        rcases he with he | rfl
        · exact hold e he
        · exact ⟨g1, Int.le_refl _⟩
      · simp only at hj ⊢
        by_cases hji : j = i
        · subst hji; rw [upd_same] at hj; simp at hj
        rw [upd_ne _ hji] at hj
        have hne := hother j b hji hj
        obtain ⟨k1, ⟨t0, k2, k3⟩, k5, k6, k7⟩ := h.run j b hj
        refine ⟨k1, ⟨t0, by simp [k2], k3⟩, fun hd c rs t hm => ?_, fun hd => ?_, fun r t hm => ?_⟩
        · simp only [List.mem_append, List.mem_singleton, reduceCtorEq, or_false] at hm
          rcases hm with hm | hm
          · exact k5 hd c rs t hm
          · obtain ⟨c', rs', t', he, -⟩ := h3 _ hm
            simp only [Event.eff.injEq] at he
            exact hne he.1
        · obtain ⟨c, rs, t, hm⟩ := k6 hd
          exact ⟨c, rs, t, by simp [hm]⟩
        · simp only [List.mem_append, List.mem_singleton, Event.res.injEq] at hm
          rcases hm with (hm | hm) | hm
          · exact k7 r t hm
          · obtain ⟨c', rs', t', he, -⟩ := h3 _ hm
            simp at he
          · exact hne hm.1
      · simp only at hj hk
        by_cases hji : j = i
        · subst hji; rw [upd_same] at hj; simp at hj
        by_cases hki : k = i
        · subst hki; rw [upd_same] at hk; simp at hk
        rw [upd_ne _ hji] at hj; rw [upd_ne _ hki] at hk
        exact h.own j k b b' hj hk he
    · simp only [Option.some.injEq] at hs; subst hs
      exact h.quiet ha rfl rfl rfl rfl rfl rfl (.inl rfl) rfl
    · simp only [Option.some.injEq] at hs; subst hs
      exact h.quiet ha rfl rfl rfl rfl rfl rfl (.inl rfl) rfl
    · simp only [Option.some.injEq] at hs; subst hs
      exact h.quiet ha rfl rfl rfl rfl rfl rfl (.inr rfl) rfl
    · split at hs
      · simp only [Option.some.injEq] at hs; subst hs
        exact h.quiet ha rfl rfl rfl rfl rfl rfl (.inl rfl) rfl
      · simp at hs
    · rename_i l m k' hp
      split at hs
      · simp only [Option.some.injEq] at hs; subst hs
        obtain ⟨h1, h2, h3⟩ := heff
        obtain ⟨g1, ⟨t0, g2, g2'⟩, g3, g4, g5⟩ := h.run i a ha
        refine ⟨h1, fun e he => ?_, fun j b hj => ?_, fun j k b b' hj hk he => ?_⟩
        · simp only at he
          rw [List.mem_append] at he
          rcases he with he | he
          · exact h.old e he
          · obtain ⟨c, rs, t, rfl, rfl⟩ := h3 e he
            exact ⟨g1, Int.le_refl _⟩
        · simp only at hj ⊢
          by_cases hji : j = i
          · subst hji; rw [upd_same] at hj; obtain rfl := Option.some.inj hj
            refine ⟨g1, ⟨t0, by simp [g2], g2'⟩, by simp, fun _ => h2, fun r t hm => ?_⟩
            rw [List.mem_append] at hm
            rcases hm with hm | hm
            · exact g5 r t hm
            · obtain ⟨c, rs, t, he, -⟩ := h3 _ hm
              simp at he
          · rw [upd_ne _ hji] at hj
            have hne := hother j b hji hj
            obtain ⟨k1, ⟨t0, k2, k3⟩, k5, k6, k7⟩ := h.run j b hj
            refine ⟨k1, ⟨t0, by simp [k2], k3⟩, fun hd c rs t hm => ?_, fun hd => ?_, fun r t hm => ?_⟩
            · rw [List.mem_append] at hm
              rcases hm with hm | hm
              · exact k5 hd c rs t hm
              · obtain ⟨c', rs', t', he, -⟩ := h3 _ hm
                simp only [Event.eff.injEq] at he
                exact hne he.1
            · obtain ⟨c, rs, t, hm⟩ := k6 hd
              exact ⟨c, rs, t, by simp [hm]⟩
            · rw [List.mem_append] at hm
              rcases hm with hm | hm
              · exact k7 r t hm
              · obtain ⟨c', rs', t', he, -⟩ := h3 _ hm
                simp at he
        · simp only at hj hk
          have key : ∀ j c, upd s.thr i (some ({ a with prog := k', held := upd a.held l none, done := true } : Run ι ν ρ κ)) j = some c →
              ∃ c', s.thr j = some c' ∧ c'.id = c.id := by
            intro j c hj
            by_cases hji : j = i
            · subst hji; rw [upd_same] at hj; obtain rfl := Option.some.inj hj; exact ⟨a, ha, rfl⟩
            · rw [upd_ne _ hji] at hj; exact ⟨c, hj, rfl⟩
          obtain ⟨c', hc', e1⟩ := key j b hj
          obtain ⟨d', hd', e2⟩ := key k b' hk
          exact h.own j k c' d' hc' hd' (by rw [e1, e2, he])
      · simp at hs

/-- Every call takes effect once, between its invocation and its return. -/
theorem order_of_events {body : κ → Prog ι ν ρ} (m0 : Mem ν) (c0 : Int) (as : List (Action κ)) (s : Sys ι ν ρ κ)
    (h : exec (step body) (start m0 c0) as = some s) : Orderly s.hist :=
  (exec_inv (I := HistInv) (fun _ _ _ hi hs => histInv_step hi hs) as _ _ (histInv_start m0 c0) h).ord

/-! ### Reference implementations -/

/-- Calls of a reference implementation one after the other; `ref c rs s` is a call with the clock readings `rs`. -/
def refAll {σ : Type} (ref : κ → List Int → σ → Option (σ × ρ)) (s : σ) : List (Nat × κ × List Int) → Option (σ × List (Nat × ρ))
  | [] => some (s, [])
  | (n, c, rs) :: L =>
    match ref c rs s with
    | none => none
    | some (s1, r) =>
      match refAll ref s1 L with
      | none => none
      | some (s2, R) => some (s2, (n, r) :: R)

/-- The bodies, each run by itself, do what the reference does. -/
def Refines {σ : Type} (body : κ → Prog ι ν ρ) (ref : κ → List Int → σ → Option (σ × ρ)) (memOf : σ → Mem ν) : Prop :=
  ∀ c rs s, seq (body c) rs (memOf s) = (ref c rs s).map (fun x => (memOf x.1, x.2))

theorem seqAll_ref {σ : Type} {body : κ → Prog ι ν ρ} {ref : κ → List Int → σ → Option (σ × ρ)} {memOf : σ → Mem ν}
    (h : Refines body ref memOf) : ∀ (L : List (Nat × κ × List Int)) (s : σ),
    seqAll body (memOf s) L = (refAll ref s L).map (fun x => (memOf x.1, x.2))
  | [], s => rfl
  | (n, c, rs) :: L, s => by
    simp only [seqAll, refAll, h c rs s]
    cases ref c rs s with
    | none => rfl
    | some x =>
      simp only [Option.map_some, seqAll_ref h L x.1]
      cases refAll ref x.1 L <;> rfl

theorem refAll_ids {σ : Type} {ref : κ → List Int → σ → Option (σ × ρ)} : ∀ (L : List (Nat × κ × List Int)) {s s' : σ} {R : List (Nat × ρ)},
    refAll ref s L = some (s', R) → R.map (·.1) = L.map (·.1)
  | [], s, s', R, h => by
    simp only [refAll, Option.some.injEq, Prod.mk.injEq] at h
    rw [← h.2]; rfl
  | (n, c, rs) :: L, s, s', R, h => by
    simp only [refAll] at h
    split at h
    · simp at h
    split at h
    · simp at h
    rename_i h1
    simp only [Option.some.injEq, Prod.mk.injEq] at h
    rw [← h.2, List.map_cons, List.map_cons, refAll_ids L h1]

theorem mem_effects {n : Nat} {c : κ} {rs : List Int} {t : Int} : ∀ {h : List (Event ρ κ)}, .eff n c rs t ∈ h → (n, c, rs) ∈ effects h
  | [], hm => by simp at hm
  | e :: h, hm => by
    rw [List.mem_cons] at hm
    rcases hm with rfl | hm
    · simp [effects]
    · have := mem_effects hm
      cases e <;> simp [effects, this]

theorem effects_mem {n : Nat} {c : κ} {rs : List Int} : ∀ {h : List (Event ρ κ)}, (n, c, rs) ∈ effects h → ∃ t, .eff n c rs t ∈ h
  | [], hm => by simp [effects] at hm
  | .inv _ _ _ :: h, hm => by obtain ⟨t, ht⟩ := effects_mem (h := h) (by simpa [effects] using hm); exact ⟨t, by simp [ht]⟩
  | .res _ _ _ :: h, hm => by obtain ⟨t, ht⟩ := effects_mem (h := h) (by simpa [effects] using hm); exact ⟨t, by simp [ht]⟩
  | .eff n' c' rs' t' :: h, hm => by
    simp only [effects, List.mem_cons, Prod.mk.injEq] at hm
    rcases hm with ⟨rfl, rfl, rfl⟩ | hm
    · exact ⟨t', by simp⟩
    · obtain ⟨t, ht⟩ := effects_mem hm; exact ⟨t, by simp [ht]⟩

theorem Orderly.prefix {h h' : List (Event ρ κ)} (ho : Orderly (h ++ h')) : Orderly h := by
  rintro pre e post rfl
  exact ho pre e (post ++ h') (by simp)

/-- A call takes effect once. -/
theorem Orderly.nodup {h : List (Event ρ κ)} (ho : Orderly h) : ((effects h).map (·.1)).Nodup := by
  suffices ∀ (k : Nat) (h : List (Event ρ κ)), h.length = k → Orderly h → ((effects h).map (·.1)).Nodup from this _ h rfl ho
  intro k
  induction k with
  | zero =>
    intro h hk _
    rw [List.length_eq_zero_iff] at hk
    subst hk; simp [effects]
  | succ k ih =>
    intro h hk ho
    rcases List.eq_nil_or_concat h with rfl | ⟨h', e, rfl⟩
    · simp at hk
    · rw [List.concat_eq_append] at hk ho ⊢
      have h1 := ih h' (by simpa using hk) ho.prefix
      have h2 := (ho h' e [] rfl).1
      rw [effects_append, List.map_append]
      cases e with
      | inv n c t => simpa [effects] using h1
      | res n r t => simpa [effects] using h1
      | eff n c rs t =>
        simp only [effects, List.map_cons, List.map_nil]
        rw [List.nodup_append]
        refine ⟨h1, by simp, ?_⟩
        intro a ha b hb
        simp only [List.mem_singleton] at hb
        subst hb
        rintro rfl
        rw [List.mem_map] at ha
        obtain ⟨⟨n', c', rs'⟩, hm, rfl⟩ := ha
        obtain ⟨t', ht'⟩ := effects_mem hm
        exact h2.2 _ _ _ ht'

/-- The result of a call is the one of the reference after the calls that took effect before. -/
theorem result_of {σ : Type} {ref : κ → List Int → σ → Option (σ × ρ)} {n : Nat} {c : κ} {rs : List Int} {r : ρ} :
    ∀ (L : List (Nat × κ × List Int)) {s s' : σ} {R : List (Nat × ρ)}, refAll ref s L = some (s', R) → (L.map (·.1)).Nodup →
    (n, c, rs) ∈ L → (n, r) ∈ R →
    ∃ L1 L2 s1 R1 s2, L = L1 ++ (n, c, rs) :: L2 ∧ refAll ref s L1 = some (s1, R1) ∧ ref c rs s1 = some (s2, r)
  | [], s, s', R, _, _, hm, _ => by simp at hm
  | (n0, c0, rs0) :: L, s, s', R, h, hnd, hm, hr => by
    have hids := refAll_ids _ h
    simp only [refAll] at h
    split at h
    · simp at h
    rename_i sa ra ha
    split at h
    · simp at h
    rename_i sb Rb hb
    simp only [Option.some.injEq, Prod.mk.injEq] at h
    obtain ⟨rfl, rfl⟩ := h
    have hidb := refAll_ids _ hb
    rw [List.map_cons, List.nodup_cons] at hnd
    rw [List.mem_cons] at hm hr
    rcases hm with hm | hm
    · simp only [Prod.mk.injEq] at hm
      obtain ⟨rfl, rfl, rfl⟩ := hm
      rcases hr with hr | hr
      · simp only [Prod.mk.injEq, true_and] at hr
        subst hr
        exact ⟨[], L, s, [], sa, rfl, rfl, ha⟩
      · exact absurd (by rw [← hidb]; exact List.mem_map_of_mem hr) hnd.1
    · rcases hr with hr | hr
      · simp only [Prod.mk.injEq] at hr
        obtain ⟨rfl, rfl⟩ := hr
        exact absurd (List.mem_map_of_mem (f := (·.1)) hm) hnd.1
      · obtain ⟨L1, L2, s1, R1, s2, rfl, h2, h3⟩ := result_of L hb hnd.2 hm hr
        exact ⟨(n0, c0, rs0) :: L1, L2, s1, (n0, ra) :: R1, s2, rfl, by simp [refAll, ha, h2], h3⟩

/-- What the theorems about a component say of every execution: no data races; every call takes effect once, between its
invocation and its return, with clock readings taken since the invocation; the results are those of the reference called in
that order, and so is the memory when no call is under way. -/
structure Linear {σ : Type} (ref : κ → List Int → σ → Option (σ × ρ)) (memOf : σ → Mem ν) (s0 : σ) (s : Sys ι ν ρ κ) : Prop where
  race : ¬ Race s
  order : Orderly s.hist
  results : ∃ st R, refAll ref s0 (effects s.hist) = some (st, R) ∧ (∀ n r t, Event.res n r t ∈ s.hist → (n, r) ∈ R) ∧
    ((∀ i, s.thr i = none) → s.mem = memOf st)

theorem linear {σ : Type} {g : ι → Nat} {imm : ι → Bool} {body : κ → Prog ι ν ρ} {ref : κ → List Int → σ → Option (σ × ρ)}
    {memOf : σ → Mem ν} (hb : ∀ c, Guarded g imm (fun _ => none) (body c)) (h2p : ∀ c, TwoPhase false (body c))
    (hr : Refines body ref memOf) (s0 : σ) (c0 : Int) (as : List (Action κ)) (s : Sys ι ν ρ κ)
    (h : exec (step body) (start (memOf s0) c0) as = some s) : Linear ref memOf s0 s := by
  refine ⟨race_free hb _ c0 as s h, order_of_events _ c0 as s h, ?_⟩
  obtain ⟨m, R, h1, h2, h3⟩ := atomic_effects hb h2p _ c0 as s h
  rw [seqAll_ref hr] at h1
  cases hx : refAll ref s0 (effects s.hist) with
  | none => rw [hx] at h1; simp at h1
  | some x =>
    rw [hx] at h1
    simp only [Option.map_some, Option.some.injEq, Prod.mk.injEq] at h1
    obtain ⟨rfl, rfl⟩ := h1
    exact ⟨x.1, x.2, rfl, h2, h3⟩

end Gears.Atomic
