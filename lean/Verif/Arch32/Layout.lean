import Verif.AtomicBucket.Model

/-
AtomicTokenBucket (ratelimiter/tokenbucket.go:44-55, 106-177) on machines with 32-bit and with 64-bit words.

Memory: the Go compiler puts the fields of a struct one after the other, each at the next multiple of its alignment; the
alignment of a type is at most the size of a word (cmd/compile: types.RegSize), so an int64 needs a multiple of 8 on 64-bit
machines and of 4 on 32-bit ones.  An allocated object begins at a multiple of the alignment of its type; the allocator
gives multiples of 8 to objects of this size, but a value inside another struct, an array or on the stack may begin at any
multiple of 4 on a 32-bit machine.

Instructions: "On ARM, 386, and 32-bit MIPS, it is the caller's responsibility to arrange for 64-bit alignment of 64-bit
words accessed atomically" (documentation of sync/atomic); an operation on another address panics with "unaligned 64-bit
atomic operation".  The caller may recover from the panic and go on; its call has no result.
-/

namespace Gears.Arch32

/-- The types of the fields. -/
inductive GoType where
  | int | int64 | func
deriving Repr, DecidableEq

/-- Size in bytes, `word` being that of a machine word. -/
def GoType.size (word : Nat) : GoType → Nat
  | .int => word
  | .int64 => 8
  | .func => word

def GoType.align (word : Nat) (t : GoType) : Nat := min (t.size word) word

/-- The next multiple of `a`. -/
def alignUp (x a : Nat) : Nat := (x + a - 1) / a * a

/-- Offsets of fields, the first free byte being `x`. -/
def offsets (word : Nat) : Nat → List GoType → List Nat
  | _, [] => []
  | x, t :: ts => alignUp x (t.align word) :: offsets word (alignUp x (t.align word) + t.size word) ts

/-- The fields of `AtomicTokenBucket` (tokenbucket.go:108-114): capacity, tokens, issueRatePerSecond, lastIssueTimestamp,
nowFn. -/
def fields : List GoType := [.int, .int64, .int, .int64, .func]

/-- The fields that are accessed atomically. -/
inductive Cell where
  | tokens | last
deriving Repr, DecidableEq

/-- Where a cell is, in a bucket that begins at `base`. -/
def addr (word base : Nat) : Cell → Nat
  | .tokens => base + (offsets word 0 fields).getD 1 0
  | .last => base + (offsets word 0 fields).getD 3 0

/-- An atomic operation on the cell does not panic. -/
def Ok (word base : Nat) (c : Cell) : Prop := word = 4 → addr word base c % 8 = 0

instance (word base : Nat) (c : Cell) : Decidable (Ok word base c) := by unfold Ok; infer_instance

open AtomicBucket (PC Action)

/-- The cell of the next atomic operation (125, 126, 141, 146, 161, 166, 169). -/
def cellOf : PC → Option Cell
  | .idle | .issNow _ _ => none
  | .issLoadTok | .issCas1 _ _ _ _ | .issRollback _ | .acqLoad | .acqCas _ => some .tokens
  | .issLoadLit _ | .issCas2 _ _ _ => some .last

/-- The bucket, and how many calls have panicked. -/
structure State where
  b      : AtomicBucket.State
  panics : Nat
deriving Repr, DecidableEq

def init (capacity rate t0 : Int) (n : Nat) : State := ⟨AtomicBucket.init capacity rate t0 n, 0⟩

/-- The next operation of a goroutine would panic. -/
def Bad (word base : Nat) (p : PC) : Prop := ∃ c, cellOf p = some c ∧ ¬ Ok word base c

instance (word base : Nat) (p : PC) : Decidable (Bad word base p) := by
  unfold Bad
  cases h : cellOf p with
  | none => exact isFalse (by simp)
  | some c => exact decidable_of_iff (¬ Ok word base c) (by simp)

/-- One scheduler step: a goroutine whose call panics leaves it. -/
def step (word base : Nat) (s : State) : Action → Option State
  | .run i =>
    match s.b.pcs[i]? with
    | none => none
    | some p =>
      if Bad word base p then some ⟨s.b.setPc i .idle, s.panics + 1⟩
      else (AtomicBucket.step s.b (.run i)).map (fun b => ⟨b, s.panics⟩)
  | a => (AtomicBucket.step s.b a).map (fun b => ⟨b, s.panics⟩)

/-- **C147**, the claim for the atomic bucket: on every machine and wherever the bucket is, no call panics. -/
def C147Claim : Prop :=
  ∀ (word base : Nat) (c r t0 : Int) (n : Nat) (as : List Action) (s : State), word = 4 ∨ word = 8 → base % word = 0 →
    exec (step word base) (init c r t0 n) as = some s → s.panics = 0

/-! ### Alignment -/

theorem ok64 (base : Nat) (c : Cell) : Ok 8 base c := by intro h; omega

theorem addr32 (base : Nat) : addr 4 base .tokens = base + 4 ∧ addr 4 base .last = base + 16 := by
  unfold addr
  exact ⟨rfl, rfl⟩

/-- **C147 is violated**: on a 32-bit machine, wherever the bucket is, exactly one of its two atomically accessed fields is
at an address where atomic operations panic. -/
theorem C147_alignment_violated (base : Nat) (hb : base % 4 = 0) : Ok 4 base .tokens ↔ ¬ Ok 4 base .last := by
  unfold Ok
  rw [(addr32 base).1, (addr32 base).2]
  constructor
  · intro h h'
    have := h rfl
    have := h' rfl
    omega
  · intro h _
    have : ¬ (base + 16) % 8 = 0 := fun e => h (fun _ => e)
    omega

/-- On a 64-bit machine both are where they can be accessed in one piece. -/
theorem C147_alignment64_partial (base : Nat) (hb : base % 8 = 0) (c : Cell) : addr 8 base c % 8 = 0 := by
  cases c
  · show (base + 8) % 8 = 0; omega
  · show (base + 24) % 8 = 0; omega

/-! ### Behaviour -/

theorem step64 (base : Nat) (s : State) (a : Action) : step 8 base s a = (AtomicBucket.step s.b a).map (fun b => ⟨b, s.panics⟩) := by
  cases a with
  | run i =>
    simp only [step]
    cases hp : s.b.pcs[i]? with
    | none => simp [AtomicBucket.step, hp]
    | some p =>
      have : ¬ Bad 8 base p := by rintro ⟨c, _, h⟩; exact h (ok64 base c)
      simp [this]
  | _ => rfl

/-- **C147, partial**: on a 64-bit machine the bucket behaves as in the model of C05-C07, C118 and C121, and no call panics. -/
theorem C147_atomic64_partial (base : Nat) (as : List Action) : ∀ (s : State),
    exec (step 8 base) s as = (exec AtomicBucket.step s.b as).map (fun b => ⟨b, s.panics⟩) := by
  induction as with
  | nil => intro s; rfl
  | cons a as ih =>
    intro s
    simp only [exec, step64]
    cases h : AtomicBucket.step s.b a with
    | none => simp
    | some b => simp [ih]

/-- **C147 is violated**: on a 32-bit machine no call of a bucket that was allocated by itself returns. -/
theorem C147_atomic32_violated (base : Nat) (hb : base % 8 = 0) (c r t0 : Int) (n : Nat) (as : List Action) (s : State)
    (h : exec (step 4 base) (init c r t0 n) as = some s) :
    s.b.log = [] ∧ (∀ p ∈ s.b.pcs, p = .idle ∨ p = .issLoadTok) ∧
    (∀ i p, s.b.pcs[i]? = some p → p ≠ .idle → step 4 base s (.run i) = some ⟨s.b.setPc i .idle, s.panics + 1⟩) := by
  have hbad : Bad 4 base .issLoadTok := ⟨.tokens, rfl, by
    intro h
    have := h rfl
    rw [(addr32 base).1] at this
    omega⟩
  have inv : ∀ (s : State), (s.b.log = [] ∧ ∀ p ∈ s.b.pcs, p = .idle ∨ p = .issLoadTok) → ∀ a s', step 4 base s a = some s' →
      (s'.b.log = [] ∧ ∀ p ∈ s'.b.pcs, p = .idle ∨ p = .issLoadTok) := by
    intro s ⟨h1, h2⟩ a s' hs
    cases a with
    | tick d =>
      simp only [step, AtomicBucket.step, Option.map_some, Option.some.injEq] at hs
      subst hs
      exact ⟨h1, h2⟩
    | call i =>
      simp only [step, AtomicBucket.step] at hs
      cases hp : s.b.pcs[i]? with
      | none => simp [hp] at hs
      | some p =>
        cases p <;> simp [hp] at hs
        subst hs
        refine ⟨h1, fun q hq => ?_⟩
        rcases List.mem_or_eq_of_mem_set hq with hq | rfl
        · exact h2 q hq
        · exact Or.inr rfl
    | run i =>
      simp only [step] at hs
      cases hp : s.b.pcs[i]? with
      | none => simp [hp] at hs
      | some p =>
        simp only [hp] at hs
        rcases h2 p (List.mem_of_getElem? hp) with rfl | rfl
        · have : ¬ Bad 4 base .idle := by rintro ⟨c, hc, _⟩; simp [cellOf] at hc
          simp [this, AtomicBucket.step, hp, AtomicBucket.runPc] at hs
        · rw [if_pos hbad, Option.some.injEq] at hs
          subst hs
          refine ⟨h1, fun q hq => ?_⟩
          rcases List.mem_or_eq_of_mem_set hq with hq | rfl
          · exact h2 q hq
          · exact Or.inl rfl
  have hall := exec_inv (I := fun s => s.b.log = [] ∧ ∀ p ∈ s.b.pcs, p = .idle ∨ p = .issLoadTok)
    (fun s a s' hi hs => inv s hi a s' hs) as _ _ ⟨rfl, by
      intro p hp
      simp only [init, AtomicBucket.init, List.mem_replicate] at hp
      exact Or.inl hp.2⟩ h
  refine ⟨hall.1, hall.2, ?_⟩
  intro i p hp hne
  rcases hall.2 p (List.mem_of_getElem? hp) with rfl | rfl
  · exact absurd rfl hne
  · simp only [step, hp]
    rw [if_pos hbad]

/-- A goroutine that has found the bucket full. -/
def Passed : PC → Bool
  | .acqLoad | .acqCas _ => true
  | _ => false

theorem passed_set {pcs : List PC} {i : Nat} {p : PC} (h : pcs[i]? = some p) (q : PC) :
    (pcs.set i q).countP Passed + (if Passed p then 1 else 0) = pcs.countP Passed + (if Passed q then 1 else 0) := by
  obtain ⟨hi, he⟩ := List.getElem?_eq_some_iff.1 h
  rw [List.countP_set hi, he]
  have : Passed p = true → 0 < pcs.countP Passed := fun hp => List.countP_pos_iff.2 ⟨p, List.mem_of_getElem? h, hp⟩
  split <;> split <;> (try have := this (by assumption)) <;> omega

structure Inv (c : Int) (n : Nat) (s : State) : Prop where
  cap  : s.b.capacity = c
  len  : s.b.pcs.length = n
  pcs  : ∀ p ∈ s.b.pcs, p = .idle ∨ p = .issLoadTok ∨ (∃ old, p = .issLoadLit old) ∨ p = .acqLoad ∨ (∃ old, p = .acqCas old)
  full : (s.b.tokens = c ∧ s.b.log = []) ∨ (s.b.tokens < c ∧ s.b.log.length + s.b.pcs.countP Passed ≤ n)

theorem Inv.pcs_set {c : Int} {n : Nat} {s : State} (h : Inv c n s) (i : Nat) (q : PC)
    (hq : q = .idle ∨ q = .issLoadTok ∨ (∃ old, q = .issLoadLit old) ∨ q = .acqLoad ∨ (∃ old, q = .acqCas old)) :
    ∀ p ∈ s.b.pcs.set i q, p = .idle ∨ p = .issLoadTok ∨ (∃ old, p = .issLoadLit old) ∨ p = .acqLoad ∨ (∃ old, p = .acqCas old) := by
  intro p hp
  rcases List.mem_or_eq_of_mem_set hp with hp | rfl
  · exact h.pcs p hp
  · exact hq

theorem step_inv (base : Nat) (hb : base % 8 = 4) (c : Int) (hc : 1 ≤ c) (n : Nat) (s : State) (h : Inv c n s) (a : Action) (s' : State)
    (hs : step 4 base s a = some s') : Inv c n s' := by
  have hbad : ∀ old, Bad 4 base (.issLoadLit old) := fun old => ⟨.last, rfl, by
    intro h
    have := h rfl
    rw [(addr32 base).2] at this
    omega⟩
  have hok : ∀ p, cellOf p ≠ some .last → ¬ Bad 4 base p := by
    rintro p hp ⟨x, hx, hn⟩
    cases x with
    | last => exact hp hx
    | tokens => exact hn (fun _ => by rw [(addr32 base).1]; omega)
  cases a with
  | tick d =>
    simp only [step, AtomicBucket.step, Option.map_some, Option.some.injEq] at hs
    subst hs
    exact ⟨h.cap, h.len, h.pcs, h.full⟩
  | call i =>
    simp only [step, AtomicBucket.step] at hs
    cases hp : s.b.pcs[i]? with
    | none => simp [hp] at hs
    | some p =>
      cases p <;> simp [hp] at hs
      subst hs
      refine ⟨h.cap, by simp [AtomicBucket.State.setPc, h.len], h.pcs_set i _ (by simp), ?_⟩
      have := passed_set hp .issLoadTok
      simp [Passed] at this
      simp only [AtomicBucket.State.setPc, this]
      exact h.full
  | run i =>
    simp only [step] at hs
    cases hp : s.b.pcs[i]? with
    | none => simp [hp] at hs
    | some p =>
      simp only [hp] at hs
      have hmem := h.pcs p (List.mem_of_getElem? hp)
      rcases hmem with rfl | rfl | ⟨old, rfl⟩ | rfl | ⟨old, rfl⟩
      · rw [if_neg (hok _ (by simp [cellOf]))] at hs
        simp [AtomicBucket.step, hp, AtomicBucket.runPc] at hs
      · rw [if_neg (hok _ (by simp [cellOf]))] at hs
        simp only [AtomicBucket.step, hp, AtomicBucket.runPc, h.cap] at hs
        by_cases hge : s.b.tokens ≥ c
        · simp only [hge, if_true, Option.map_some, Option.some.injEq] at hs
          subst hs
          refine ⟨h.cap, by simp [AtomicBucket.State.setPc, h.len], h.pcs_set i _ (by simp), ?_⟩
          rcases h.full with hf | hf
          · exact Or.inl hf
          · omega
        · simp only [hge, if_false, Option.map_some, Option.some.injEq] at hs
          subst hs
          refine ⟨h.cap, by simp [AtomicBucket.State.setPc, h.len], h.pcs_set i _ (by simp), ?_⟩
          have := passed_set hp (.issLoadLit s.b.tokens)
          simp [Passed] at this
          simp only [AtomicBucket.State.setPc, this]
          exact h.full
      · rw [if_pos (hbad old), Option.some.injEq] at hs
        subst hs
        refine ⟨h.cap, by simp [AtomicBucket.State.setPc, h.len], h.pcs_set i _ (by simp), ?_⟩
        have := passed_set hp .idle
        simp [Passed] at this
        simp only [AtomicBucket.State.setPc, this]
        exact h.full
      · rw [if_neg (hok _ (by simp [cellOf]))] at hs
        simp only [AtomicBucket.step, hp, AtomicBucket.runPc] at hs
        by_cases hpos : s.b.tokens > 0
        · simp only [hpos, if_true, Option.map_some, Option.some.injEq] at hs
          subst hs
          refine ⟨h.cap, by simp [AtomicBucket.State.setPc, h.len], h.pcs_set i _ (by simp), ?_⟩
          have := passed_set hp (.acqCas s.b.tokens)
          simp [Passed] at this
          simp only [AtomicBucket.State.setPc, this]
          exact h.full
        · simp only [hpos, if_false, Option.map_some, Option.some.injEq] at hs
          subst hs
          refine ⟨h.cap, by simp [AtomicBucket.State.setPc, h.len], h.pcs_set i _ (by simp), ?_⟩
          have := passed_set hp .idle
          simp [Passed] at this
          right
          rcases h.full with hf | hf
          · omega
          · simp only [AtomicBucket.State.setPc, List.length_append, List.length_singleton]
            exact ⟨hf.1, by omega⟩
      · rw [if_neg (hok _ (by simp [cellOf]))] at hs
        simp only [AtomicBucket.step, hp, AtomicBucket.runPc] at hs
        by_cases heq : s.b.tokens = old
        · simp only [heq, if_true, Option.map_some, Option.some.injEq] at hs
          subst hs
          refine ⟨h.cap, by simp [AtomicBucket.State.setPc, h.len], h.pcs_set i _ (by simp), ?_⟩
          have := passed_set hp .idle
          simp [Passed] at this
          right
          have hle : s.b.pcs.countP Passed ≤ n := h.len ▸ List.countP_le_length
          simp only [AtomicBucket.State.setPc, List.length_append, List.length_singleton]
          rcases h.full with hf | hf
          · rw [hf.2]
            exact ⟨by omega, by simp only [List.length_nil]; omega⟩
          · exact ⟨by omega, by omega⟩
        · simp only [heq, if_false, Option.map_some, Option.some.injEq] at hs
          subst hs
          refine ⟨h.cap, by simp [AtomicBucket.State.setPc, h.len], h.pcs_set i _ (by simp), ?_⟩
          have := passed_set hp .acqLoad
          simp [Passed] at this
          simp only [AtomicBucket.State.setPc, this]
          exact h.full

/-- **C147 is violated**: on a 32-bit machine, a bucket elsewhere (inside another struct, say) answers at most as many calls as
there are goroutines, and then no more: a call that finds the bucket not full panics. -/
theorem C147_embedded32_violated (base : Nat) (hb : base % 8 = 4) (c r t0 : Int) (hc : 1 ≤ c) (n : Nat) (as : List Action) (s : State)
    (h : exec (step 4 base) (init c r t0 n) as = some s) :
    s.b.log.length ≤ n ∧ (s.b.log ≠ [] → ∀ i, s.b.pcs[i]? = some .idle →
      ∃ s', exec (step 4 base) s [.call i, .run i, .run i] = some s' ∧ s'.panics = s.panics + 1 ∧ s'.b.log = s.b.log) := by
  have inv := exec_inv (I := Inv c n) (fun s a s' hi hs => step_inv base hb c hc n s hi a s' hs) as _ _
    ⟨rfl, by simp [init, AtomicBucket.init], by
      intro p hp
      simp only [init, AtomicBucket.init, List.mem_replicate] at hp
      exact Or.inl hp.2, Or.inl ⟨rfl, rfl⟩⟩ h
  refine ⟨?_, ?_⟩
  · rcases inv.full with hf | hf
    · rw [hf.2]; simp
    · omega
  · intro hne i hi
    have hlt : ¬ s.b.tokens ≥ s.b.capacity := by
      rcases inv.full with hf | hf
      · exact absurd hf.2 hne
      · rw [inv.cap]; omega
    have hbad : ∀ old, Bad 4 base (.issLoadLit old) := fun old => ⟨.last, rfl, by
      intro h
      have := h rfl
      rw [(addr32 base).2] at this
      omega⟩
    have hok : ¬ Bad 4 base .issLoadTok := by
      rintro ⟨x, hx, hn⟩
      have : x = .tokens := by simpa [cellOf] using hx.symm
      subst this
      exact hn (fun _ => by rw [(addr32 base).1]; omega)
    obtain ⟨hlen, _⟩ := List.getElem?_eq_some_iff.1 hi
    have e1 : step 4 base s (.call i) = some ⟨s.b.setPc i .issLoadTok, s.panics⟩ := by
      simp only [step, AtomicBucket.step]
      rw [hi]
      rfl
    have g1 : (s.b.setPc i .issLoadTok).pcs[i]? = some .issLoadTok := by
      simp only [AtomicBucket.State.setPc]
      exact List.getElem?_set_self hlen
    have e2 : step 4 base ⟨s.b.setPc i .issLoadTok, s.panics⟩ (.run i) =
        some ⟨(s.b.setPc i .issLoadTok).setPc i (.issLoadLit s.b.tokens), s.panics⟩ := by
      simp only [step]
      rw [g1]
      simp only [if_neg hok, AtomicBucket.step]
      rw [g1]
      simp only [AtomicBucket.runPc]
      rw [if_neg (show ¬ (s.b.setPc i .issLoadTok).tokens ≥ (s.b.setPc i .issLoadTok).capacity from hlt)]
      rfl
    have g2 : ((s.b.setPc i .issLoadTok).setPc i (.issLoadLit s.b.tokens)).pcs[i]? = some (.issLoadLit s.b.tokens) := by
      simp only [AtomicBucket.State.setPc]
      exact List.getElem?_set_self (by simpa using hlen)
    refine ⟨⟨((s.b.setPc i .issLoadTok).setPc i (.issLoadLit s.b.tokens)).setPc i .idle, s.panics + 1⟩, ?_, rfl, rfl⟩
    simp only [exec, e1, e2]
    simp only [step]
    rw [g2]
    simp only [if_pos (hbad s.b.tokens)]

/-- The claim for the atomic bucket does not hold. -/
theorem C147_atomic_claim_violated : ¬ C147Claim := by
  intro h
  have := h 4 0 1 1 0 1 [.call 0, .run 0] ⟨AtomicBucket.init 1 1 0 1, 1⟩ (Or.inl rfl) rfl (by decide)
  simp at this

-- Not vacuous: on a 64-bit machine a call returns; on a 32-bit one it panics, or the next one does.
example : (exec (step 8 8) (init 1 1 0 1) [.call 0, .run 0, .run 0, .run 0]).map (fun s => (s.b.log, s.panics)) = some ([true], 0) := by decide
example : (exec (step 4 8) (init 1 1 0 1) [.call 0, .run 0]).map (fun s => (s.b.log, s.panics)) = some ([], 1) := by decide
example : (exec (step 4 12) (init 2 1 0 1) [.call 0, .run 0, .run 0, .run 0, .call 0, .run 0, .run 0]).map (fun s => (s.b.log, s.panics)) =
    some ([true], 1) := by decide

end Gears.Arch32
