import Verif.Common.Exec

/-
Goroutines that use read-write locks.  The locks are those of Go's package sync (rwmutex.go): a writer first keeps all
other writers and all new readers out, then waits until the readers are gone; unlocking lets in all the readers that
came meanwhile.  A sync.Mutex is a lock that nobody locks for reading.

The theorem: goroutines which take locks in increasing order, and which give back what they took, never block each other
for good.
-/

namespace Gears.Locks

inductive Mode where
  | R | W
deriving DecidableEq, Repr

inductive Instr where
  | lock (l : Nat)
  | unlock (l : Nat)
  | rlock (l : Nat)
  | runlock (l : Nat)
  /-- anything that returns -/
  | other
deriving DecidableEq, Repr

inductive Wait where
  /-- running -/
  | no
  /-- in Lock, after the other writers and the new readers have been kept out -/
  | writer
  /-- in RLock, parked because of a writer -/
  | reader
deriving DecidableEq, Repr

/-- A goroutine: what it still has to do (the first instruction is the one it is in), and the locks it holds. -/
structure Gor where
  rest : List Instr
  wait : Wait
  held : List (Nat × Mode)
deriving DecidableEq, Repr

structure Lock where
  /-- the goroutine that holds the lock for writing, or that keeps the readers out while it waits for the lock -/
  writer : Option Nat
  readers : List Nat
  /-- readers that came while there was a writer -/
  waiting : List Nat
deriving DecidableEq, Repr

structure State where
  lock : Nat → Lock
  gor : Nat → Gor

def set {α : Type} (f : Nat → α) (i : Nat) (x : α) : Nat → α := fun j => if j = i then x else f j

/-- What a parked reader is after it got the lock. -/
def Gor.granted (l : Nat) (g : Gor) : Gor := ⟨g.rest.tail, .no, (l, .R) :: g.held⟩

/-- The next step of goroutine `i`, if it can make one. -/
def step (s : State) (i : Nat) : Option State :=
  match (s.gor i).rest, (s.gor i).wait with
  | .other :: p, .no => some { s with gor := set s.gor i ⟨p, .no, (s.gor i).held⟩ }
  | .lock l :: p, .no =>
    if (s.lock l).writer = none then
      some { lock := set s.lock l { s.lock l with writer := some i }
             gor := set s.gor i ⟨.lock l :: p, .writer, (s.gor i).held⟩ }
    else none
  | .lock l :: p, .writer =>
    if (s.lock l).readers = [] then some { s with gor := set s.gor i ⟨p, .no, (l, .W) :: (s.gor i).held⟩ } else none
  | .unlock l :: p, .no =>
    if (s.lock l).writer = some i then
      some { lock := set s.lock l ⟨none, (s.lock l).waiting ++ (s.lock l).readers, []⟩
             gor := set (fun j => if j ∈ (s.lock l).waiting then (s.gor j).granted l else s.gor j) i
               ⟨p, .no, (s.gor i).held.erase (l, .W)⟩ }
    else none
  | .rlock l :: p, .no =>
    if (s.lock l).writer = none then
      some { lock := set s.lock l { s.lock l with readers := i :: (s.lock l).readers }
             gor := set s.gor i ⟨p, .no, (l, .R) :: (s.gor i).held⟩ }
    else
      some { lock := set s.lock l { s.lock l with waiting := i :: (s.lock l).waiting }
             gor := set s.gor i ⟨.rlock l :: p, .reader, (s.gor i).held⟩ }
  | .runlock l :: p, .no =>
    if i ∈ (s.lock l).readers then
      some { lock := set s.lock l { s.lock l with readers := (s.lock l).readers.erase i }
             gor := set s.gor i ⟨p, .no, (s.gor i).held.erase (l, .R)⟩ }
    else none
  | _, _ => none

/-- All locks free, goroutine `i` begins with `p i`. -/
def start (p : Nat → List Instr) : State := ⟨fun _ => ⟨none, [], []⟩, fun i => ⟨p i, .no, []⟩⟩

/-- A goroutine that holds `held` does well if it goes on with the program: it takes only locks that come after all
    those it holds, gives back only what it holds, and holds nothing in the end. -/
def Ordered : List (Nat × Mode) → List Instr → Prop
  | held, [] => held = []
  | held, .other :: p => Ordered held p
  | held, .lock l :: p => (∀ x ∈ held, x.1 < l) ∧ Ordered ((l, .W) :: held) p
  | held, .rlock l :: p => (∀ x ∈ held, x.1 < l) ∧ Ordered ((l, .R) :: held) p
  | held, .unlock l :: p => (l, .W) ∈ held ∧ Ordered (held.erase (l, .W)) p
  | held, .runlock l :: p => (l, .R) ∈ held ∧ Ordered (held.erase (l, .R)) p

def Desc (h : List (Nat × Mode)) : Prop := h.Pairwise (fun x y => y.1 < x.1)

structure Inv (s : State) : Prop where
  ord : ∀ i, Ordered (s.gor i).held (s.gor i).rest
  wr : ∀ i l, (s.lock l).writer = some i ↔
    (l, Mode.W) ∈ (s.gor i).held ∨ ((s.gor i).wait = .writer ∧ (s.gor i).rest.head? = some (.lock l))
  rd : ∀ i l, i ∈ (s.lock l).readers ↔ (l, Mode.R) ∈ (s.gor i).held
  wt : ∀ i l, i ∈ (s.lock l).waiting ↔ (s.gor i).wait = .reader ∧ (s.gor i).rest.head? = some (.rlock l)
  ww : ∀ i, (s.gor i).wait = .writer → ∃ l, (s.gor i).rest.head? = some (.lock l)
  wr' : ∀ i, (s.gor i).wait = .reader → ∃ l, (s.gor i).rest.head? = some (.rlock l)
  why : ∀ l, (s.lock l).waiting ≠ [] → (s.lock l).writer ≠ none
  ndr : ∀ l, (s.lock l).readers.Nodup
  ndw : ∀ l, (s.lock l).waiting.Nodup
  srt : ∀ i, Desc (s.gor i).held
  exc : ∀ i l, (l, Mode.W) ∈ (s.gor i).held → (s.lock l).readers = []

theorem inv_start {p : Nat → List Instr} (h : ∀ i, Ordered [] (p i)) : Inv (start p) := by
  constructor <;> simp [start, h, Desc]

theorem nodup_of_srt {h : List (Nat × Mode)} (hs : Desc h) : h.Nodup :=
  hs.imp (fun {a b} hab e => by subst e; omega)

/-- A lock is held once only. -/
theorem once {h : List (Nat × Mode)} (hs : Desc h) {l : Nat} {m m' : Mode}
    (h1 : (l, m) ∈ h) (h2 : (l, m') ∈ h) : m = m' := by
  induction h with
  | nil => simp at h1
  | cons a t ih =>
    rw [Desc, List.pairwise_cons] at hs
    rcases List.mem_cons.1 h1 with e1 | e1 <;> rcases List.mem_cons.1 h2 with e2 | e2
    · have := e1.trans e2.symm; simpa using this
    · have := hs.1 _ e2; rw [← e1] at this; simp at this
    · have := hs.1 _ e1; rw [← e2] at this; simp at this
    · exact ih hs.2 e1 e2

theorem srt_erase {h : List (Nat × Mode)} (hs : Desc h) (x : Nat × Mode) :
    Desc (h.erase x) := hs.sublist List.erase_sublist

theorem desc_cons {h : List (Nat × Mode)} (hs : Desc h) {l : Nat} {m : Mode} (hl : ∀ x ∈ h, x.1 < l) : Desc ((l, m) :: h) :=
  List.pairwise_cons.2 ⟨hl, hs⟩

theorem inv_step {s s' : State} {i : Nat} (h : Inv s) (hs : step s i = some s') : Inv s' := by
  have ho := h.ord i
  simp only [step] at hs
  split at hs
  · rename_i p e1 e2
    simp at hs; subst hs
    rw [e1] at ho
    constructor <;> simp only [set] <;> grind [Inv, Ordered, desc_cons]
  · rename_i l p e1 e2
    split at hs
    · simp at hs; subst hs
      rw [e1] at ho
      constructor <;> simp only [set] <;> grind [Inv, Ordered, desc_cons]
    · simp at hs
  · rename_i l p e1 e2
    split at hs
    · simp at hs; subst hs
      rw [e1] at ho
      constructor <;> simp only [set] <;> grind [Inv, Ordered, desc_cons]
    · simp at hs
  · rename_i l p e1 e2
    split at hs
    · simp at hs; subst hs
      rw [e1] at ho
      have := nodup_of_srt (h.srt i)
      have := srt_erase (h.srt i) (l, .W)
      have hg : ∀ j, j ∈ (s.lock l).waiting → Ordered ((l, .R) :: (s.gor j).held) (s.gor j).rest.tail ∧
          Desc ((l, .R) :: (s.gor j).held) := by
        intro j hj
        have h1 := h.ord j
        have h2 := ((h.wt j l).1 hj).2
        match h3 : (s.gor j).rest with
        | [] => simp [h3] at h2
        | a :: q =>
          simp [h3] at h2; subst h2
          rw [h3] at h1
          exact ⟨h1.2, desc_cons (h.srt j) h1.1⟩
      constructor <;> simp only [set] <;> grind [Inv, Ordered, desc_cons, Gor.granted]
    · simp at hs
  · rename_i l p e1 e2
    split at hs
    · simp at hs; subst hs
      rw [e1] at ho
      constructor <;> simp only [set] <;> grind [Inv, Ordered, desc_cons]
    · simp at hs; subst hs
      rw [e1] at ho
      constructor <;> simp only [set] <;> grind [Inv, Ordered, desc_cons]
  · rename_i l p e1 e2
    split at hs
    · simp at hs; subst hs
      rw [e1] at ho
      have := nodup_of_srt (h.srt i)
      have := srt_erase (h.srt i) (l, .R)
      constructor <;> simp only [set] <;> grind [Inv, Ordered, desc_cons]
    · simp at hs
  · simp at hs

/-! ### Progress -/

def Done (s : State) (n : Nat) : Prop := ∀ i, i < n → (s.gor i).rest = []

/-- The lock that a goroutine waits for. -/
def Blocked (s : State) (i l : Nat) : Prop :=
  ((s.gor i).rest.head? = some (.lock l) ∧ (s.gor i).wait = .no ∧ (s.lock l).writer ≠ none) ∨
  ((s.gor i).rest.head? = some (.lock l) ∧ (s.gor i).wait = .writer ∧ (s.lock l).readers ≠ []) ∨
  ((s.gor i).rest.head? = some (.rlock l) ∧ (s.gor i).wait = .reader)

theorem blocked {s : State} (h : Inv s) {i : Nat} (hi : (s.gor i).rest ≠ []) (hn : step s i = none) : ∃ l, Blocked s i l := by
  have ho := h.ord i
  match e1 : (s.gor i).rest with
  | [] => exact absurd e1 hi
  | a :: p =>
    rw [e1] at ho
    match e2 : (s.gor i).wait, a with
    | .no, .other => simp [step, e1, e2] at hn
    | .no, .lock l => exact ⟨l, .inl ⟨by simp [e1], e2, by simpa [step, e1, e2] using hn⟩⟩
    | .no, .unlock l =>
      have := (h.wr i l).2 (.inl ho.1)
      simp [step, e1, e2, this] at hn
    | .no, .rlock l =>
      simp only [step, e1, e2] at hn
      split at hn <;> simp at hn
    | .no, .runlock l =>
      have := (h.rd i l).2 ho.1
      simp [step, e1, e2, this] at hn
    | .writer, a =>
      obtain ⟨l, hl⟩ := h.ww i e2
      simp [e1] at hl; subst hl
      exact ⟨l, .inr (.inl ⟨by simp [e1], e2, by simpa [step, e1, e2] using hn⟩)⟩
    | .reader, a =>
      obtain ⟨l, hl⟩ := h.wr' i e2
      exact ⟨l, .inr (.inr ⟨hl, e2⟩)⟩

/-- A goroutine waits only for locks that come after those it holds. -/
theorem blocked_above {s : State} (h : Inv s) {i l l' : Nat} {m : Mode} (hb : Blocked s i l') (hh : (l, m) ∈ (s.gor i).held) :
    l < l' := by
  have ho := h.ord i
  match e1 : (s.gor i).rest with
  | [] => simp [Blocked, e1] at hb
  | a :: p =>
    rw [e1] at ho
    rcases hb with ⟨h1, _⟩ | ⟨h1, _⟩ | ⟨h1, _⟩ <;>
    · simp [e1] at h1; subst h1
      exact ho.1 _ hh

theorem not_done_of_held {s : State} (h : Inv s) {i l : Nat} {m : Mode} (hh : (l, m) ∈ (s.gor i).held) : (s.gor i).rest ≠ [] := by
  intro e
  have ho := h.ord i
  rw [e] at ho
  simp only [Ordered] at ho
  rw [ho] at hh; simp at hh

/-- Who waits, waits for a goroutine which holds the lock. -/
theorem blocker {s : State} (h : Inv s) {i l : Nat} (hi : ∀ i, (s.gor i).rest ≠ [] → step s i = none) (hb : Blocked s i l) :
    ∃ j m, (l, m) ∈ (s.gor j).held := by
  have rdr : (s.lock l).readers ≠ [] → ∃ j m, (l, m) ∈ (s.gor j).held := by
    intro hr
    obtain ⟨j, hj⟩ := List.exists_mem_of_ne_nil _ hr
    exact ⟨j, .R, (h.rd j l).1 hj⟩
  have wrt : (s.lock l).writer ≠ none → ∃ j m, (l, m) ∈ (s.gor j).held := by
    intro hw
    obtain ⟨w, hw⟩ := Option.ne_none_iff_exists'.1 hw
    rcases (h.wr w l).1 hw with h1 | ⟨h1, h2⟩
    · exact ⟨w, .W, h1⟩
    · by_cases hr : (s.lock l).readers = []
      · exfalso
        have := hi w (by intro e; simp [e] at h2)
        match e1 : (s.gor w).rest with
        | [] => simp [e1] at h2
        | a :: p =>
          simp [e1] at h2; subst h2
          simp [step, e1, h1, hr] at this
      · exact rdr hr
  rcases hb with ⟨_, _, h3⟩ | ⟨_, _, h3⟩ | ⟨h1, h2⟩
  · exact wrt h3
  · exact rdr h3
  · have := (h.wt i l).2 ⟨h2, h1⟩
    exact wrt (h.why l (List.ne_nil_of_mem this))

/-- The highest lock somebody waits for. -/
theorem exists_max (P : Nat → Nat → Prop) (n : Nat) (hf : ∀ i < n, ∀ l l', P i l → P i l' → l = l') (h : ∃ i l, i < n ∧ P i l) :
    ∃ i l, i < n ∧ P i l ∧ ∀ i' l', i' < n → P i' l' → l' ≤ l := by
  induction n with
  | zero => obtain ⟨i, l, h, _⟩ := h; omega
  | succ n ih =>
    by_cases hx : ∃ i l, i < n ∧ P i l
    · obtain ⟨i, l, h1, h2, h3⟩ := ih (fun i hi => hf i (by omega)) hx
      by_cases hy : ∃ l', P n l' ∧ l < l'
      · obtain ⟨l', h4, h5⟩ := hy
        refine ⟨n, l', by omega, h4, fun i' l'' hi' hp => ?_⟩
        by_cases e : i' = n
        · subst e; exact Nat.le_of_eq (hf _ (by omega) _ _ hp h4)
        · have := h3 i' l'' (by omega) hp; omega
      · refine ⟨i, l, by omega, h2, fun i' l'' hi' hp => ?_⟩
        by_cases e : i' = n
        · subst e
          by_cases h6 : l < l''
          · exact absurd ⟨l'', hp, h6⟩ hy
          · omega
        · exact h3 i' l'' (by omega) hp
    · obtain ⟨i, l, h1, h2⟩ := h
      have e : i = n := by
        by_cases e : i = n
        · exact e
        · exact absurd ⟨i, l, by omega, h2⟩ hx
      subst e
      refine ⟨i, l, by omega, h2, fun i' l'' hi' hp => ?_⟩
      by_cases e : i' = i
      · subst e; exact Nat.le_of_eq (hf _ (by omega) _ _ hp h2)
      · exact absurd ⟨i', l'', by omega, hp⟩ hx

theorem progress {s : State} (h : Inv s) {n : Nat} (hout : ∀ i, n ≤ i → (s.gor i).rest = []) :
    Done s n ∨ ∃ i, i < n ∧ (step s i).isSome := by
  by_cases hd : Done s n
  · exact .inl hd
  · refine .inr ?_
    by_cases hc : ∃ i, i < n ∧ (step s i).isSome
    · exact hc
    · exfalso
      have hno : ∀ i, (s.gor i).rest ≠ [] → step s i = none := by
        intro i hi
        by_cases hin : i < n
        · cases hsi : step s i with
          | none => rfl
          | some s' => exact absurd ⟨i, hin, by simp [hsi]⟩ hc
        · exact absurd (hout i (by omega)) hi
      have hx : ∃ i, i < n ∧ (s.gor i).rest ≠ [] := by
        by_cases hx : ∃ i, i < n ∧ (s.gor i).rest ≠ []
        · exact hx
        · exfalso; apply hd
          intro i hi
          by_cases e : (s.gor i).rest = []
          · exact e
          · exact absurd ⟨i, hi, e⟩ hx
      obtain ⟨i0, hi0, hr0⟩ := hx
      obtain ⟨l0, hb0⟩ := blocked h hr0 (hno _ hr0)
      obtain ⟨i, l, hi, hb, hmax⟩ := exists_max (Blocked s) n (by
        intro i _ l l' h1 h2
        rcases h1 with ⟨a, b, _⟩ | ⟨a, b, _⟩ | ⟨a, b⟩ <;> rcases h2 with ⟨a', b', _⟩ | ⟨a', b', _⟩ | ⟨a', b'⟩ <;>
          rw [a] at a' <;> simp_all) ⟨i0, l0, hi0, hb0⟩
      obtain ⟨j, m, hj⟩ := blocker h hno hb
      have hrj := not_done_of_held h hj
      obtain ⟨l', hb'⟩ := blocked h hrj (hno _ hrj)
      have h1 := blocked_above h hb' hj
      have hjn : j < n := by
        by_cases e : j < n
        · exact e
        · exact absurd (hout j (by omega)) hrj
      have h2 := hmax j l' hjn hb'
      omega

/-! ### Termination -/

def Gor.todo (g : Gor) : Nat := 2 * g.rest.length - (if g.wait = .no then 0 else 1)

def todo (s : State) : Nat → Nat
  | 0 => 0
  | n + 1 => todo s n + (s.gor n).todo

theorem todo_le {s s' : State} {n : Nat} (h : ∀ i, i < n → (s'.gor i).todo ≤ (s.gor i).todo) : todo s' n ≤ todo s n := by
  induction n with
  | zero => simp [todo]
  | succ n ih => have := ih (fun i hi => h i (by omega)); have := h n (by omega); simp only [todo]; omega

theorem todo_lt {s s' : State} {n i : Nat} (hi : i < n) (h : ∀ i, (s'.gor i).todo ≤ (s.gor i).todo) (hl : (s'.gor i).todo < (s.gor i).todo) :
    todo s' n < todo s n := by
  induction n with
  | zero => omega
  | succ n ih =>
    simp only [todo]
    by_cases e : i = n
    · subst e; have := todo_le (n := i) (fun j _ => h j); omega
    · have := ih (by omega); have := h n; omega

theorem todo_step {s s' : State} {i : Nat} (h : Inv s) (hs : step s i = some s') :
    (∀ j, (s'.gor j).todo ≤ (s.gor j).todo) ∧ (s'.gor i).todo < (s.gor i).todo ∧
    ∀ j, (s.gor j).rest = [] → (s'.gor j).rest = [] := by
  simp only [step] at hs
  split at hs
  · rename_i p e1 e2
    simp at hs; subst hs
    simp only [set, Gor.todo]
    refine ⟨fun j => ?_, ?_, ?_⟩ <;> grind
  · rename_i l p e1 e2
    split at hs
    · simp at hs; subst hs
      simp only [set, Gor.todo]
      refine ⟨fun j => ?_, ?_, ?_⟩ <;> grind
    · simp at hs
  · rename_i l p e1 e2
    split at hs
    · simp at hs; subst hs
      simp only [set, Gor.todo]
      refine ⟨fun j => ?_, ?_, ?_⟩ <;> grind
    · simp at hs
  · rename_i l p e1 e2
    split at hs
    · simp at hs; subst hs
      have hw := fun j => h.wt j l
      simp only [set, Gor.todo, Gor.granted]
      refine ⟨fun j => ?_, ?_, ?_⟩ <;> grind
    · simp at hs
  · rename_i l p e1 e2
    split at hs
    · simp at hs; subst hs
      simp only [set, Gor.todo]
      refine ⟨fun j => ?_, ?_, ?_⟩ <;> grind
    · simp at hs; subst hs
      simp only [set, Gor.todo]
      refine ⟨fun j => ?_, ?_, ?_⟩ <;> grind
  · rename_i l p e1 e2
    split at hs
    · simp at hs; subst hs
      simp only [set, Gor.todo]
      refine ⟨fun j => ?_, ?_, ?_⟩ <;> grind
    · simp at hs
  · simp at hs

theorem run {n : Nat} : ∀ {sched : List Nat} {s s' : State}, Inv s → (∀ i, n ≤ i → (s.gor i).rest = []) →
    exec step s sched = some s' →
    Inv s' ∧ (∀ i, n ≤ i → (s'.gor i).rest = []) ∧ sched.length + todo s' n ≤ todo s n := by
  intro sched
  induction sched with
  | nil => intro s s' h ho hs; simp [exec] at hs; subst hs; exact ⟨h, ho, by simp⟩
  | cons i t ih =>
    intro s s' h ho hs
    simp only [exec] at hs
    split at hs
    · rename_i s1 h1
      obtain ⟨h2, h3, h4⟩ := todo_step h h1
      obtain ⟨h5, h6, h7⟩ := ih (inv_step h h1) (fun j hj => h4 j (ho j hj)) hs
      refine ⟨h5, h6, ?_⟩
      have hi : i < n := by
        by_cases e : i < n
        · exact e
        · have e := ho i (by omega)
          simp [step, e] at h1
      have := todo_lt hi h2 h3
      simp only [List.length_cons]; omega
    · simp at hs

/-- The number of instructions of the goroutines `0 … n-1`. -/
def size (p : Nat → List Instr) : Nat → Nat
  | 0 => 0
  | n + 1 => size p n + (p n).length

theorem todo_start (p : Nat → List Instr) (n : Nat) : todo (start p) n = 2 * size p n := by
  induction n with
  | zero => rfl
  | succ n ih => simp only [todo, size, ih]; simp [start, Gor.todo]; omega

/-- Goroutines that take locks in increasing order: at any time all are done, or one of them can go on; and they cannot go
    on for ever. -/
theorem no_deadlock {p : Nat → List Instr} {n : Nat} (hp : ∀ i, Ordered [] (p i)) (hout : ∀ i, n ≤ i → p i = [])
    {sched : List Nat} {s : State} (h : exec step (start p) sched = some s) :
    (Done s n ∨ ∃ i, i < n ∧ (step s i).isSome) ∧ sched.length ≤ 2 * size p n := by
  obtain ⟨h1, h2, h3⟩ := run (n := n) (inv_start hp) (by simpa [start] using hout) h
  rw [todo_start] at h3
  exact ⟨progress h1 h2, by omega⟩

/-- From every state, the goroutines can run to the end. -/
theorem completes {n : Nat} : ∀ {s : State}, Inv s → (∀ i, n ≤ i → (s.gor i).rest = []) →
    ∃ sched s', exec step s sched = some s' ∧ Done s' n := by
  intro s
  generalize hk : todo s n = k
  induction k using Nat.strongRecOn generalizing s with
  | _ k ih =>
    intro h ho
    rcases progress h ho with hd | ⟨i, hi, hs⟩
    · exact ⟨[], s, rfl, hd⟩
    · obtain ⟨s1, h1⟩ := Option.isSome_iff_exists.1 hs
      obtain ⟨h2, h3, h4⟩ := todo_step h h1
      obtain ⟨t, s', h5, h6⟩ := ih _ (by have := todo_lt hi h2 h3; omega) rfl (inv_step h h1) (fun j hj => h4 j (ho j hj))
      exact ⟨i :: t, s', by simp [exec, h1, h5], h6⟩

/-- Nobody else holds a lock that is held for writing. -/
theorem exclusive {p : Nat → List Instr} (hp : ∀ i, Ordered [] (p i)) {sched : List Nat} {s : State}
    (h : exec step (start p) sched = some s) {i j l : Nat} {m : Mode}
    (h1 : (l, .W) ∈ (s.gor i).held) (h2 : (l, m) ∈ (s.gor j).held) : i = j := by
  have hi : Inv s := exec_inv (fun _ _ _ a b => inv_step a b) _ _ _ (inv_start hp) h
  cases m with
  | R =>
    have := (hi.rd j l).2 h2
    rw [hi.exc i l h1] at this; simp at this
  | W =>
    have a := (hi.wr i l).2 (.inl h1)
    have b := (hi.wr j l).2 (.inl h2)
    rw [a] at b; simpa using b

/-! ### A goroutine that ends and keeps a lock -/

/-- `i` has ended and keeps the lock; `j` is about to take it, or waits for it. -/
structure Stuck (l i j : Nat) (s : State) : Prop where
  kept : (s.lock l).writer = some i
  ended : (s.gor i).rest = []
  wants : (s.gor j).rest.head? = some (.rlock l) ∨ (s.gor j).rest.head? = some (.lock l)
  wait : (s.gor j).wait ≠ .writer
  only : ∀ l', j ∈ (s.lock l').waiting → l' = l

theorem stuck_step {l i j k : Nat} {s s' : State} (h : Stuck l i j s) (hs : step s k = some s') : Stuck l i j s' := by
  obtain ⟨h1, h2, h3, h4, h5⟩ := h
  simp only [step] at hs
  split at hs
  · simp at hs; subst hs
    constructor <;> simp only [set] <;> grind
  · split at hs
    · simp at hs; subst hs
      constructor <;> simp only [set] <;> grind
    · simp at hs
  · split at hs
    · simp at hs; subst hs
      constructor <;> simp only [set] <;> grind
    · simp at hs
  · split at hs
    · simp at hs; subst hs
      constructor <;> simp only [set] <;> grind [Gor.granted]
    · simp at hs
  · split at hs
    · simp at hs; subst hs
      constructor <;> simp only [set] <;> grind
    · simp at hs; subst hs
      constructor <;> simp only [set] <;> grind
  · split at hs
    · simp at hs; subst hs
      constructor <;> simp only [set] <;> grind
    · simp at hs
  · simp at hs

end Gears.Locks
