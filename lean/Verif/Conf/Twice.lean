import Verif.Conf.LoadProps

/-
C152: several calls of `conf.Load` (/repo/conf/conf.go:30-64) in one process, each with its own struct.

The flags are registered with `flag.CommandLine` (conf.go:45) and stay there; `flag.Parse` (48) and the flag resolver
(flag.go:77-81) parse all arguments of the process, with all flags registered so far.  The variables of all structs are numbered through: a
struct that is loaded when `next` variables are bound gets the numbers from `next` on.  Between the calls the program may change its variables.
-/

namespace Gears.Conf

/-- A process between two calls. -/
structure Prog where
  /-- `flag.CommandLine` -/
  flags : FlagSet
  /-- number of variables bound so far -/
  next  : Nat
  /-- the yaml flags of the calls that have returned: their variables (conf.go:34) exist, but nobody reads them -/
  yamls : List Bytes
  mem   : Mem

/-- A flag whose `Load` has returned. -/
def retire : Target → Target
  | .yamlFile => .pre false
  | t => t

def World.more (w : World) (yamls : List Bytes) : World := { w with preOk := fun n v => decide (n ∈ yamls) || w.preOk n v }

/-- `yamlFileResolver.Resolve` (yaml.go:28-40) on the struct whose variables begin with number `base` -/
def resolveYamlAt (w : World) (base : Nat) (m : Mem) : Option Mem :=
  match w.yaml m.yamlFile with
  | none => none
  | some eff => some { m with
      cells := fun i => if base ≤ i then (match eff (i - base) with | .set v => v | _ => m.cells i) else m.cells i
      over := fun i => if base ≤ i then (match eff (i - base) with | .replace v => some v | _ => none) else m.over i }

inductive ProgRes where
  | panic
  | exit
  | done (p : Prog)

/-- `Load` (conf.go:30-64) after `initStruct`, as `load`, in a process. -/
def loadNext (w : World) (p : Prog) (yamlFlag : Bytes) (bs : List Binding) (init : Nat → Int) : ProgRes :=
  let w' := w.more p.yamls
  let m0 : Mem := ⟨fun i => if p.next ≤ i then init (i - p.next) else p.mem.cells i, fun i => if p.next ≤ i then none else p.mem.over i, []⟩
  -- 36-39
  match (if yamlFlag ≠ [] then p.flags.define w.strict yamlFlag .yamlFile else some p.flags) with
  | none => .panic
  | some fs1 =>
    -- 41-42
    match defineAll w.strict (·.envName) bs p.next [] with
    | none => .panic
    | some efs =>
      -- 44-46
      match defineAll w.strict (·.flagName) bs p.next fs1 with
      | none => .panic
      | some ffs =>
        -- 48
        match parseArgs w' ffs w.args m0 with
        | none => .exit
        | some m1 =>
          -- 50-53
          match (if m1.yamlFile ≠ [] then resolveYamlAt w p.next m1 else some m1) with
          | none => .exit
          | some m2 =>
            match resolveEnv w' efs (bs.map (·.envName)) m2 with
            | none => .exit
            | some m3 =>
              match parseArgs w' ffs w.args m3 with
              | none => .exit
              | some m4 => .done ⟨ffs.map fun x => (x.1, retire x.2), p.next + bs.length, if yamlFlag ≠ [] then yamlFlag :: p.yamls else p.yamls, m4⟩

/-- The process before the first call. -/
def Prog.start (w : World) : Prog := ⟨w.pre.map fun p => (p.1, .pre p.2), 0, [], ⟨fun _ => 0, fun _ => none, []⟩⟩

/-- What the program may do between two calls: assign to its variables. -/
def Prog.with (p : Prog) (m : Mem) : Prog := { p with mem := m }

/-- Processes that have made some calls. -/
inductive Runs (w : World) : Prog → Prop
  | start : Runs w (.start w)
  | load (p p' : Prog) (yamlFlag : Bytes) (bs : List Binding) (init : Nat → Int) : Runs w p → loadNext w p yamlFlag bs init = .done p' → Runs w p'
  | assign (p : Prog) (m : Mem) : Runs w p → Runs w (p.with m)

/-! ## A later call is a call in a world with more flags -/

/-- The world as a later call sees it: the flags of earlier calls are flags defined before. -/
def World.after (w : World) (p : Prog) : World :=
  { w with
    pre := p.flags.map fun x => (x.1, x.2.isBool)
    preOk := fun n v =>
      match p.flags.lookup n with
      | some (.cell _ k) => (w.pv k v).isSome
      | some .yamlFile => true
      | some (.pre _) => decide (n ∈ p.yamls) || w.preOk n v
      | none => false }

/-- What the flags in `p` are like. -/
structure Tidy (p : Prog) : Prop where
  cells : ∀ n i k, p.flags.lookup n = some (.cell i k) → i < p.next
  yaml  : ∀ n, p.flags.lookup n ≠ some .yamlFile

theorem lookup_map (g : Target → Target) (fs : FlagSet) (n : Bytes) : FlagSet.lookup (fs.map fun x => (x.1, g x.2)) n = (fs.lookup n).map g := by
  induction fs with
  | nil => rfl
  | cons x fs ih =>
    obtain ⟨a, t⟩ := x
    simp only [FlagSet.lookup, List.map_cons, List.find?_cons] at ih ⊢
    by_cases e : a = n
    · subst e; simp
    · simp only [e, decide_false]; exact ih

/-- Flags of the call in the process and of the call in the world. -/
def shift (base : Nat) : Target → Target
  | .cell i k => if base ≤ i then .cell (i - base) k else .pre (decide (k = .bool))
  | t => t

theorem shift_isBool (base : Nat) (t : Target) : (shift base t).isBool = t.isBool := by
  cases t <;> simp only [shift] <;> try rfl
  split <;> rfl

/-- The flag sets correspond. -/
def FRel (base : Nat) (fs fs' : FlagSet) : Prop := ∀ n, fs'.lookup n = (fs.lookup n).map (shift base)

/-- The memories correspond. -/
structure MRel (base : Nat) (m m' : Mem) : Prop where
  cells : ∀ i, m'.cells i = m.cells (base + i)
  over  : ∀ i, m'.over i = m.over (base + i)
  yaml  : m'.yamlFile = m.yamlFile

theorem lookup_define {strict : Bool} {fs fs' : FlagSet} {n : Bytes} {t : Target} (h : fs.define strict n t = some fs') (x : Bytes) :
    fs'.lookup x = if x = n then some t else fs.lookup x := (define_some h).2.2 x

theorem define_rel {base : Nat} {strict : Bool} {fs fs' : FlagSet} (h : FRel base fs fs') (n : Bytes) (t : Target) :
    (fs.define strict n t = none ↔ fs'.define strict n (shift base t) = none) ∧
    ∀ g g', fs.define strict n t = some g → fs'.define strict n (shift base t) = some g' → FRel base g g' := by
  constructor
  · simp only [FlagSet.define, h n, Option.isSome_map]
    split
    · simp
    · split <;> simp
  · intro g g' hg hg' x
    rw [lookup_define hg, lookup_define hg', h x]
    split <;> rfl

theorem defineAll_rel (base : Nat) (strict : Bool) (name : Binding → Bytes) : ∀ (bs : List Binding) (i : Nat) (fs fs' : FlagSet), FRel base fs fs' →
    (defineAll strict name bs (base + i) fs = none ↔ defineAll strict name bs i fs' = none) ∧
    ∀ g g', defineAll strict name bs (base + i) fs = some g → defineAll strict name bs i fs' = some g' → FRel base g g'
  | [], i, fs, fs', h => by
    simp only [defineAll]
    refine ⟨by simp, fun g g' hg hg' => ?_⟩
    cases hg; cases hg'; exact h
  | b :: bs, i, fs, fs', h => by
    simp only [defineAll]
    split
    · simp
    · have hs : shift base (.cell (base + i) b.kind) = .cell i b.kind := by simp [shift]
      obtain ⟨h1, h2⟩ := define_rel (strict := strict) h (name b) (.cell (base + i) b.kind)
      rw [hs] at h1 h2
      rcases h3 : fs.define strict (name b) (.cell (base + i) b.kind) with _ | g
      · rw [h1.1 h3]; simp
      · rcases h4 : fs'.define strict (name b) (.cell i b.kind) with _ | g'
        · rw [h1.2 h4] at h3; cases h3
        · exact defineAll_rel base strict name bs (i + 1) g g' (h2 g g' h3 h4)

/-- The flags of `p` correspond to those of the world. -/
theorem start_rel (w : World) {p : Prog} (ht : Tidy p) : FRel p.next p.flags ((w.after p).pre.map fun x => (x.1, .pre x.2)) := by
  intro n
  have h1 : (w.after p).pre.map (fun x => (x.1, Target.pre x.2)) = p.flags.map fun x => (x.1, (fun t : Target => Target.pre t.isBool) x.2) := by
    simp [World.after]
  rw [h1]
  refine Eq.trans (lookup_map (fun t => .pre t.isBool) p.flags n) ?_
  rcases h : p.flags.lookup n with _ | t
  · rfl
  · simp only [Option.map_some, Option.some.injEq]
    cases t with
    | cell i k => simp [shift, Target.isBool, Nat.not_le.2 (ht.cells n i k h)]
    | yamlFile => exact absurd h (ht.yaml n)
    | pre b => rfl

/-- Both fail, or both succeed with memories that correspond. -/
def ORel (base : Nat) : Option Mem → Option Mem → Prop
  | none, none => True
  | some m, some m' => MRel base m m'
  | _, _ => False

/-- A flag of an earlier call is in `p`. -/
def Old (p : Prog) (n : Bytes) (t : Target) : Prop :=
  match t with
  | .cell i _ => i < p.next → p.flags.lookup n = some t
  | .pre _ => p.flags.lookup n = some t
  | .yamlFile => True

theorem setTarget_rel (w : World) (p : Prog) (n v : Bytes) (t : Target) (ho : Old p n t) {m m' : Mem} (hm : MRel p.next m m') :
    ORel p.next (setTarget (w.more p.yamls) n t v m) (setTarget (w.after p) n (shift p.next t) v m') := by
  obtain ⟨h1, h2, h3⟩ := hm
  cases t with
  | cell i k =>
    simp only [shift]
    by_cases hi : p.next ≤ i
    · rw [if_pos hi]
      simp only [setTarget, World.more, World.after]
      rcases w.pv k v with _ | x
      · trivial
      · refine ⟨fun j => ?_, h2, h3⟩
        simp only [upd]
        by_cases hj : j = i - p.next
        · rw [if_pos hj, if_pos (by omega)]
        · rw [if_neg hj, if_neg (by omega), h1]
    · rw [if_neg hi]
      have hl := ho (by omega)
      simp only [setTarget, World.more, World.after, hl]
      rcases w.pv k v with _ | x
      · simp [ORel]
      · simp only [Option.isSome_some, if_true]
        refine ⟨fun j => ?_, h2, h3⟩
        simp only [upd]
        rw [if_neg (by omega), h1]
  | yamlFile => exact ⟨h1, h2, rfl⟩
  | pre b =>
    have hl : p.flags.lookup n = some (.pre b) := ho
    have e : (w.after p).preOk n v = (w.more p.yamls).preOk n v := by simp [World.after, World.more, hl]
    simp only [shift, setTarget, e]
    split
    · exact ⟨h1, h2, h3⟩
    · trivial

theorem parseArgs_rel (w : World) (p : Prog) (fs fs' : FlagSet) (hf : FRel p.next fs fs') (ho : ∀ n t, fs.lookup n = some t → Old p n t) :
    ∀ (k : Nat) (args : List Bytes), args.length ≤ k → ∀ m m', MRel p.next m m' →
      ORel p.next (parseArgs (w.more p.yamls) fs args m) (parseArgs (w.after p) fs' args m') := by
  intro k
  induction k with
  | zero =>
    intro args hk m m' hm
    have : args = [] := by simpa using hk
    subst this
    exact hm
  | succ k ih =>
    intro args hk m m' hm
    cases args with
    | nil => exact hm
    | cons s args =>
      simp only [List.length_cons, Nat.succ_le_succ_iff] at hk
      simp only [parseArgs]
      cases parseHead s with
      | stop => exact hm
      | bad => trivial
      | flag name value =>
        simp only [hf name]
        rcases hl : fs.lookup name with _ | t
        · trivial
        · simp only [Option.map_some, shift_isBool]
          have set : ∀ (v : Bytes) (rest : List Bytes), rest.length ≤ k →
              ORel p.next (match setTarget (w.more p.yamls) name t v m with | some m' => parseArgs (w.more p.yamls) fs rest m' | none => none)
                (match setTarget (w.after p) name (shift p.next t) v m' with | some m' => parseArgs (w.after p) fs' rest m' | none => none) := by
            intro v rest hr
            have := setTarget_rel w p name v t (ho name t hl) hm
            rcases h1 : setTarget (w.more p.yamls) name t v m with _ | a <;>
              rcases h2 : setTarget (w.after p) name (shift p.next t) v m' with _ | b <;> rw [h1, h2] at this
            · trivial
            · exact this.elim
            · exact this.elim
            · exact ih rest hr a b this
          split
          · exact set _ _ hk
          · cases value with
            | some v => exact set _ _ hk
            | none =>
              cases args with
              | nil => trivial
              | cons v args => exact set _ _ (by simp at hk; omega)

theorem resolveEnv_rel (w : World) (p : Prog) (fs fs' : FlagSet) (hf : FRel p.next fs fs') (ho : ∀ n t, fs.lookup n = some t → Old p n t) :
    ∀ (names : List Bytes) m m', MRel p.next m m' →
      ORel p.next (resolveEnv (w.more p.yamls) fs names m) (resolveEnv (w.after p) fs' names m')
  | [], m, m', hm => hm
  | n :: names, m, m', hm => by
    simp only [resolveEnv]
    have : (w.after p).env n = (w.more p.yamls).env n := rfl
    rw [this]
    rcases (w.more p.yamls).env n with _ | s
    · exact resolveEnv_rel w p fs fs' hf ho names m m' hm
    · simp only [hf n]
      rcases hl : fs.lookup n with _ | t
      · trivial
      · simp only [Option.map_some]
        have := setTarget_rel w p n s t (ho n t hl) hm
        rcases h1 : setTarget (w.more p.yamls) n t s m with _ | a <;>
          rcases h2 : setTarget (w.after p) n (shift p.next t) s m' with _ | b <;> rw [h1, h2] at this
        · trivial
        · exact this.elim
        · exact this.elim
        · exact resolveEnv_rel w p fs fs' hf ho names a b this

theorem resolveYaml_rel (w : World) (p : Prog) {m m' : Mem} (hm : MRel p.next m m') :
    ORel p.next (resolveYamlAt w p.next m) (resolveYaml (w.after p) m') := by
  obtain ⟨h1, h2, h3⟩ := hm
  simp only [resolveYamlAt, resolveYaml]
  have : (w.after p).yaml = w.yaml := rfl
  rw [this, h3]
  rcases w.yaml m.yamlFile with _ | eff
  · trivial
  · refine ⟨fun i => ?_, fun i => ?_, rfl⟩ <;> simp only [Nat.le_add_right, if_true, Nat.add_sub_cancel_left, h1] <;> rfl

/-- The results correspond. -/
def RRel (base : Nat) : ProgRes → Res → Prop
  | .panic, .panic => True
  | .exit, .exit => True
  | .done p, .done m => MRel base p.mem m
  | _, _ => False

theorem loadNext_rel (w : World) (p : Prog) (ht : Tidy p) (yamlFlag : Bytes) (bs : List Binding) (init : Nat → Int) :
    RRel p.next (loadNext w p yamlFlag bs init) (load (w.after p) yamlFlag bs init) := by
  have hs : (w.after p).strict = w.strict := rfl
  have ha : (w.after p).args = w.args := rfl
  have h0 := start_rel w ht
  have hold0 : ∀ n t, p.flags.lookup n = some t → Old p n t := by
    intro n t hl
    cases t with
    | cell i k => exact fun _ => hl
    | yamlFile => trivial
    | pre b => exact hl
  -- the yaml flag
  have h1 : (∀ fs1, (if yamlFlag ≠ [] then p.flags.define w.strict yamlFlag .yamlFile else some p.flags) = some fs1 →
      ∃ fs1', (if yamlFlag ≠ [] then FlagSet.define w.strict ((w.after p).pre.map fun x => (x.1, .pre x.2)) yamlFlag .yamlFile
        else some ((w.after p).pre.map fun x => (x.1, .pre x.2))) = some fs1' ∧ FRel p.next fs1 fs1' ∧ ∀ n t, fs1.lookup n = some t → Old p n t) ∧
      ((if yamlFlag ≠ [] then p.flags.define w.strict yamlFlag .yamlFile else some p.flags) = none →
      (if yamlFlag ≠ [] then FlagSet.define w.strict ((w.after p).pre.map fun x => (x.1, .pre x.2)) yamlFlag .yamlFile
        else some ((w.after p).pre.map fun x => (x.1, .pre x.2))) = none) := by
    obtain ⟨h2, h3⟩ := define_rel (strict := w.strict) h0 yamlFlag .yamlFile
    split
    · refine ⟨fun fs1 hf => ?_, h2.1⟩
      rcases h4 : FlagSet.define w.strict ((w.after p).pre.map fun x => (x.1, .pre x.2)) yamlFlag .yamlFile with _ | g
      · rw [h2.2 h4] at hf; cases hf
      · refine ⟨g, h4, h3 fs1 g hf h4, fun n t hl => ?_⟩
        rw [lookup_define hf] at hl
        split at hl
        · cases hl; trivial
        · exact hold0 n t hl
    · refine ⟨fun fs1 hf => ?_, fun h => by cases h⟩
      cases hf
      exact ⟨_, rfl, h0, hold0⟩
  simp only [loadNext, load, hs, ha]
  rcases hy : (if yamlFlag ≠ [] then p.flags.define w.strict yamlFlag .yamlFile else some p.flags) with _ | fs1
  · rw [h1.2 hy]; trivial
  obtain ⟨fs1', h2, h3, hold1⟩ := h1.1 fs1 hy
  rw [h2]
  simp only
  obtain ⟨e1, e2⟩ := defineAll_rel p.next w.strict (·.envName) bs 0 [] [] (fun n => rfl)
  obtain ⟨f1, f2⟩ := defineAll_rel p.next w.strict (·.flagName) bs 0 fs1 fs1' h3
  simp only [Nat.add_zero] at e1 e2 f1 f2
  rcases he : defineAll w.strict (·.envName) bs p.next [] with _ | efs
  · rw [e1.1 he]; trivial
  rcases he' : defineAll w.strict (·.envName) bs 0 [] with _ | efs'
  · rw [e1.2 he'] at he; cases he
  rcases hf : defineAll w.strict (·.flagName) bs p.next fs1 with _ | ffs
  · rw [f1.1 hf]; trivial
  rcases hf' : defineAll w.strict (·.flagName) bs 0 fs1' with _ | ffs'
  · rw [f1.2 hf'] at hf; cases hf
  simp only
  have holdE : ∀ n t, efs.lookup n = some t → Old p n t := by
    intro n t hl
    rcases ((defineAll_some w.strict (·.envName) bs p.next []).2 efs he n t).1 hl with h | ⟨j, b, -, -, rfl⟩
    · cases h
    · intro hlt; omega
  have holdF : ∀ n t, ffs.lookup n = some t → Old p n t := by
    intro n t hl
    rcases ((defineAll_some w.strict (·.flagName) bs p.next fs1).2 ffs hf n t).1 hl with h | ⟨j, b, -, -, rfl⟩
    · exact hold1 n t h
    · intro hlt; omega
  have hE := e2 efs efs' he he'
  have hF := f2 ffs ffs' hf hf'
  have m0 : MRel p.next ⟨fun i => if p.next ≤ i then init (i - p.next) else p.mem.cells i, fun i => if p.next ≤ i then none else p.mem.over i, []⟩
      ⟨init, fun _ => none, []⟩ := ⟨fun i => by simp, fun i => by simp, rfl⟩
  have r1 := parseArgs_rel w p ffs ffs' hF holdF _ w.args (Nat.le_refl _) _ _ m0
  revert r1
  generalize parseArgs (w.more p.yamls) ffs w.args _ = o1
  generalize parseArgs (w.after p) ffs' w.args _ = o1'
  intro r1
  rcases o1 with _ | m1 <;> rcases o1' with _ | m1'
  · trivial
  · exact r1.elim
  · exact r1.elim
  have r1 : MRel p.next m1 m1' := r1
  have r2 : ORel p.next (if m1.yamlFile ≠ [] then resolveYamlAt w p.next m1 else some m1)
      (if m1'.yamlFile ≠ [] then resolveYaml (w.after p) m1' else some m1') := by
    rw [r1.yaml]
    split
    · exact resolveYaml_rel w p r1
    · exact r1
  simp only
  revert r2
  generalize (if m1.yamlFile ≠ [] then resolveYamlAt w p.next m1 else some m1) = o2
  generalize (if m1'.yamlFile ≠ [] then resolveYaml (w.after p) m1' else some m1') = o2'
  intro r2
  rcases o2 with _ | m2 <;> rcases o2' with _ | m2'
  · trivial
  · exact r2.elim
  · exact r2.elim
  have r3 := resolveEnv_rel w p efs efs' hE holdE (bs.map (·.envName)) m2 m2' r2
  simp only
  revert r3
  generalize resolveEnv (w.more p.yamls) efs (bs.map (·.envName)) m2 = o3
  generalize resolveEnv (w.after p) efs' (bs.map (·.envName)) m2' = o3'
  intro r3
  rcases o3 with _ | m3 <;> rcases o3' with _ | m3'
  · trivial
  · exact r3.elim
  · exact r3.elim
  have r4 := parseArgs_rel w p ffs ffs' hF holdF _ w.args (Nat.le_refl _) m3 m3' r3
  simp only
  revert r4
  generalize parseArgs (w.more p.yamls) ffs w.args m3 = o4
  generalize parseArgs (w.after p) ffs' w.args m3' = o4'
  intro r4
  rcases o4 with _ | m4 <;> rcases o4' with _ | m4'
  · trivial
  · exact r4.elim
  · exact r4.elim
  exact r4

/-! ## Several calls -/

/-- What a call that returns does with the flags and with the memory. -/
theorem loadNext_done {w : World} {p p' : Prog} {yamlFlag : Bytes} {bs : List Binding} {init : Nat → Int} (h : loadNext w p yamlFlag bs init = .done p') :
    ∃ (ffs efs : FlagSet) (m1 m2 m3 : Mem), (∀ n, p'.flags.lookup n = (ffs.lookup n).map retire) ∧ p'.next = p.next + bs.length ∧
      (∀ n t, ffs.lookup n = some t ↔ p.flags.lookup n = some t ∨ (n = yamlFlag ∧ yamlFlag ≠ [] ∧ t = .yamlFile) ∨
        ∃ (j : Nat) (b : Binding), bs[j]? = some b ∧ n = b.flagName ∧ t = .cell (p.next + j) b.kind) ∧
      (∀ b ∈ bs, p.flags.lookup b.flagName = none ∧ (yamlFlag ≠ [] → b.flagName ≠ yamlFlag)) ∧ (yamlFlag ≠ [] → p.flags.lookup yamlFlag = none) ∧
      (∀ n t, efs.lookup n = some t → ∃ (j : Nat) (b : Binding), bs[j]? = some b ∧ n = b.envName ∧ t = .cell (p.next + j) b.kind) ∧
      parseArgs (w.more p.yamls) ffs w.args ⟨fun i => if p.next ≤ i then init (i - p.next) else p.mem.cells i, fun i => if p.next ≤ i then none else p.mem.over i, []⟩ = some m1 ∧
      (∀ i, i < p.next → m2.cells i = m1.cells i) ∧
      resolveEnv (w.more p.yamls) efs (bs.map (·.envName)) m2 = some m3 ∧ parseArgs (w.more p.yamls) ffs w.args m3 = some p'.mem := by
  simp only [loadNext] at h
  split at h
  · cases h
  rename_i fs1 hy
  split at h
  · cases h
  rename_i efs he
  split at h
  · cases h
  rename_i ffs hf
  split at h
  · cases h
  rename_i m1 h1
  split at h
  · cases h
  rename_i m2 h2
  split at h
  · cases h
  rename_i m3 h3
  split at h
  · cases h
  rename_i m4 h4
  cases h
  have hf1 := (defineAll_some w.strict (·.flagName) bs p.next fs1).1.1 (by simp [hf])
  have hfs1 : (∀ n t, fs1.lookup n = some t ↔ p.flags.lookup n = some t ∨ (n = yamlFlag ∧ yamlFlag ≠ [] ∧ t = .yamlFile)) ∧
      (yamlFlag ≠ [] → p.flags.lookup yamlFlag = none ∧ fs1.lookup yamlFlag = some .yamlFile) := by
    split at hy
    · rename_i hne
      obtain ⟨-, d1, d2⟩ := define_some hy
      refine ⟨fun n t => ?_, fun _ => ⟨d1, by rw [d2]; simp⟩⟩
      rw [d2]
      split
      · rename_i e; subst e
        simp only [Option.some.injEq, d1, reduceCtorEq, false_or, true_and]
        exact ⟨fun e => ⟨hne, e.symm⟩, fun e => e.2.symm⟩
      · rename_i e
        simp [e]
    · rename_i hne
      simp at hy hne
      subst hy
      exact ⟨fun n t => by simp [hne], fun hc => absurd hne hc⟩
  refine ⟨ffs, efs, m1, m2, m3, fun n => lookup_map retire ffs n, rfl, fun n t => ?_, fun b hb => ⟨?_, fun hne e => ?_⟩, fun hne => (hfs1.2 hne).1,
    fun n t hn => ?_, h1, fun i hi => ?_, h3, h4⟩
  · rw [(defineAll_some w.strict (·.flagName) bs p.next fs1).2 ffs hf n t, hfs1.1, or_assoc]
  · rcases hl : p.flags.lookup b.flagName with _ | t
    · rfl
    · have := (hfs1.1 b.flagName t).2 (.inl hl)
      rw [(hf1.2.2 b hb).1] at this
      cases this
  · have := (hfs1.2 hne).2
    rw [← e, (hf1.2.2 b hb).1] at this
    cases this
  · rcases ((defineAll_some w.strict (·.envName) bs p.next []).2 efs he n t).1 hn with h | h
    · cases h
    · exact h
  · split at h2
    · simp only [resolveYamlAt] at h2
      split at h2
      · cases h2
      · cases h2
        simp [Nat.not_le.2 hi]
    · cases h2; rfl

theorem runs_tidy {w : World} {p : Prog} (h : Runs w p) : Tidy p := by
  induction h with
  | start =>
    have : ∀ n, FlagSet.lookup (w.pre.map fun p => (p.1, Target.pre p.2)) n = none ∨ ∃ b, FlagSet.lookup (w.pre.map fun p => (p.1, Target.pre p.2)) n = some (.pre b) := by
      intro n
      induction w.pre with
      | nil => exact .inl rfl
      | cons x l ih =>
        simp only [FlagSet.lookup, List.map_cons, List.find?_cons] at ih ⊢
        split
        · exact .inr ⟨_, rfl⟩
        · exact ih
    refine ⟨fun n i k hn => ?_, fun n hn => ?_⟩ <;> rcases this n with h | ⟨b, h⟩ <;> rw [Prog.start] at hn <;> rw [h] at hn <;> cases hn
  | load p p' y bs init _ hl ih =>
    obtain ⟨ffs, efs, m1, m2, m3, h1, h2, h3, h4, -⟩ := loadNext_done hl
    refine ⟨fun n i k hn => ?_, fun n hn => ?_⟩
    · rw [h1] at hn
      rcases hf : ffs.lookup n with _ | t
      · rw [hf] at hn; cases hn
      · rw [hf] at hn
        cases t with
        | cell j k' =>
          simp [retire] at hn
          obtain ⟨rfl, rfl⟩ := hn
          rw [h2]
          rcases (h3 _ _).1 hf with h | ⟨-, -, h⟩ | ⟨j', b, hj, -, h⟩
          · exact Nat.lt_of_lt_of_le (ih.cells n _ _ h) (Nat.le_add_right _ _)
          · cases h
          · cases h
            have := (List.getElem?_eq_some_iff.1 hj).1
            omega
        | yamlFile => simp [retire] at hn
        | pre b => simp [retire] at hn
    · rw [h1] at hn
      rcases hf : ffs.lookup n with _ | t
      · rw [hf] at hn; cases hn
      · rw [hf] at hn
        cases t <;> simp [retire] at hn
  | assign p m _ ih => exact ⟨ih.cells, ih.yaml⟩

/-- More flags do not change what a command line means that is accepted already. -/
theorem argList_mono {isBool isBool' : Bytes → Option Bool} (h : ∀ n b, isBool n = some b → isBool' n = some b) {args : List Bytes} {l : List (Bytes × Bytes)}
    (ha : ArgList isBool args l) : ArgList isBool' args l := by
  induction ha with
  | nil => exact .nil
  | plain s args hs => exact .plain s args hs
  | terminator args => exact .terminator args
  | withValue d name value args l hd hn hb _ ih =>
    refine .withValue d name value args l hd hn ?_ ih
    rcases hx : isBool name with _ | b
    · simp [hx] at hb
    · simp [h _ _ hx]
  | alone d name args l hd hn hb _ ih => exact .alone d name args l hd hn (h _ _ hb) ih
  | next d name value args l hd hn hb _ ih => exact .next d name value args l hd hn (h _ _ hb) ih

theorem argList_names {isBool : Bytes → Option Bool} {args : List Bytes} {l : List (Bytes × Bytes)} (ha : ArgList isBool args l) :
    ∀ x ∈ l, (isBool x.1).isSome = true := by
  induction ha with
  | nil => simp
  | plain => simp
  | terminator => simp
  | withValue d name value args l hd hn hb _ ih => simpa [hb] using ih
  | alone d name args l hd hn hb _ ih => simpa [hb] using ih
  | next d name value args l hd hn hb _ ih => simpa [hb] using ih

theorem given_none {l : List (Bytes × Bytes)} {n : Bytes} (h : ∀ x ∈ l, x.1 ≠ n) : given l n = none := by
  have : l.filter (fun x => decide (x.1 = n)) = [] := by
    rw [List.filter_eq_nil_iff]
    intro x hx
    simpa using h x hx
  simp [given, this]

theorem retire_bools {ffs : FlagSet} {fs : FlagSet} (h : ∀ n, fs.lookup n = (ffs.lookup n).map retire) : fs.bools = ffs.bools := by
  funext n
  simp only [FlagSet.bools, h n, Option.map_map]
  rcases ffs.lookup n with _ | t
  · rfl
  · cases t <;> rfl

/-- The settings on the command line, as seen by a call that returned. -/
theorem loadNext_args {w : World} {p p' : Prog} {yamlFlag : Bytes} {bs : List Binding} {init : Nat → Int} (h : loadNext w p yamlFlag bs init = .done p') :
    ∃ l, ArgList p'.flags.bools w.args l := by
  obtain ⟨ffs, efs, m1, m2, m3, h1, -, -, -, -, -, h2, -⟩ := loadNext_done h
  rw [retire_bools h1]
  exact argList_of _ ffs w.args.length w.args (Nat.le_refl _) _ _ h2

theorem loadNext_mono {w : World} {p p' : Prog} {yamlFlag : Bytes} {bs : List Binding} {init : Nat → Int} (h : loadNext w p yamlFlag bs init = .done p')
    (n : Bytes) (b : Bool) (hb : p.flags.bools n = some b) : p'.flags.bools n = some b := by
  obtain ⟨ffs, efs, m1, m2, m3, h1, -, h3, -⟩ := loadNext_done h
  rw [retire_bools h1]
  simp only [FlagSet.bools, Option.map_eq_some_iff] at hb ⊢
  obtain ⟨t, ht, e⟩ := hb
  exact ⟨t, (h3 n t).2 (.inl ht), e⟩

theorem resolveEnv_else {w : World} {fs : FlagSet} {i : Nat} (ho : ∀ n t, fs.lookup n = some t → ∃ j k, t = .cell j k ∧ j ≠ i) :
    ∀ {names : List Bytes} {m m' : Mem}, resolveEnv w fs names m = some m' → m'.cells i = m.cells i
  | [], m, m', h => by simp [resolveEnv] at h; rw [h]
  | n :: names, m, m', h => by
    simp only [resolveEnv] at h
    split at h
    · exact resolveEnv_else ho h
    · split at h
      · cases h
      · rename_i t ht
        obtain ⟨j, k, rfl, hj⟩ := ho n t ht
        split at h
        · rename_i m1 hs
          rw [resolveEnv_else ho h]
          simp only [setTarget] at hs
          split at hs <;> cases hs
          simp [upd, Ne.symm hj]
        · cases h

/-- What became of the call, and the memory. -/
def ProgRes.res : ProgRes → Res
  | .panic => .panic
  | .exit => .exit
  | .done p => .done p.mem

/-- **C152**: a first call is what `load` says. -/
theorem C152_first (w : World) (yamlFlag : Bytes) (bs : List Binding) (init : Nat → Int) :
    (loadNext w (.start w) yamlFlag bs init).res = load w yamlFlag bs init := by
  have hw : w.more [] = w := by simp [World.more]
  have hy : ∀ m, resolveYamlAt w 0 m = resolveYaml w m := by
    intro m
    unfold resolveYamlAt resolveYaml
    rcases w.yaml m.yamlFile with _ | eff
    · rfl
    · simp only [Nat.zero_le, if_true, Nat.sub_zero]
      rfl
  simp only [loadNext, load, Prog.start, hw, hy, Nat.zero_le, if_true, Nat.sub_zero]
  generalize (if yamlFlag ≠ [] then FlagSet.define w.strict (w.pre.map fun p => (p.1, .pre p.2)) yamlFlag .yamlFile else some (w.pre.map fun p => (p.1, .pre p.2))) = o1
  rcases o1 with _ | fs1
  · rfl
  simp only
  generalize defineAll w.strict (fun x => x.envName) bs 0 [] = o2
  rcases o2 with _ | efs
  · rfl
  simp only
  generalize defineAll w.strict (fun x => x.flagName) bs 0 fs1 = o3
  rcases o3 with _ | ffs
  · rfl
  simp only
  generalize parseArgs w ffs w.args _ = o4
  rcases o4 with _ | m1
  · rfl
  simp only
  generalize (if m1.yamlFile ≠ [] then resolveYaml w m1 else some m1) = o5
  rcases o5 with _ | m2
  · rfl
  simp only
  generalize resolveEnv w efs _ m2 = o6
  rcases o6 with _ | m3
  · rfl
  simp only
  generalize parseArgs w ffs w.args m3 = o7
  rcases o7 with _ | m4 <;> rfl

/-- **C152, partial**: a later call does with its own struct what a single call does in a process in which the flags of the earlier structs are defined:
it panics, exits and returns in the same cases, with the same values. -/
theorem C152_later_partial (w : World) (p : Prog) (h : Runs w p) (yamlFlag : Bytes) (bs : List Binding) (init : Nat → Int) :
    match loadNext w p yamlFlag bs init, load (w.after p) yamlFlag bs init with
    | .panic, .panic => True
    | .exit, .exit => True
    | .done p', .done m => ∀ i, p'.mem.view (p.next + i) = m.view i
    | _, _ => False := by
  have := loadNext_rel w p (runs_tidy h) yamlFlag bs init
  rcases h1 : loadNext w p yamlFlag bs init with _ | _ | p' <;> rcases h2 : load (w.after p) yamlFlag bs init with _ | _ | m <;>
    rw [h1, h2] at this <;> simp only <;> try exact this
  intro i
  simp [Mem.view, this.cells i, this.over i]

/-- **C152, violated**: a flag of a struct that is loaded later makes the earlier call exit: whatever the flags of later calls will be (`isBool`), if one of
them is on the command line, then `Load` does not return. -/
theorem C152_exit_violated (w : World) (p : Prog) (yamlFlag : Bytes) (bs : List Binding) (init : Nat → Int) (isBool : Bytes → Option Bool)
    (l : List (Bytes × Bytes)) (hl : ArgList isBool w.args l) (hp : ∀ n b, p.flags.bools n = some b → isBool n = some b) (hy : yamlFlag ≠ [] → isBool yamlFlag = some false)
    (hb : ∀ b ∈ bs, isBool b.flagName = some (decide (b.kind = .bool)))
    (n v : Bytes) (hn : (n, v) ∈ l) (h1 : p.flags.bools n = none) (h2 : n ≠ yamlFlag) (h3 : ∀ b ∈ bs, n ≠ b.flagName) :
    loadNext w p yamlFlag bs init = .panic ∨ loadNext w p yamlFlag bs init = .exit := by
  rcases h : loadNext w p yamlFlag bs init with _ | _ | p'
  · exact .inl rfl
  · exact .inr rfl
  exfalso
  obtain ⟨l', hl'⟩ := loadNext_args h
  obtain ⟨ffs, efs, m1, m2, m3, e1, -, e3, -⟩ := loadNext_done h
  have hb' := retire_bools e1
  have known : ∀ n b, p'.flags.bools n = some b → isBool n = some b := by
    intro n b hn
    rw [hb'] at hn
    simp only [FlagSet.bools, Option.map_eq_some_iff] at hn
    obtain ⟨t, ht, rfl⟩ := hn
    rcases (e3 n t).1 ht with h | ⟨rfl, h, rfl⟩ | ⟨j, b, hj, rfl, rfl⟩
    · exact hp n _ (by simp [FlagSet.bools, h])
    · exact hy h
    · exact hb b (List.mem_of_getElem? hj)
  have := C55_args_unique _ _ _ _ hl (argList_mono known hl')
  subst this
  have := argList_names hl' (n, v) hn
  rw [hb', FlagSet.bools, Option.isSome_map] at this
  rcases ht : ffs.lookup n with _ | t
  · simp [ht] at this
  · rcases (e3 n t).1 ht with h | ⟨h, -⟩ | ⟨j, b, hj, h, -⟩
    · simp [FlagSet.bools, h] at h1
    · exact h2 h
    · exact h3 b (List.mem_of_getElem? hj) h

/-- **C152, violated**: a later call never sees the command line or a yaml file: the fields of its struct hold what the environment says, or what they held before. -/
theorem C152_later_violated (w : World) (p p1 p2 : Prog) (h : Runs w p) (y1 y2 : Bytes) (bs1 bs2 : List Binding) (init1 init2 : Nat → Int) (m : Mem)
    (h1 : loadNext w p y1 bs1 init1 = .done p1) (h2 : loadNext w (p1.with m) y2 bs2 init2 = .done p2) (i : Nat) (b : Binding) (hi : bs2[i]? = some b) :
    p2.mem.view (p1.next + i) = match w.env b.envName with
      | some s => w.pv b.kind s
      | none => some (init2 i) := by
  have hr : Runs w (p1.with m) := .assign p1 m (.load p p1 y1 bs1 init1 h h1)
  obtain ⟨l1, hl1⟩ := loadNext_args h1
  obtain ⟨ffs, efs, m1, m2, m3, e1, -, e3, e4, e5, -⟩ := loadNext_done h2
  have hR := C152_later_partial w (p1.with m) hr y2 bs2 init2
  rw [h2] at hR
  rcases h3 : load (w.after (p1.with m)) y2 bs2 init2 with _ | _ | mm <;> rw [h3] at hR <;> simp only at hR
  have hview := hR i
  have hv : p2.mem.view (p1.next + i) = mm.view i := hview
  rw [hv]
  obtain ⟨l, eff, c1, c2, c3⟩ := C55_partial _ _ _ _ _ h3
  -- the flags known at the first call
  have known : ∀ n b, p1.flags.bools n = some b → knownFlags (w.after (p1.with m)) y2 bs2 n = some b := by
    intro n b hn
    have hn' : (p1.with m).flags.lookup n ≠ none := by
      intro hc
      have hc : p1.flags.lookup n = none := hc
      simp [FlagSet.bools, hc] at hn
    have hpre : (w.after (p1.with m)).pre.lookup n = some b := by
      have : ∀ fs : FlagSet, (fs.map fun x => (x.1, x.2.isBool)).lookup n = fs.bools n := by
        intro fs
        induction fs with
        | nil => rfl
        | cons x fs ih =>
          obtain ⟨a, t⟩ := x
          simp only [FlagSet.bools, FlagSet.lookup, List.map_cons, List.find?_cons, List.lookup_cons] at ih ⊢
          by_cases e : a = n
          · subst e; simp
          · simp only [e, decide_false, beq_false_of_ne (Ne.symm e)]; exact ih
      exact (this p1.flags).trans hn
    have hbs : (bs2.map fun b => (b.flagName, decide (b.kind = .bool))).lookup n = none := by
      rw [List.lookup_eq_none_iff]
      intro x hx
      rw [List.mem_map] at hx
      obtain ⟨c, hc, rfl⟩ := hx
      simp only [bne_iff_ne, ne_eq]
      rintro rfl
      exact hn' (e4 c hc).1
    have hy : (if y2 = [] then [] else [(y2, false)] : List (Bytes × Bool)).lookup n = none := by
      split
      · rfl
      · rename_i hne
        have : n ≠ y2 := by rintro rfl; exact hn' (e5 hne)
        simp [List.lookup_cons, beq_false_of_ne this]
    simp only [knownFlags]
    rw [lookup_append, lookup_append, hbs, hy, hpre]
    rfl
  have hll := C55_args_unique _ _ _ _ c1 (argList_mono known hl1)
  subst hll
  have unknown : ∀ n, p1.flags.lookup n = none → given l n = none := by
    intro n hn
    refine given_none fun x hx e => ?_
    subst e
    have := argList_names hl1 x hx
    simp [FlagSet.bools, hn] at this
  have hb := unknown b.flagName (e4 b (List.mem_of_getElem? hi)).1
  have heff : eff = fun _ => .keep := by
    unfold YamlOf at c2
    split at c2
    · exact c2
    · rename_i hne
      by_cases hy : y2 = []
      · exact absurd (.inl hy) hne
      · exact absurd (.inr (.inl (unknown y2 (e5 hy)))) hne
  subst heff
  obtain ⟨-, -, d1, -, d2⟩ := c3 i b hi (by simp)
  have henv : (w.after (p1.with m)).env = w.env := rfl
  have hpv : (w.after (p1.with m)).pv = w.pv := rfl
  rw [henv, hpv] at d1
  rw [henv] at d2
  rcases he : w.env b.envName with _ | s
  · exact d2 hb he rfl
  · exact d1 hb s he

/-- **C152, violated**: a later call writes to the variables of earlier structs: those whose flags are on the command line get the value from there again, whatever
the program has assigned to them since (`m`); it leaves the others alone. -/
theorem C152_rewrites_violated (w : World) (p p1 p2 : Prog) (h : Runs w p) (y1 y2 : Bytes) (bs1 bs2 : List Binding) (init1 init2 : Nat → Int) (m : Mem)
    (h1 : loadNext w p y1 bs1 init1 = .done p1) (h2 : loadNext w (p1.with m) y2 bs2 init2 = .done p2) :
    ∃ l, ArgList p1.flags.bools w.args l ∧ ∀ (i : Nat) (b : Binding), bs1[i]? = some b →
      (∀ s, given l b.flagName = some s → w.pv b.kind s = some (p2.mem.cells (p.next + i))) ∧
      (given l b.flagName = none → p2.mem.cells (p.next + i) = m.cells (p.next + i)) := by
  obtain ⟨l, hl⟩ := loadNext_args h1
  refine ⟨l, hl, fun i b hi => ?_⟩
  obtain ⟨ffs1, efs1, -, -, -, a1, a2, a3, -⟩ := loadNext_done h1
  obtain ⟨ffs, efs, m1, m2, m3, e1, -, e3, -, -, e6, e7, e8, e9, e10⟩ := loadNext_done h2
  have hflags : (p1.with m).flags = p1.flags := rfl
  have hnext : (p1.with m).next = p1.next := rfl
  have hcells : (p1.with m).mem = m := rfl
  have hlen := (List.getElem?_eq_some_iff.1 hi).1
  rw [hflags, hnext] at e3
  rw [hnext] at e6 e7 e8
  rw [hcells] at e7
  have ho : Owns ffs b.flagName (p.next + i) b.kind := by
    refine ⟨(e3 _ _).2 (.inl ?_), fun n k' hn => ?_⟩
    · rw [a1, (a3 _ _).2 (.inr (.inr ⟨i, b, hi, rfl, rfl⟩))]
      rfl
    · rcases (e3 _ _).1 hn with h' | ⟨-, -, h'⟩ | ⟨j, c, -, -, h'⟩
      · rw [a1] at h'
        rcases hf : ffs1.lookup n with _ | t
        · rw [hf] at h'; cases h'
        · rw [hf] at h'
          have ht : t = .cell (p.next + i) k' := by
            cases t <;> simp [retire] at h' ⊢
            exact h'
          subst ht
          rcases (a3 _ _).1 hf with h'' | ⟨-, -, h''⟩ | ⟨j, c, hj, hn', h''⟩
          · have := (runs_tidy h).cells n _ _ h''
            omega
          · cases h''
          · simp at h''
            obtain ⟨rfl, -⟩ := h''
            rw [hi] at hj
            cases hj
            exact hn'
      · cases h'
      · simp at h'
        omega
  have known : ArgList ffs.bools w.args l := by
    refine argList_mono (fun n b hb => ?_) hl
    simp only [FlagSet.bools, Option.map_eq_some_iff] at hb ⊢
    obtain ⟨t, ht, e⟩ := hb
    exact ⟨t, (e3 n t).2 (.inl ht), e⟩
  rw [parseArgs_of _ ffs w.args l known] at e7 e10
  obtain ⟨c1, c2⟩ := applyAll_cell ho e7
  obtain ⟨d1, d2⟩ := applyAll_cell ho e10
  refine ⟨fun s hs => ?_, fun hg => ?_⟩
  · obtain ⟨x, hx, hx'⟩ := d1 s hs
    rw [hx']; exact hx
  · rw [d2 hg, resolveEnv_else (fun n t hn => ?_) e9, e8 _ (by omega), c2 hg]
    · simp only [if_neg (show ¬ p1.next ≤ p.next + i by omega)]
    · obtain ⟨j, c, -, -, rfl⟩ := e6 n t hn
      exact ⟨_, _, rfl, by omega⟩

theorem mem_pre (w : World) {p : Prog} {n : Bytes} (h : (p.flags.lookup n).isSome = true) : n ∈ (w.after p).pre.map (·.1) := by
  rcases hf : p.flags.find? (fun x => decide (x.1 = n)) with _ | x
  · simp [FlagSet.lookup, hf] at h
  · have h1 := List.mem_of_find?_eq_some hf
    have h2 := List.find?_some hf
    simp only [decide_eq_true_eq] at h2
    simp only [World.after, List.map_map, List.mem_map, Function.comp_def]
    exact ⟨x, h1, h2⟩

/-- **C152, violated**: a second call with the same yaml flag panics, and so does one with a struct that has a field of the same name. -/
theorem C152_again_violated (w : World) (p p1 : Prog) (h : Runs w p) (y1 y2 : Bytes) (bs1 bs2 : List Binding) (init1 init2 : Nat → Int) (m : Mem)
    (h1 : loadNext w p y1 bs1 init1 = .done p1) (hc : (y2 = y1 ∧ y1 ≠ []) ∨ ∃ b1 ∈ bs1, ∃ b2 ∈ bs2, b1.flagName = b2.flagName) :
    loadNext w (p1.with m) y2 bs2 init2 = .panic := by
  have hr : Runs w (p1.with m) := .assign p1 m (.load p p1 y1 bs1 init1 h h1)
  obtain ⟨ffs, efs, -, -, -, e1, -, e3, -⟩ := loadNext_done h1
  have key : load (w.after (p1.with m)) y2 bs2 init2 = .panic := by
    rw [C81_panic]
    rcases hc with ⟨rfl, hne⟩ | ⟨b1, hb1, b2, hb2, hb⟩
    · refine .inr (.inr (.inr (.inl ⟨hne, mem_pre w ?_⟩)))
      show (p1.flags.lookup y2).isSome = true
      rw [e1, (e3 _ _).2 (.inr (.inl ⟨rfl, hne, rfl⟩))]
      rfl
    · refine .inr (.inr (.inr (.inr (.inl ⟨b2, hb2, .inl (mem_pre w ?_)⟩))))
      show (p1.flags.lookup b2.flagName).isSome = true
      obtain ⟨i, hi⟩ := List.getElem?_of_mem hb1
      rw [e1, ← hb, (e3 _ _).2 (.inr (.inr ⟨i, b1, hi, rfl, rfl⟩))]
      rfl
  have hR := C152_later_partial w (p1.with m) hr y2 bs2 init2
  rw [key] at hR
  rcases h2 : loadNext w (p1.with m) y2 bs2 init2 with _ | _ | p2 <;> rw [h2] at hR
  · exact hR.elim
  · exact hR.elim

/-- The claim: a process can load its configuration in two parts: if one `Load` of a struct made of both succeeds, then two calls do, with the same values. -/
def C152Claim : Prop :=
  ∀ (w : World) (yamlFlag : Bytes) (bs1 bs2 : List Binding) (init1 init2 : Nat → Int) (m : Mem),
    load w yamlFlag (bs1 ++ bs2) (fun i => if i < bs1.length then init1 i else init2 (i - bs1.length)) = .done m →
    ∃ p1 p2, loadNext w (.start w) yamlFlag bs1 init1 = .done p1 ∧ loadNext w p1 [] bs2 init2 = .done p2 ∧
      ∀ i, i < (bs1 ++ bs2).length → p2.mem.view i = m.view i

/-- `-b 7` for a program that loads a struct with a field `A` and a struct with a field `B`. -/
def exTwo : World := exWorld [[45, 98], [55]] fun _ => none

theorem C152_violated : ¬ C152Claim := by
  intro h
  have hl : load exTwo [] ([⟨[97], [65], .int, false⟩] ++ [⟨[98], [66], .int, false⟩]) (fun i => if i < 1 then 0 else 0) = .done _ := rfl
  obtain ⟨p1, p2, h1, -, -⟩ := h exTwo [] [⟨[97], [65], .int, false⟩] [⟨[98], [66], .int, false⟩] (fun _ => 0) (fun _ => 0) _ hl
  have : loadNext exTwo (.start exTwo) [] [⟨[97], [65], .int, false⟩] (fun _ => 0) = .exit := rfl
  rw [this] at h1
  cases h1

/-- Two calls that return: `-a 5`; the program sets `A` to 9; the second call, of a struct with `B`, takes `B` from the environment and sets `A` to 5. -/
example : ∃ p1 p2, loadNext (exWorld [[45, 97], [5]] fun n => if n = [66] then some [6] else none) (.start (exWorld [[45, 97], [5]] fun n => if n = [66] then some [6] else none)) [99]
      [⟨[97], [65], .int, false⟩] (fun _ => 0) = .done p1 ∧ p1.mem.view 0 = some 5 ∧
    loadNext (exWorld [[45, 97], [5]] fun n => if n = [66] then some [6] else none) (p1.with { p1.mem with cells := fun _ => 9 }) [] [⟨[98], [66], .int, false⟩] (fun _ => 0) = .done p2 ∧
    p2.mem.view 0 = some 5 ∧ p2.mem.view 1 = some 6 := ⟨_, _, rfl, rfl, rfl, rfl, rfl⟩

end Gears.Conf
