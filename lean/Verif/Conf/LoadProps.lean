import Verif.Conf.Load
import Verif.Conf.NamingProps

/-
Properties C55 (precedence of flags, environment, yaml) and C81 (when `Load` panics).
-/

namespace Gears.Conf

/-! ## Specification of the command line -/

/-- A flag name that can be written on the command line. -/
def GoodName (name : Bytes) : Prop := name ≠ [] ∧ name.head? ≠ some dash ∧ equals ∉ name

/-- The command lines accepted, with the settings they make.  `isBool n`: `none` if there is no flag `n`. -/
inductive ArgList (isBool : Bytes → Option Bool) : List Bytes → List (Bytes × Bytes) → Prop
  /-- the end -/
  | nil : ArgList isBool [] []
  /-- the first argument that is no flag -/
  | plain (s : Bytes) (args : List Bytes) (h : s.length < 2 ∨ s.head? ≠ some dash) : ArgList isBool (s :: args) []
  /-- `--` -/
  | terminator (args : List Bytes) : ArgList isBool ([dash, dash] :: args) []
  /-- `-name=value` or `--name=value` -/
  | withValue (d name value : Bytes) (args : List Bytes) (l : List (Bytes × Bytes)) (hd : d = [dash] ∨ d = [dash, dash])
      (hn : GoodName name) (hb : (isBool name).isSome = true) (ha : ArgList isBool args l) :
      ArgList isBool ((d ++ name ++ [equals] ++ value) :: args) ((name, value) :: l)
  /-- `-name` for a boolean flag -/
  | alone (d name : Bytes) (args : List Bytes) (l : List (Bytes × Bytes)) (hd : d = [dash] ∨ d = [dash, dash])
      (hn : GoodName name) (hb : isBool name = some true) (ha : ArgList isBool args l) :
      ArgList isBool ((d ++ name) :: args) ((name, trueBytes) :: l)
  /-- `-name value` for other flags -/
  | next (d name value : Bytes) (args : List Bytes) (l : List (Bytes × Bytes)) (hd : d = [dash] ∨ d = [dash, dash])
      (hn : GoodName name) (hb : isBool name = some false) (ha : ArgList isBool args l) :
      ArgList isBool ((d ++ name) :: value :: args) ((name, value) :: l)

/-- The last value given for a flag. -/
def given (l : List (Bytes × Bytes)) (name : Bytes) : Option Bytes := ((l.filter (·.1 = name)).map (·.2)).getLast?

/-! ## The parser accepts exactly these command lines -/

theorem cutEq_none {s : Bytes} (h : (cutEq s).2 = none) : (cutEq s).1 = s ∧ equals ∉ s := by
  induction s with
  | nil => simp [cutEq]
  | cons b s ih =>
    simp only [cutEq] at h ⊢
    split at h
    · simp at h
    · rename_i hb
      obtain ⟨h1, h2⟩ := ih h
      simp [hb, h1, h2, Ne.symm hb]

theorem cutEq_some {s v : Bytes} (h : (cutEq s).2 = some v) : s = (cutEq s).1 ++ [equals] ++ v ∧ equals ∉ (cutEq s).1 := by
  induction s with
  | nil => simp [cutEq] at h
  | cons b s ih =>
    simp only [cutEq] at h ⊢
    split at h
    · rename_i hb
      simp at h; simp [hb, h]
    · rename_i hb
      obtain ⟨h1, h2⟩ := ih h
      simp only [hb, if_false, List.cons_append, ← h1, List.mem_cons, h2, or_false, true_and]
      exact Ne.symm hb

theorem cutEq_plain {s : Bytes} (h : equals ∉ s) : cutEq s = (s, none) := by
  induction s with
  | nil => rfl
  | cons b s ih =>
    simp at h
    simp [cutEq, ih h.2, Ne.symm h.1]

theorem cutEq_value {n : Bytes} (v : Bytes) (h : equals ∉ n) : cutEq (n ++ equals :: v) = (n, some v) := by
  induction n with
  | nil => simp [cutEq]
  | cons b n ih =>
    simp at h
    simp [cutEq, ih h.2, Ne.symm h.1]

/-- What the argument looks like. -/
def flagArg (d name : Bytes) : Option Bytes → Bytes
  | none => d ++ name
  | some v => d ++ name ++ [equals] ++ v

theorem splitEq_arg {c : UInt8} {r : Bytes} (d : Bytes) (h1 : c ≠ dash) (h2 : c ≠ equals) :
    GoodName (splitEq (c :: r)).1 ∧ d ++ (c :: r) = flagArg d (splitEq (c :: r)).1 (splitEq (c :: r)).2 := by
  simp only [splitEq]
  cases hv : (cutEq r).2 with
  | none =>
    obtain ⟨h3, h4⟩ := cutEq_none hv
    rw [h3]
    exact ⟨⟨by simp, by simpa using h1, by simp [h4, Ne.symm h2]⟩, rfl⟩
  | some v =>
    obtain ⟨h3, h4⟩ := cutEq_some hv
    refine ⟨⟨by simp, by simpa using h1, by simp [h4, Ne.symm h2]⟩, ?_⟩
    simp only [flagArg, List.cons_append, List.append_assoc] at h3 ⊢
    rw [← h3]

theorem parseHead_flag {s n : Bytes} {v : Option Bytes} (h : parseHead s = .flag n v) :
    ∃ d, (d = [dash] ∨ d = [dash, dash]) ∧ GoodName n ∧ s = flagArg d n v := by
  match s with
  | [] => simp [parseHead] at h
  | [_] => simp [parseHead] at h
  | a :: b :: s =>
    simp only [parseHead] at h
    split at h
    · simp at h
    · rename_i ha
      simp at ha; subst ha
      split at h
      · rename_i hb; subst hb
        split at h
        · simp at h
        · split at h
          · simp at h
          · rename_i c r hc
            simp only [Head.flag.injEq] at h
            obtain ⟨rfl, rfl⟩ := h
            obtain ⟨h1, h2⟩ := splitEq_arg (r := r) [dash, dash] (fun e => hc (.inl e)) (fun e => hc (.inr e))
            exact ⟨_, .inr rfl, h1, h2⟩
      · split at h
        · simp at h
        · rename_i hb hc
          simp only [Head.flag.injEq] at h
          obtain ⟨rfl, rfl⟩ := h
          obtain ⟨h1, h2⟩ := splitEq_arg (r := s) [dash] hb hc
          exact ⟨_, .inl rfl, h1, h2⟩

theorem parseHead_stop {s : Bytes} (h : parseHead s = .stop) : (s.length < 2 ∨ s.head? ≠ some dash) ∨ s = [dash, dash] := by
  match s with
  | [] => simp
  | [_] => simp
  | a :: b :: s =>
    simp only [parseHead] at h
    split at h
    · rename_i ha
      left; right; simpa using ha
    · rename_i ha
      simp at ha; subst ha
      split at h
      · rename_i hb; subst hb
        split at h
        · exact .inr rfl
        · split at h <;> simp at h
      · split at h <;> simp at h

theorem splitEq_flag {n : Bytes} {v : Option Bytes} (hn : GoodName n) : splitEq (flagArg [] n v) = (n, v) := by
  obtain ⟨h1, h2, h3⟩ := hn
  cases n with
  | nil => simp at h1
  | cons c n =>
    simp at h3
    cases v with
    | none => simp [flagArg, splitEq, cutEq_plain h3.2]
    | some v => simp [flagArg, splitEq, cutEq_value v h3.2]

theorem parseHead_of_flag {d n : Bytes} {v : Option Bytes} (hd : d = [dash] ∨ d = [dash, dash]) (hn : GoodName n) :
    parseHead (flagArg d n v) = .flag n v := by
  have hs := splitEq_flag (v := v) hn
  obtain ⟨h1, h2, h3⟩ := hn
  cases n with
  | nil => simp at h1
  | cons c n =>
    simp at h2 h3
    have hc : c ≠ equals := fun e => h3.1 e.symm
    obtain ⟨r, hr⟩ : ∃ r, ∀ d, flagArg d (c :: n) v = d ++ c :: r := by
      cases v with
      | none => exact ⟨n, fun d => rfl⟩
      | some v => exact ⟨n ++ [equals] ++ v, fun d => by simp [flagArg]⟩
    rw [hr] at hs ⊢
    simp only [List.nil_append] at hs
    rcases hd with rfl | rfl
    · simp [parseHead, h2, hc, hs]
    · simp [parseHead, h2, hc, hs]

theorem parseHead_plain {s : Bytes} (h : (s.length < 2 ∨ s.head? ≠ some dash) ∨ s = [dash, dash]) : parseHead s = .stop := by
  match s, h with
  | [], _ => rfl
  | [_], _ => rfl
  | a :: b :: s, h =>
    simp at h
    rcases h with h | ⟨rfl, rfl, rfl⟩
    · have h : a ≠ dash := by
        rcases h with h | h
        · omega
        · exact h
      simp [parseHead, h]
    · simp [parseHead]

/-- Settings one after the other. -/
def applyAll (w : World) (fs : FlagSet) : List (Bytes × Bytes) → Mem → Option Mem
  | [], m => some m
  | (n, v) :: l, m =>
    match fs.lookup n with
    | none => none
    | some t =>
      match setTarget w n t v m with
      | some m' => applyAll w fs l m'
      | none => none

def FlagSet.bools (fs : FlagSet) (n : Bytes) : Option Bool := (fs.lookup n).map Target.isBool

theorem parseArgs_of (w : World) (fs : FlagSet) (args : List Bytes) (l : List (Bytes × Bytes))
    (h : ArgList fs.bools args l) : ∀ m, parseArgs w fs args m = applyAll w fs l m := by
  induction h with
  | nil => intro m; rfl
  | plain s args h => intro m; simp [parseArgs, parseHead_plain (.inl h), applyAll]
  | terminator args => intro m; simp [parseArgs, parseHead_plain (.inr rfl), applyAll]
  | withValue d name value args l hd hn hb _ ih =>
    intro m
    have := parseHead_of_flag (v := some value) hd hn
    simp only [flagArg] at this
    simp only [parseArgs, this, applyAll]
    cases hl : fs.lookup name with
    | none => simp
    | some t =>
      simp only [Option.getD_some]
      cases setTarget w name t value m <;> simp [ih]
  | alone d name args l hd hn hb _ ih =>
    intro m
    have := parseHead_of_flag (v := none) hd hn
    simp only [flagArg] at this
    simp only [parseArgs, this, applyAll]
    cases hl : fs.lookup name with
    | none => simp
    | some t =>
      simp [FlagSet.bools, hl] at hb
      simp only [hb, if_true, Option.getD_none]
      cases setTarget w name t trueBytes m <;> simp [ih]
  | next d name value args l hd hn hb _ ih =>
    intro m
    have := parseHead_of_flag (v := none) hd hn
    simp only [flagArg] at this
    simp only [parseArgs, this, applyAll]
    cases hl : fs.lookup name with
    | none => simp
    | some t =>
      simp [FlagSet.bools, hl] at hb
      simp only [hb, Bool.false_eq_true, if_false]
      cases setTarget w name t value m <;> simp [ih]

theorem argList_of (w : World) (fs : FlagSet) : ∀ (k : Nat) (args : List Bytes), args.length ≤ k → ∀ (m m' : Mem),
    parseArgs w fs args m = some m' → ∃ l, ArgList fs.bools args l := by
  intro k
  induction k with
  | zero =>
    intro args hk m m' h
    have : args = [] := by simpa using hk
    subst this
    exact ⟨[], .nil⟩
  | succ k ih =>
    intro args hk m m' h
    cases args with
    | nil => exact ⟨[], .nil⟩
    | cons s args =>
      simp at hk
      simp only [parseArgs] at h
      split at h
      · rename_i hs
        rcases parseHead_stop hs with h1 | rfl
        · exact ⟨[], .plain s args h1⟩
        · exact ⟨[], .terminator args⟩
      · simp at h
      · rename_i name value hs
        obtain ⟨d, hd, hn, rfl⟩ := parseHead_flag hs
        split at h
        · simp at h
        · rename_i t ht
          split at h
          · rename_i hb
            split at h
            · obtain ⟨l, hl⟩ := ih args hk _ _ h
              cases value with
              | none => exact ⟨_, .alone d name args l hd hn (by simp [FlagSet.bools, ht, hb]) hl⟩
              | some v => exact ⟨_, .withValue d name v args l hd hn (by simp [FlagSet.bools, ht]) hl⟩
            · simp at h
          · rename_i hb
            split at h
            · split at h
              · rename_i v _ _ _
                obtain ⟨l, hl⟩ := ih args hk _ _ h
                exact ⟨_, .withValue d name v args l hd hn (by simp [FlagSet.bools, ht]) hl⟩
              · simp at h
            · split at h
              · simp at h
              · split at h
                · rename_i v args' _ _ _
                  obtain ⟨l, hl⟩ := ih args' (by simp at hk; omega) _ _ h
                  exact ⟨_, .next d name v args' l hd hn (by simp [FlagSet.bools, ht, hb]) hl⟩
                · simp at h

/-! ## What settings do -/

theorem given_cons (x : Bytes × Bytes) (l : List (Bytes × Bytes)) (name : Bytes) : given (x :: l) name =
    match given l name with
    | some v => some v
    | none => if x.1 = name then some x.2 else none := by
  simp only [given, List.filter_cons]
  split
  · rename_i h
    simp only [decide_eq_true_eq] at h
    rw [List.map_cons, List.getLast?_cons]
    cases ((l.filter (·.1 = name)).map (·.2)).getLast? <;> simp [h]
  · rename_i h
    simp only [decide_eq_true_eq] at h
    cases ((l.filter (·.1 = name)).map (·.2)).getLast? <;> simp [h]

/-- `name` is the only name of variable `i`. -/
def Owns (fs : FlagSet) (name : Bytes) (i : Nat) (k : Kind) : Prop :=
  fs.lookup name = some (.cell i k) ∧ ∀ n k', fs.lookup n = some (.cell i k') → n = name

theorem setTarget_over {w : World} {n v : Bytes} {t : Target} {m m' : Mem} (h : setTarget w n t v m = some m') :
    m'.over = m.over := by
  cases t <;> simp only [setTarget] at h <;> (repeat' split at h) <;> simp at h <;> subst h <;> rfl

theorem applyAll_over {w : World} {fs : FlagSet} : ∀ {l : List (Bytes × Bytes)} {m m' : Mem}, applyAll w fs l m = some m' →
    m'.over = m.over
  | [], m, m', h => by simp [applyAll] at h; rw [h]
  | (n, v) :: l, m, m', h => by
    simp only [applyAll] at h
    split at h
    · simp at h
    · split at h
      · rename_i hs
        rw [applyAll_over h, setTarget_over hs]
      · simp at h

theorem setTarget_cell {w : World} {fs : FlagSet} {name n v : Bytes} {i : Nat} {k : Kind} (ho : Owns fs name i k)
    {t : Target} (ht : fs.lookup n = some t) {m m' : Mem} (h : setTarget w n t v m = some m') :
    (n = name → ∃ x, w.pv k v = some x ∧ m'.cells i = x) ∧ (n ≠ name → m'.cells i = m.cells i) := by
  refine ⟨fun e => ?_, fun e => ?_⟩
  · subst e
    rw [ho.1] at ht
    simp at ht; subst ht
    simp only [setTarget] at h
    split at h <;> simp at h
    rename_i x hx
    exact ⟨x, hx, by rw [← h]; simp [upd]⟩
  · cases t with
    | cell j k' =>
      have hj : j ≠ i := by
        rintro rfl
        exact e (ho.2 n k' ht)
      simp only [setTarget] at h
      split at h <;> simp at h
      rw [← h]; simp [upd, Ne.symm hj]
    | yamlFile => simp only [setTarget] at h; simp at h; rw [← h]
    | pre b =>
      simp only [setTarget] at h
      split at h <;> simp at h
      rw [← h]

theorem applyAll_cell {w : World} {fs : FlagSet} {name : Bytes} {i : Nat} {k : Kind} (ho : Owns fs name i k) :
    ∀ {l : List (Bytes × Bytes)} {m m' : Mem}, applyAll w fs l m = some m' →
    (∀ s, given l name = some s → ∃ x, w.pv k s = some x ∧ m'.cells i = x) ∧ (given l name = none → m'.cells i = m.cells i)
  | [], m, m', h => by simp [applyAll] at h; subst h; simp [given]
  | (n, v) :: l, m, m', h => by
    simp only [applyAll] at h
    split at h
    · simp at h
    · rename_i t ht
      split at h
      · rename_i m1 hs
        obtain ⟨h1, h2⟩ := applyAll_cell ho h
        obtain ⟨h3, h4⟩ := setTarget_cell ho ht hs
        rw [given_cons]
        cases hg : given l name with
        | some s => simpa using h1 s hg
        | none =>
          rw [h2 hg]
          refine ⟨fun s hs => ?_, fun hn => ?_⟩
          · simp at hs
            obtain ⟨e, rfl⟩ := hs
            exact h3 e
          · simp at hn
            exact h4 hn
      · simp at h

theorem applyAll_yaml {w : World} {fs : FlagSet} {name : Bytes} (ho : ∀ n, fs.lookup n = some .yamlFile ↔ n = name) :
    ∀ {l : List (Bytes × Bytes)} {m m' : Mem}, applyAll w fs l m = some m' →
    m'.yamlFile = (given l name).getD m.yamlFile
  | [], m, m', h => by simp [applyAll] at h; subst h; simp [given]
  | (n, v) :: l, m, m', h => by
    simp only [applyAll] at h
    split at h
    · simp at h
    · rename_i t ht
      split at h
      · rename_i m1 hs
        rw [applyAll_yaml ho h, given_cons]
        cases hg : given l name with
        | some s => simp
        | none =>
          have hn := ho n
          rw [ht] at hn
          cases t with
          | yamlFile =>
            simp [setTarget] at hs
            have : n = name := hn.1 rfl
            simp [this, ← hs]
          | cell j k =>
            have : n ≠ name := by simpa using hn
            simp only [setTarget] at hs
            split at hs <;> simp at hs
            simp [this, ← hs]
          | pre b =>
            have : n ≠ name := by simpa using hn
            simp only [setTarget] at hs
            split at hs <;> simp at hs
            simp [this, ← hs]
      · simp at h

theorem applyAll_noYaml {w : World} {fs : FlagSet} (ho : ∀ n, fs.lookup n ≠ some .yamlFile) :
    ∀ {l : List (Bytes × Bytes)} {m m' : Mem}, applyAll w fs l m = some m' → m'.yamlFile = m.yamlFile
  | [], m, m', h => by simp [applyAll] at h; subst h; rfl
  | (n, v) :: l, m, m', h => by
    simp only [applyAll] at h
    split at h
    · simp at h
    · rename_i t ht
      split at h
      · rename_i m1 hs
        rw [applyAll_noYaml ho h]
        have hn := ho n
        rw [ht] at hn
        cases t <;> simp only [setTarget] at hs <;> (repeat' split at hs) <;> simp at hs hn <;> rw [← hs]
      · simp at h

theorem resolveEnv_over {w : World} {fs : FlagSet} : ∀ {names : List Bytes} {m m' : Mem},
    resolveEnv w fs names m = some m' → m'.over = m.over
  | [], m, m', h => by simp [resolveEnv] at h; rw [h]
  | n :: names, m, m', h => by
    simp only [resolveEnv] at h
    split at h
    · exact resolveEnv_over h
    · split at h
      · simp at h
      · split at h
        · rename_i hs
          rw [resolveEnv_over h, setTarget_over hs]
        · simp at h

theorem resolveEnv_cell {w : World} {fs : FlagSet} {name : Bytes} {i : Nat} {k : Kind} (ho : Owns fs name i k) :
    ∀ {names : List Bytes} {m m' : Mem}, resolveEnv w fs names m = some m' →
    (∀ s, w.env name = some s → name ∈ names → ∃ x, w.pv k s = some x ∧ m'.cells i = x) ∧
    (w.env name = none ∨ name ∉ names → m'.cells i = m.cells i)
  | [], m, m', h => by simp [resolveEnv] at h; subst h; simp
  | n :: names, m, m', h => by
    simp only [resolveEnv] at h
    split at h
    · rename_i hn
      obtain ⟨h1, h2⟩ := resolveEnv_cell ho h
      refine ⟨fun s hs hm => h1 s hs ?_, fun hh => h2 ?_⟩
      · rcases List.mem_cons.1 hm with rfl | hm
        · rw [hn] at hs; simp at hs
        · exact hm
      · rcases hh with hh | hh
        · exact .inl hh
        · exact .inr (fun e => hh (by simp [e]))
    · rename_i s hn
      split at h
      · simp at h
      · rename_i t ht
        split at h
        · rename_i m1 hs
          obtain ⟨h1, h2⟩ := resolveEnv_cell ho h
          obtain ⟨h3, h4⟩ := setTarget_cell ho ht hs
          refine ⟨fun s' hs' hm => ?_, fun hh => ?_⟩
          · by_cases hmem : name ∈ names
            · exact h1 s' hs' hmem
            · rw [h2 (.inr hmem)]
              obtain rfl : name = n := by simpa [hmem] using hm
              rw [hn] at hs'; simp at hs'; subst hs'
              exact h3 rfl
          · have hne : n ≠ name := by
              rintro rfl
              rcases hh with hh | hh
              · rw [hn] at hh; simp at hh
              · simp at hh
            rw [h2, h4 hne]
            rcases hh with hh | hh
            · exact .inl hh
            · exact .inr (fun e => hh (by simp [e]))
        · simp at h

/-! ## Registration -/

/-- The name of a flag that `flag.Var` of newer versions refuses: it begins with `-` or contains `=`. -/
def BadName (n : Bytes) : Prop := (∃ r, n = 45 :: r) ∨ 61 ∈ n

theorem oddName_iff (n : Bytes) : oddName n = true ↔ BadName n := by
  cases n with
  | nil => simp [oddName, BadName]
  | cons a n => simp [oddName, BadName, dash, equals]

theorem define_some {fs fs' : FlagSet} {n : Bytes} {t : Target} {strict : Bool} (h : fs.define strict n t = some fs') :
    ¬ (strict = true ∧ BadName n) ∧ fs.lookup n = none ∧ ∀ x, fs'.lookup x = if x = n then some t else fs.lookup x := by
  simp only [FlagSet.define] at h
  split at h
  · simp at h
  rename_i hs
  refine ⟨fun h => hs (by simp [h.1, (oddName_iff n).2 h.2]), ?_⟩
  split at h
  · simp at h
  · rename_i hn
    simp at hn h
    subst h
    refine ⟨hn, fun x => ?_⟩
    simp only [FlagSet.lookup, List.find?_cons]
    by_cases hx : x = n
    · simp [hx]
    · simp [hx, Ne.symm hx]

theorem define_none {strict : Bool} {fs : FlagSet} {n : Bytes} {t : Target} :
    fs.define strict n t = none ↔ (strict = true ∧ BadName n) ∨ fs.lookup n ≠ none := by
  simp only [FlagSet.define]
  split <;> rename_i hs
  · simp only [Bool.and_eq_true, oddName_iff] at hs
    exact iff_of_true rfl (.inl hs)
  simp only [Bool.and_eq_true, oddName_iff] at hs
  simp only [hs, false_or]
  split <;> rename_i h
  · simp; intro e; simp [e] at h
  · simpa using h

theorem defineAll_some (strict : Bool) (name : Binding → Bytes) : ∀ (bs : List Binding) (i : Nat) (fs : FlagSet),
    (defineAll strict name bs i fs ≠ none ↔ (∀ b ∈ bs, b.named = false) ∧ (bs.map name).Nodup ∧
      ∀ b ∈ bs, fs.lookup (name b) = none ∧ ¬ (strict = true ∧ BadName (name b))) ∧
    (∀ fs', defineAll strict name bs i fs = some fs' →
      ∀ n t, fs'.lookup n = some t ↔ fs.lookup n = some t ∨ ∃ (j : Nat) (b : Binding), bs[j]? = some b ∧ n = name b ∧ t = .cell (i + j) b.kind)
  | [], i, fs => by
    simp only [defineAll]
    refine ⟨by simp, fun fs' h n t => ?_⟩
    simp at h; subst h; simp
  | b :: bs, i, fs => by
    simp only [defineAll]
    split
    · rename_i hb
      simp [hb]
    · rename_i hb
      cases hd : fs.define strict (name b) (.cell i b.kind) with
      | none =>
        rw [define_none] at hd
        refine ⟨?_, by simp⟩
        simp only [ne_eq, not_true_eq_false, false_iff]
        intro h
        exact hd.elim (h.2.2 b (by simp)).2 (· (h.2.2 b (by simp)).1)
      | some fs1 =>
        obtain ⟨h0, h1, h2⟩ := define_some hd
        obtain ⟨h3, h4⟩ := defineAll_some strict name bs (i + 1) fs1
        simp only
        refine ⟨?_, fun fs' h n t => ?_⟩
        · rw [h3]
          constructor
          · rintro ⟨h5, h6, h7⟩
            refine ⟨by simp at hb; simpa [hb] using h5, ?_, ?_⟩
            · rw [List.map_cons, List.nodup_cons]
              refine ⟨fun hm => ?_, h6⟩
              rw [List.mem_map] at hm
              obtain ⟨c, hc, hcn⟩ := hm
              have := (h7 c hc).1
              rw [h2, hcn] at this; simp at this
            · intro c hc
              rcases List.mem_cons.1 hc with rfl | hc
              · exact ⟨h1, h0⟩
              · refine ⟨?_, (h7 c hc).2⟩
                have := (h7 c hc).1
                rw [h2] at this
                split at this
                · simp at this
                · exact this
          · rintro ⟨h5, h6, h7⟩
            rw [List.map_cons, List.nodup_cons] at h6
            refine ⟨fun c hc => h5 c (by simp [hc]), h6.2, fun c hc => ?_⟩
            refine ⟨?_, (h7 c (by simp [hc])).2⟩
            rw [h2]
            split
            · rename_i e
              exact absurd (by rw [← e]; exact List.mem_map_of_mem hc) h6.1
            · exact (h7 c (by simp [hc])).1
        · rw [h4 fs' h, h2]
          constructor
          · rintro (h5 | ⟨j, c, hj, rfl, rfl⟩)
            · split at h5
              · rename_i e
                simp at h5
                exact .inr ⟨0, b, by simp, e, by simp [← h5]⟩
              · exact .inl h5
            · exact .inr ⟨j + 1, c, by simpa using hj, rfl, by rw [show i + 1 + j = i + (j + 1) by omega]⟩
          · rintro (h5 | ⟨j, c, hj, rfl, rfl⟩)
            · left
              split
              · rename_i e
                rw [e, h1] at h5; simp at h5
              · exact h5
            · cases j with
              | zero => simp at hj; subst hj; left; simp
              | succ j => exact .inr ⟨j, c, by simpa using hj, rfl, by rw [show i + 1 + j = i + (j + 1) by omega]⟩

/-! ## C81 -/

/-- **C81.**  `Load` panics exactly if a field has a type declared from a supported type, two fields share an env name or
a flag name, the yaml flag clashes with an earlier flag, a field's flag name is that of an earlier flag or of the
yaml flag, or, since Go 1.17, one of the names begins with `-` or contains `=`. -/
theorem C81_panic (w : World) (yamlFlag : Bytes) (bs : List Binding) (init : Nat → Int) :
    load w yamlFlag bs init = .panic ↔
      (∃ b ∈ bs, b.named = true) ∨ ¬ (bs.map (·.envName)).Nodup ∨ ¬ (bs.map (·.flagName)).Nodup ∨
      (yamlFlag ≠ [] ∧ yamlFlag ∈ w.pre.map (·.1)) ∨
      (∃ b ∈ bs, b.flagName ∈ w.pre.map (·.1) ∨ (yamlFlag ≠ [] ∧ b.flagName = yamlFlag)) ∨
      (w.strict = true ∧ ((yamlFlag ≠ [] ∧ BadName yamlFlag) ∨ ∃ b ∈ bs, BadName b.flagName ∨ BadName b.envName)) := by
  have hpre : ∀ n, FlagSet.lookup (w.pre.map fun p => (p.1, .pre p.2)) n = none ↔ n ∉ w.pre.map (·.1) := by
    intro n
    simp [FlagSet.lookup]
    grind
  simp only [load]
  split
  · rename_i h
    split at h
    · rename_i hy
      rw [define_none, ne_eq, hpre] at h
      simp only [Classical.not_not] at h
      rcases h with h | h
      · exact iff_of_true rfl (.inr (.inr (.inr (.inr (.inr ⟨h.1, .inl ⟨hy, h.2⟩⟩)))))
      · exact iff_of_true rfl (.inr (.inr (.inr (.inl ⟨hy, h⟩))))
    · simp at h
  · rename_i fs1 h
    have hfs1 : (yamlFlag = [] ∨ yamlFlag ∉ w.pre.map (·.1) ∧ ¬ (w.strict = true ∧ BadName yamlFlag)) ∧
        ∀ n, fs1.lookup n = none ↔ n ∉ w.pre.map (·.1) ∧ (yamlFlag = [] ∨ n ≠ yamlFlag) := by
      split at h
      · rename_i hy
        obtain ⟨h0, h1, h2⟩ := define_some h
        rw [hpre] at h1
        refine ⟨.inr ⟨h1, h0⟩, fun n => ?_⟩
        rw [h2]
        split
        · rename_i e; simp [e, hy]
        · rename_i e; rw [hpre]; simp [e]
      · rename_i hy
        simp at h hy
        subst h
        refine ⟨.inl hy, fun n => ?_⟩
        rw [hpre]; simp [hy]
    have he := (defineAll_some w.strict (·.envName) bs 0 []).1
    have hf := (defineAll_some w.strict (·.flagName) bs 0 fs1).1
    have hnil : ∀ n, FlagSet.lookup [] n = none := fun n => rfl
    simp only [hfs1.2] at hf
    simp only [hnil, true_and] at he
    split
    · rename_i h1
      simp only [h1, ne_eq, not_true_eq_false, false_iff] at he
      simp only [true_iff]
      grind
    · rename_i efs h1
      rw [h1] at he
      simp only [ne_eq, reduceCtorEq, not_false_eq_true, true_iff] at he
      split
      · rename_i h2
        simp only [h2, ne_eq, not_true_eq_false, false_iff] at hf
        simp only [true_iff]
        grind
      · rename_i ffs h2
        rw [h2] at hf
        simp only [ne_eq, reduceCtorEq, not_false_eq_true, true_iff] at hf
        have hpn : ∀ r : Res, r ≠ .panic → (r = .panic ↔ (∃ b ∈ bs, b.named = true) ∨ ¬ (bs.map (·.envName)).Nodup ∨ ¬ (bs.map (·.flagName)).Nodup ∨
            (yamlFlag ≠ [] ∧ yamlFlag ∈ w.pre.map (·.1)) ∨
            (∃ b ∈ bs, b.flagName ∈ w.pre.map (·.1) ∨ (yamlFlag ≠ [] ∧ b.flagName = yamlFlag)) ∨
            (w.strict = true ∧ ((yamlFlag ≠ [] ∧ BadName yamlFlag) ∨ ∃ b ∈ bs, BadName b.flagName ∨ BadName b.envName))) := by
          intro r hr
          simp only [hr, false_iff]
          grind
        apply hpn
        (repeat' split) <;> simp

/-! ## C55 -/

/-- The flags that exist at `flag.Parse`, and whether they are boolean. -/
def knownFlags (w : World) (yamlFlag : Bytes) (bs : List Binding) (n : Bytes) : Option Bool :=
  ((bs.map fun b => (b.flagName, decide (b.kind = .bool))) ++
    (if yamlFlag = [] then [] else [(yamlFlag, false)]) ++ w.pre).lookup n

/-- What the yaml file named on the command line, if there is one, does to the fields. -/
def YamlOf (w : World) (yamlFlag : Bytes) (l : List (Bytes × Bytes)) (eff : Nat → YamlEff) : Prop :=
  if yamlFlag = [] ∨ given l yamlFlag = none ∨ given l yamlFlag = some [] then eff = fun _ => .keep
  else ∃ file, given l yamlFlag = some file ∧ w.yaml file = some eff

theorem lookup_append {α β : Type} [BEq α] (l l' : List (α × β)) (n : α) :
    (l ++ l').lookup n = (l.lookup n).or (l'.lookup n) := by
  induction l with
  | nil => simp
  | cons x l ih =>
    obtain ⟨a, b⟩ := x
    simp only [List.cons_append, List.lookup_cons]
    split <;> simp_all

theorem lookup_binding (bs : List Binding) (b : Binding) (hb : b ∈ bs) (hnd : (bs.map (·.flagName)).Nodup) :
    (bs.map fun b => (b.flagName, decide (b.kind = .bool))).lookup b.flagName = some (decide (b.kind = .bool)) := by
  induction bs with
  | nil => simp at hb
  | cons c bs ih =>
    simp only [List.map_cons, List.nodup_cons] at hnd ⊢
    rw [List.lookup_cons]
    rcases List.mem_cons.1 hb with rfl | hb
    · simp
    · have : b.flagName ≠ c.flagName := fun e => hnd.1 (by rw [← e]; exact List.mem_map_of_mem hb)
      rw [beq_false_of_ne this]
      exact ih hb hnd.2

/-- `Load` after the registration of the flags. -/
def loadRest (w : World) (ffs efs : FlagSet) (bs : List Binding) (init : Nat → Int) : Res :=
  match parseArgs w ffs w.args ⟨init, fun _ => none, []⟩ with
  | none => .exit
  | some m1 =>
    match (if m1.yamlFile ≠ [] then resolveYaml w m1 else some m1) with
    | none => .exit
    | some m2 =>
      match resolveEnv w efs (bs.map (·.envName)) m2 with
      | none => .exit
      | some m3 =>
        match parseArgs w ffs w.args m3 with
        | none => .exit
        | some m4 => .done m4

/-- The flags are registered. -/
structure Setup (w : World) (yamlFlag : Bytes) (bs : List Binding) (ffs efs : FlagSet) : Prop where
  bools : ffs.bools = knownFlags w yamlFlag bs
  owns : ∀ (i : Nat) (b : Binding), bs[i]? = some b → Owns ffs b.flagName i b.kind ∧ Owns efs b.envName i b.kind
  flags : ∀ n t, ffs.lookup n = some t → (t = .yamlFile ∧ n = yamlFlag ∧ yamlFlag ≠ []) ∨ (∃ b, t = .pre b ∧ n ∈ w.pre.map (·.1)) ∨
    ∃ (i : Nat) (b : Binding), bs[i]? = some b ∧ n = b.flagName ∧ t = .cell i b.kind
  envs : ∀ n t, efs.lookup n = some t → ∃ (i : Nat) (b : Binding), bs[i]? = some b ∧ n = b.envName ∧ t = .cell i b.kind
  yaml : yamlFlag ≠ [] → ffs.lookup yamlFlag = some .yamlFile
  pre : ∀ b ∈ bs, b.flagName ∉ w.pre.map (·.1)
  preY : yamlFlag ≠ [] → yamlFlag ∉ w.pre.map (·.1)

theorem load_setup_defs {w : World} {yamlFlag : Bytes} {bs : List Binding} {init : Nat → Int}
    (h : load w yamlFlag bs init ≠ .panic) :
    ∃ fs1 ffs efs, ((if yamlFlag ≠ [] then FlagSet.define w.strict (w.pre.map fun p => (p.1, .pre p.2)) yamlFlag .yamlFile
        else some (w.pre.map fun p => (p.1, .pre p.2))) = some fs1 ∧
      defineAll w.strict (·.envName) bs 0 [] = some efs ∧ defineAll w.strict (·.flagName) bs 0 fs1 = some ffs) ∧
      Setup w yamlFlag bs ffs efs ∧ load w yamlFlag bs init = loadRest w ffs efs bs init := by
  have hnp := (not_congr (C81_panic w yamlFlag bs init)).1 h
  have hpre : ∀ n, FlagSet.lookup (w.pre.map fun p => (p.1, .pre p.2)) n = (w.pre.lookup n).map .pre := by
    intro n
    induction w.pre with
    | nil => rfl
    | cons x l ih =>
      obtain ⟨a, b⟩ := x
      simp only [FlagSet.lookup, List.map_cons, List.find?_cons, List.lookup_cons] at ih ⊢
      by_cases e : a = n
      · subst e; simp
      · simp only [e, decide_false, beq_false_of_ne (Ne.symm e)]; exact ih
  simp only [load] at h ⊢
  split at h
  · simp at h
  rename_i fs1 h1
  split at h
  · simp at h
  rename_i efs h2
  split at h
  · simp at h
  rename_i ffs h3
  clear h
  have hfs1 : ∀ n t, fs1.lookup n = some t ↔ (yamlFlag ≠ [] ∧ n = yamlFlag ∧ t = .yamlFile) ∨ ((yamlFlag = [] ∨ n ≠ yamlFlag) ∧ (w.pre.lookup n).map .pre = some t) := by
    intro n t
    split at h1
    · rename_i hy
      obtain ⟨-, h8, h9⟩ := define_some h1
      rw [h9]
      split
      · rename_i e; simp [e, hy]; exact eq_comm
      · rename_i e; simp [e, hpre]
    · rename_i hy
      simp at h1 hy
      subst h1
      rw [hpre]; simp [hy]
  obtain ⟨he1, he2⟩ := defineAll_some w.strict (·.envName) bs 0 []
  obtain ⟨hf1, hf2⟩ := defineAll_some w.strict (·.flagName) bs 0 fs1
  have he3 := he1.1 (by simp [h2])
  have hf3 := hf1.1 (by simp [h3])
  have he4 := he2 efs h2
  have hf4 := hf2 ffs h3
  have hown : ∀ (i : Nat) (b : Binding), bs[i]? = some b → Owns ffs b.flagName i b.kind ∧ Owns efs b.envName i b.kind := by
    intro i b hb
    refine ⟨⟨(hf4 _ _).2 (.inr ⟨i, b, hb, rfl, by simp⟩), fun n k' hn => ?_⟩,
      ⟨(he4 _ _).2 (.inr ⟨i, b, hb, rfl, by simp⟩), fun n k' hn => ?_⟩⟩
    · rcases (hf4 _ _).1 hn with h8 | ⟨j, c, hj, rfl, h8⟩
      · rw [hfs1] at h8; simp at h8
      · simp at h8
        obtain ⟨rfl, -⟩ := h8
        rw [hb] at hj; simp at hj; rw [hj]
    · rcases (he4 _ _).1 hn with h8 | ⟨j, c, hj, rfl, h8⟩
      · simp [FlagSet.lookup] at h8
      · simp at h8
        obtain ⟨rfl, -⟩ := h8
        rw [hb] at hj; simp at hj; rw [hj]
  have hbools : ffs.bools = knownFlags w yamlFlag bs := by
    funext n
    simp only [knownFlags, List.append_assoc]
    rw [lookup_append, lookup_append]
    by_cases hn : n ∈ bs.map (·.flagName)
    · rw [List.mem_map] at hn
      obtain ⟨b, hb, rfl⟩ := hn
      obtain ⟨i, hi, hi'⟩ := List.getElem_of_mem hb
      have h8 : bs[i]? = some b := by rw [List.getElem?_eq_getElem hi, hi']
      have h9 := (hown i b h8).1.1
      have : (bs.map fun b => (b.flagName, decide (b.kind = .bool))).lookup b.flagName = some (decide (b.kind = .bool)) :=
        lookup_binding bs b hb hf3.2.1
      rw [this]
      simp [FlagSet.bools, h9, Target.isBool]
    · have h8 : (bs.map fun b => (b.flagName, decide (b.kind = .bool))).lookup n = none := by
        rw [List.lookup_eq_none_iff]
        intro p hp
        rw [List.mem_map] at hp
        obtain ⟨b, hb, rfl⟩ := hp
        simp
        rintro rfl
        exact hn (List.mem_map_of_mem hb)
      have h9 : ffs.lookup n = fs1.lookup n := by
        apply Option.ext
        intro t
        rw [hf4]
        constructor
        · rintro (h | ⟨j, b, hj, rfl, -⟩)
          · exact h
          · exact absurd (List.mem_map_of_mem (List.mem_of_getElem? hj)) hn
        · exact .inl
      rw [h8]
      simp only [FlagSet.bools, h9, Option.none_or]
      by_cases hy : yamlFlag = []
      · have : fs1.lookup n = (w.pre.lookup n).map .pre := by
          apply Option.ext; intro t; rw [hfs1]; simp [hy]
        rw [this]
        simp [hy, Target.isBool, Function.comp_def]
      · by_cases e : n = yamlFlag
        · have : fs1.lookup n = some .yamlFile := (hfs1 _ _).2 (.inl ⟨hy, e, rfl⟩)
          rw [this]
          simp [hy, e, Target.isBool]
        · have : fs1.lookup n = (w.pre.lookup n).map .pre := by
            apply Option.ext; intro t; rw [hfs1]; simp [e]
          rw [this]
          simp [hy, List.lookup_cons, beq_false_of_ne e, Target.isBool, Function.comp_def]
  refine ⟨fs1, ffs, efs, ⟨h1, h2, h3⟩, ⟨hbools, hown, fun n t hn => ?_, fun n t hn => ?_, fun hy => ?_, fun b hb hm => ?_, fun hy hm => ?_⟩, ?_⟩
  · rcases (hf4 _ _).1 hn with h8 | ⟨j, c, hj, rfl, h8⟩
    · rcases (hfs1 _ _).1 h8 with ⟨h9, h10, h11⟩ | ⟨-, h9⟩
      · exact .inl ⟨h11, h10, h9⟩
      · rw [Option.map_eq_some_iff] at h9
        obtain ⟨b, h9, rfl⟩ := h9
        refine .inr (.inl ⟨b, rfl, ?_⟩)
        have := List.lookup_eq_some_iff.1 h9
        obtain ⟨l1, l2, h10, -⟩ := this
        rw [h10]; simp
    · exact .inr (.inr ⟨j, c, hj, rfl, by rw [h8]; simp⟩)
  · rcases (he4 _ _).1 hn with h8 | ⟨j, c, hj, rfl, h8⟩
    · simp [FlagSet.lookup] at h8
    · exact ⟨j, c, hj, rfl, by rw [h8]; simp⟩
  · exact (hf4 _ _).2 (.inl ((hfs1 _ _).2 (.inl ⟨hy, rfl, rfl⟩)))
  · exact hnp (.inr (.inr (.inr (.inr (.inl ⟨b, hb, .inl hm⟩)))))
  · exact hnp (.inr (.inr (.inr (.inl ⟨hy, hm⟩))))
  · rfl

theorem load_setup {w : World} {yamlFlag : Bytes} {bs : List Binding} {init : Nat → Int}
    (h : load w yamlFlag bs init ≠ .panic) :
    ∃ ffs efs, Setup w yamlFlag bs ffs efs ∧ load w yamlFlag bs init = loadRest w ffs efs bs init := by
  obtain ⟨_, ffs, efs, -, h1, h2⟩ := load_setup_defs h
  exact ⟨ffs, efs, h1, h2⟩

theorem setup_yamlFile {w : World} {yamlFlag : Bytes} {bs : List Binding} {ffs efs : FlagSet} (hs : Setup w yamlFlag bs ffs efs)
    {l : List (Bytes × Bytes)} {m m1 : Mem} (hm : m.yamlFile = []) (h4 : applyAll w ffs l m = some m1) :
    m1.yamlFile = if yamlFlag = [] then [] else (given l yamlFlag).getD [] := by
  split
  · rename_i hy
    rw [applyAll_noYaml (fun n hn => ?_) h4, hm]
    rcases hs.flags n _ hn with h8 | ⟨b, h8, -⟩ | ⟨i, b, -, -, h8⟩
    · exact h8.2.2 hy
    · simp at h8
    · simp at h8
  · rename_i hy
    rw [← hm]
    refine applyAll_yaml (w := w) (fs := ffs) (fun n => ⟨fun hn => ?_, fun e => ?_⟩) h4
    · rcases hs.flags n _ hn with h8 | ⟨b, h8, -⟩ | ⟨i, b, -, -, h8⟩
      · exact h8.2.1
      · simp at h8
      · simp at h8
    · rw [e]; exact hs.yaml hy

/-- All facts about a successful `Load`. -/
theorem load_done {w : World} {yamlFlag : Bytes} {bs : List Binding} {init : Nat → Int} {m : Mem}
    (h : load w yamlFlag bs init = .done m) :
    ∃ (ffs efs : FlagSet) (l : List (Bytes × Bytes)) (eff : Nat → YamlEff) (m1 m2 m3 : Mem),
      Setup w yamlFlag bs ffs efs ∧ ArgList ffs.bools w.args l ∧ YamlOf w yamlFlag l eff ∧
      applyAll w ffs l ⟨init, fun _ => none, []⟩ = some m1 ∧
      (∀ i, m2.cells i = match eff i with | .set v => v | _ => m1.cells i) ∧
      (∀ i, m2.over i = match eff i with | .replace v => some v | _ => none) ∧
      resolveEnv w efs (bs.map (·.envName)) m2 = some m3 ∧ applyAll w ffs l m3 = some m := by
  obtain ⟨ffs, efs, hs, hr⟩ := load_setup (w := w) (yamlFlag := yamlFlag) (bs := bs) (init := init) (by simp [h])
  rw [hr] at h
  simp only [loadRest] at h
  split at h
  · simp at h
  rename_i m1 h4
  split at h
  · simp at h
  rename_i m2 h5
  split at h
  · simp at h
  rename_i m3 h6
  split at h
  · simp at h
  rename_i m4 h7
  simp at h; subst h
  obtain ⟨l, hl⟩ := argList_of w ffs w.args.length w.args (Nat.le_refl _) _ _ h4
  rw [parseArgs_of w ffs w.args l hl] at h4 h7
  have hyf := setup_yamlFile hs rfl h4
  have hov := applyAll_over h4
  split at h5
  · rename_i hne
    simp only [resolveYaml] at h5
    split at h5
    · simp at h5
    · rename_i eff heff
      simp at h5; subst h5
      refine ⟨ffs, efs, l, eff, m1, _, m3, hs, hl, ?_, h4, fun i => rfl, fun i => ?_, h6, h7⟩
      · rw [hyf] at heff hne
        simp only [YamlOf]
        cases hg : given l yamlFlag with
        | none => simp [hg] at hne
        | some file =>
          by_cases hy : yamlFlag = []
          · simp [hy] at hne
          · simp [hg, hy] at hne heff
            simp [hy, hne, heff]
      · simp only
        cases eff i <;> simp
  · rename_i hne
    simp at h5 hne; subst h5
    refine ⟨ffs, efs, l, fun _ => .keep, m1, m1, m3, hs, hl, ?_, h4, fun i => rfl, fun i => ?_, h6, h7⟩
    · rw [hyf] at hne
      have hc : yamlFlag = [] ∨ given l yamlFlag = none ∨ given l yamlFlag = some [] := by
        by_cases hy : yamlFlag = []
        · exact .inl hy
        · right
          cases hg : given l yamlFlag with
          | none => simp
          | some file => simp [hg, hy] at hne; simp [hne]
      unfold YamlOf
      rw [if_pos hc]
    · rw [hov]

/-- **C55** for the fields whose variable yaml does not replace: the flag if given (the last value if it is given more
than once), else the environment variable if set, else the yaml value, else the initial value.  A value that does not
parse never gets this far. -/
theorem C55_partial (w : World) (yamlFlag : Bytes) (bs : List Binding) (init : Nat → Int) (m : Mem)
    (h : load w yamlFlag bs init = .done m) :
    ∃ l eff, ArgList (knownFlags w yamlFlag bs) w.args l ∧ YamlOf w yamlFlag l eff ∧
      ∀ (i : Nat) (b : Binding), bs[i]? = some b → (∀ v, eff i ≠ .replace v) →
        m.view i ≠ none ∧
        (∀ s, given l b.flagName = some s → m.view i = w.pv b.kind s) ∧
        (given l b.flagName = none → ∀ s, w.env b.envName = some s → m.view i = w.pv b.kind s) ∧
        (given l b.flagName = none → w.env b.envName = none → ∀ v, eff i = .set v → m.view i = some v) ∧
        (given l b.flagName = none → w.env b.envName = none → eff i = .keep → m.view i = some (init i)) := by
  obtain ⟨ffs, efs, l, eff, m1, m2, m3, hs, hl, hy, h4, h5, h5', h6, h7⟩ := load_done h
  rw [hs.bools] at hl
  refine ⟨l, eff, hl, hy, fun i b hi hr => ?_⟩
  obtain ⟨ho1, ho2⟩ := hs.owns i b hi
  obtain ⟨a1, a2⟩ := applyAll_cell ho1 h4
  obtain ⟨b1, b2⟩ := resolveEnv_cell ho2 h6
  obtain ⟨c1, c2⟩ := applyAll_cell ho1 h7
  have hov : m.view i = some (m.cells i) := by
    have : m.over i = none := by
      rw [applyAll_over h7, resolveEnv_over h6, h5']
      cases he : eff i <;> simp
      exact hr _ he
    simp [Mem.view, this]
  have hmem : b.envName ∈ bs.map (·.envName) := List.mem_map_of_mem (List.mem_of_getElem? hi)
  rw [hov]
  refine ⟨by simp, fun s hs => ?_, fun hg s hs => ?_, fun hg he v hv => ?_, fun hg he hv => ?_⟩
  · obtain ⟨x, hx, hx'⟩ := c1 s hs
    rw [hx, hx']
  · obtain ⟨x, hx, hx'⟩ := b1 s hs hmem
    rw [c2 hg, hx, hx']
  · rw [c2 hg, b2 (.inl he), h5, hv]
  · rw [c2 hg, b2 (.inl he), h5, hv, a2 hg]

/-- A field whose variable yaml replaces holds what yaml says, whatever flags and environment say. -/
theorem C55_replaced (w : World) (yamlFlag : Bytes) (bs : List Binding) (init : Nat → Int) (m : Mem)
    (h : load w yamlFlag bs init = .done m) :
    ∃ l eff, ArgList (knownFlags w yamlFlag bs) w.args l ∧ YamlOf w yamlFlag l eff ∧
      ∀ i v, eff i = .replace v → m.view i = v := by
  obtain ⟨ffs, efs, l, eff, m1, m2, m3, hs, hl, hy, h4, h5, h5', h6, h7⟩ := load_done h
  rw [hs.bools] at hl
  refine ⟨l, eff, hl, hy, fun i v hv => ?_⟩
  have : m.over i = some v := by
    rw [applyAll_over h7, resolveEnv_over h6, h5', hv]
  simp [Mem.view, this]

/-- The settings are determined by the command line. -/
theorem C55_args_unique (isBool : Bytes → Option Bool) (args : List Bytes) (l l' : List (Bytes × Bytes))
    (h : ArgList isBool args l) (h' : ArgList isBool args l') : l = l' := by
  have key : ∀ {d d' n n' : Bytes} {v v' : Option Bytes}, (d = [dash] ∨ d = [dash, dash]) → GoodName n →
      (d' = [dash] ∨ d' = [dash, dash]) → GoodName n' → flagArg d n v = flagArg d' n' v' → n = n' ∧ v = v' := by
    intro d d' n n' v v' h1 h2 h3 h4 h5
    have h6 := parseHead_of_flag (v := v) h1 h2
    rw [h5, parseHead_of_flag h3 h4] at h6
    simp at h6
    exact ⟨h6.1.symm, h6.2.symm⟩
  have stop : ∀ {s d n : Bytes} {v : Option Bytes}, (s.length < 2 ∨ s.head? ≠ some dash) ∨ s = [dash, dash] →
      (d = [dash] ∨ d = [dash, dash]) → GoodName n → s ≠ flagArg d n v := by
    intro s d n v h1 h2 h3 h4
    have := parseHead_plain h1
    rw [h4, parseHead_of_flag h2 h3] at this
    simp at this
  induction h generalizing l' with
  | nil => cases h'; rfl
  | plain s args h =>
    generalize hg : s :: args = x at h'
    cases h' with
    | nil => simp at hg
    | plain => rfl
    | terminator => rfl
    | withValue d n v _ _ hd hn => simp at hg; exact absurd hg.1 (by simpa [flagArg] using stop (v := some v) (.inl h) hd hn)
    | alone d n _ _ hd hn => simp at hg; exact absurd hg.1 (by simpa [flagArg] using stop (v := none) (.inl h) hd hn)
    | next d n v _ _ hd hn => simp at hg; exact absurd hg.1 (by simpa [flagArg] using stop (v := none) (.inl h) hd hn)
  | terminator args =>
    generalize hg : [dash, dash] :: args = x at h'
    cases h' with
    | nil => simp at hg
    | plain => rfl
    | terminator => rfl
    | withValue d n v _ _ hd hn => simp only [List.cons.injEq] at hg; exact absurd hg.1 (by simpa only [flagArg] using stop (v := some v) (.inr rfl) hd hn)
    | alone d n _ _ hd hn => simp only [List.cons.injEq] at hg; exact absurd hg.1 (by simpa only [flagArg] using stop (v := none) (.inr rfl) hd hn)
    | next d n v _ _ hd hn => simp only [List.cons.injEq] at hg; exact absurd hg.1 (by simpa only [flagArg] using stop (v := none) (.inr rfl) hd hn)
  | withValue d n v args l hd hn hb _ ih =>
    generalize hg : (d ++ n ++ [equals] ++ v) :: args = x at h'
    cases h' with
    | nil => simp at hg
    | plain s _ h => simp only [List.cons.injEq] at hg; exact absurd hg.1.symm (by simpa only [flagArg] using stop (v := some v) (.inl h) hd hn)
    | terminator => simp only [List.cons.injEq] at hg; exact absurd hg.1.symm (by simpa only [flagArg] using stop (v := some v) (.inr rfl) hd hn)
    | withValue d' n' v' _ _ hd' hn' _ ha =>
      simp only [List.cons.injEq] at hg
      obtain ⟨hg, rfl⟩ := hg
      obtain ⟨rfl, e⟩ := key (v := some v) (v' := some v') hd hn hd' hn' hg
      simp at e; subst e
      rw [ih _ ha]
    | alone d' n' _ _ hd' hn' => simp only [List.cons.injEq] at hg; have := (key (v := some v) (v' := none) hd hn hd' hn' hg.1).2; simp at this
    | next d' n' _ _ _ hd' hn' => simp only [List.cons.injEq] at hg; have := (key (v := some v) (v' := none) hd hn hd' hn' hg.1).2; simp at this
  | alone d n args l hd hn hb _ ih =>
    generalize hg : (d ++ n) :: args = x at h'
    cases h' with
    | nil => simp at hg
    | plain s _ h => simp only [List.cons.injEq] at hg; exact absurd hg.1.symm (by simpa only [flagArg] using stop (v := none) (.inl h) hd hn)
    | terminator => simp only [List.cons.injEq] at hg; exact absurd hg.1.symm (by simpa only [flagArg] using stop (v := none) (.inr rfl) hd hn)
    | withValue d' n' v' _ _ hd' hn' _ ha =>
      simp only [List.cons.injEq] at hg
      have := (key (v := none) (v' := some v') hd hn hd' hn' hg.1).2; simp at this
    | alone d' n' _ _ hd' hn' _ ha =>
      simp only [List.cons.injEq] at hg
      obtain ⟨hg, rfl⟩ := hg
      obtain ⟨rfl, -⟩ := key (v := none) (v' := none) hd hn hd' hn' hg
      rw [ih _ ha]
    | next d' n' _ _ _ hd' hn' hb' =>
      simp only [List.cons.injEq] at hg
      obtain ⟨rfl, -⟩ := key (v := none) (v' := none) hd hn hd' hn' hg.1
      rw [hb] at hb'; simp at hb'
  | next d n v args l hd hn hb _ ih =>
    generalize hg : (d ++ n) :: v :: args = x at h'
    cases h' with
    | nil => simp at hg
    | plain s _ h => simp only [List.cons.injEq] at hg; exact absurd hg.1.symm (by simpa only [flagArg] using stop (v := none) (.inl h) hd hn)
    | terminator => simp only [List.cons.injEq] at hg; exact absurd hg.1.symm (by simpa only [flagArg] using stop (v := none) (.inr rfl) hd hn)
    | withValue d' n' v' _ _ hd' hn' _ ha =>
      simp only [List.cons.injEq] at hg
      have := (key (v := none) (v' := some v') hd hn hd' hn' hg.1).2; simp at this
    | alone d' n' _ _ hd' hn' hb' =>
      simp only [List.cons.injEq] at hg
      obtain ⟨rfl, -⟩ := key (v := none) (v' := none) hd hn hd' hn' hg.1
      rw [hb] at hb'; simp at hb'
    | next d' n' v' _ _ hd' hn' hb' ha =>
      simp only [List.cons.injEq] at hg
      obtain ⟨hg, rfl, rfl⟩ := hg
      obtain ⟨rfl, -⟩ := key (v := none) (v' := none) hd hn hd' hn' hg
      rw [ih _ ha]

/-! ## C82 -/

/-- A value that the flag named `n` accepts. -/
def Accepts (w : World) (bs : List Binding) (n v : Bytes) : Prop :=
  (∀ b ∈ bs, b.flagName = n → w.pv b.kind v ≠ none) ∧ (n ∈ w.pre.map (·.1) → w.preOk n v = true)

theorem applyAll_isSome {w : World} {fs : FlagSet} : ∀ {l : List (Bytes × Bytes)} {m : Mem},
    (∀ p ∈ l, ∃ t, fs.lookup p.1 = some t ∧ ∀ m, setTarget w p.1 t p.2 m ≠ none) → applyAll w fs l m ≠ none
  | [], m, _ => by simp [applyAll]
  | (n, v) :: l, m, h => by
    obtain ⟨t, ht, hs⟩ := h (n, v) (by simp)
    simp only [applyAll, ht]
    cases hx : setTarget w n t v m with
    | none => exact absurd hx (hs m)
    | some m' => exact applyAll_isSome (fun p hp => h p (by simp [hp]))

theorem applyAll_accepts {w : World} {yamlFlag : Bytes} {bs : List Binding} {ffs efs : FlagSet}
    (hs : Setup w yamlFlag bs ffs efs) : ∀ {l : List (Bytes × Bytes)} {m m' : Mem}, applyAll w ffs l m = some m' →
    ∀ p ∈ l, Accepts w bs p.1 p.2
  | [], m, m', h => by simp
  | (n, v) :: l, m, m', h => by
    simp only [applyAll] at h
    split at h
    · simp at h
    · rename_i t ht
      split at h
      · rename_i m1 hm
        intro p hp
        rcases List.mem_cons.1 hp with rfl | hp
        · refine ⟨fun b hb e hn => ?_, fun hn => ?_⟩
          · obtain ⟨i, hi, hi'⟩ := List.getElem_of_mem hb
            have := (hs.owns i b (by rw [List.getElem?_eq_getElem hi, hi'])).1.1
            simp only at e
            rw [e, ht] at this
            simp at this; subst this
            simp only [setTarget] at hm
            simp only at hn
            simp [hn] at hm
          · rcases hs.flags _ _ ht with ⟨-, h8, h9⟩ | ⟨b, rfl, -⟩ | ⟨i, b, hi, h8, -⟩
            · exact absurd (h8 ▸ hn) (hs.preY h9)
            · simp only [setTarget] at hm
              split at hm
              · assumption
              · simp at hm
            · exact absurd (h8 ▸ hn) (hs.pre b (List.mem_of_getElem? hi))
        · exact applyAll_accepts hs h p hp
      · simp at h

theorem argList_known {isBool : Bytes → Option Bool} {args : List Bytes} {l : List (Bytes × Bytes)}
    (h : ArgList isBool args l) : ∀ p ∈ l, isBool p.1 ≠ none := by
  induction h with
  | nil => simp
  | plain => simp
  | terminator => simp
  | withValue d n v args l hd hn hb _ ih => intro p hp; rcases List.mem_cons.1 hp with rfl | hp; · intro e; simp [e] at hb
                                            · exact ih p hp
  | alone d n args l hd hn hb _ ih => intro p hp; rcases List.mem_cons.1 hp with rfl | hp; · simp [hb]
                                      · exact ih p hp
  | next d n v args l hd hn hb _ ih => intro p hp; rcases List.mem_cons.1 hp with rfl | hp; · simp [hb]
                                       · exact ih p hp

theorem applyAll_of_accepts {w : World} {yamlFlag : Bytes} {bs : List Binding} {ffs efs : FlagSet}
    (hs : Setup w yamlFlag bs ffs efs) {l : List (Bytes × Bytes)} (hl : ArgList ffs.bools w.args l)
    (ha : ∀ p ∈ l, Accepts w bs p.1 p.2) (m : Mem) : applyAll w ffs l m ≠ none := by
  refine applyAll_isSome fun p hp => ?_
  have hk := argList_known hl p hp
  simp only [FlagSet.bools] at hk
  cases ht : ffs.lookup p.1 with
  | none => simp [ht] at hk
  | some t =>
    refine ⟨t, rfl, fun m => ?_⟩
    rcases hs.flags _ _ ht with ⟨rfl, -, -⟩ | ⟨b, rfl, hb⟩ | ⟨i, b, hi, h8, rfl⟩
    · simp [setTarget]
    · simp [setTarget, (ha p hp).2 hb]
    · have := (ha p hp).1 b (List.mem_of_getElem? hi) h8.symm
      simp only [setTarget]
      split <;> simp_all

theorem resolveEnv_isSome {w : World} {fs : FlagSet} : ∀ {names : List Bytes} {m : Mem},
    (∀ n ∈ names, ∀ s, w.env n = some s → ∃ t, fs.lookup n = some t ∧ ∀ m, setTarget w n t s m ≠ none) →
    resolveEnv w fs names m ≠ none
  | [], m, _ => by simp [resolveEnv]
  | n :: names, m, h => by
    simp only [resolveEnv]
    split
    · exact resolveEnv_isSome (fun n hn => h n (by simp [hn]))
    · rename_i s hs
      obtain ⟨t, ht, hx⟩ := h n (by simp) s hs
      simp only [ht]
      cases he : setTarget w n t s m with
      | none => exact absurd he (hx m)
      | some m' => exact resolveEnv_isSome (fun n hn => h n (by simp [hn]))

/-- **C82.**  If it does not panic, `Load` succeeds exactly if the command line is well formed, every flag and every
environment variable of a field has an acceptable value, and the yaml file named on the command line, if any, can be
read; otherwise the process exits. -/
theorem C82_exit (w : World) (yamlFlag : Bytes) (bs : List Binding) (init : Nat → Int)
    (hp : load w yamlFlag bs init ≠ .panic) :
    (∃ m, load w yamlFlag bs init = .done m) ↔
      ∃ l eff, ArgList (knownFlags w yamlFlag bs) w.args l ∧ (∀ p ∈ l, Accepts w bs p.1 p.2) ∧ YamlOf w yamlFlag l eff ∧
        ∀ b ∈ bs, ∀ s, w.env b.envName = some s → w.pv b.kind s ≠ none := by
  constructor
  · rintro ⟨m, h⟩
    obtain ⟨ffs, efs, l, eff, m1, m2, m3, hs, hl, hy, h4, h5, h5', h6, h7⟩ := load_done h
    refine ⟨l, eff, hs.bools ▸ hl, applyAll_accepts hs h4, hy, fun b hb s he hn => ?_⟩
    obtain ⟨i, hi, hi'⟩ := List.getElem_of_mem hb
    obtain ⟨x, hx, -⟩ := (resolveEnv_cell (hs.owns i b (by rw [List.getElem?_eq_getElem hi, hi'])).2 h6).1 s he
      (List.mem_map_of_mem hb)
    rw [hn] at hx; simp at hx
  · rintro ⟨l, eff, hl, ha, hy, he⟩
    obtain ⟨ffs, efs, hs, hr⟩ := load_setup hp
    rw [hr]
    rw [← hs.bools] at hl
    have happ := applyAll_of_accepts hs hl ha
    have henv : ∀ m, resolveEnv w efs (bs.map (·.envName)) m ≠ none := by
      intro m
      refine resolveEnv_isSome fun n hn s hs' => ?_
      rw [List.mem_map] at hn
      obtain ⟨b, hb, rfl⟩ := hn
      obtain ⟨i, hi, hi'⟩ := List.getElem_of_mem hb
      refine ⟨_, (hs.owns i b (by rw [List.getElem?_eq_getElem hi, hi'])).2.1, fun m => ?_⟩
      have := he b hb s hs'
      simp only [setTarget]
      split <;> simp_all
    simp only [loadRest, parseArgs_of w ffs w.args l hl]
    cases h4 : applyAll w ffs l ⟨init, fun _ => none, []⟩ with
    | none => exact absurd h4 (happ _)
    | some m1 =>
      have hyf := setup_yamlFile hs rfl h4
      simp only
      cases h5 : (if m1.yamlFile ≠ [] then resolveYaml w m1 else some m1) with
      | none =>
        exfalso
        split at h5
        · rename_i hne
          simp only [resolveYaml] at h5
          split at h5
          · rename_i h6
            rw [hyf] at hne h6
            by_cases hy0 : yamlFlag = []
            · simp [hy0] at hne
            · simp only [hy0, if_false] at hne h6
              unfold YamlOf at hy
              split at hy
              · rename_i hc
                rcases hc with hc | hc | hc
                · exact hy0 hc
                · simp [hc] at hne
                · simp [hc] at hne
              · obtain ⟨file, hf, hf'⟩ := hy
                simp [hf] at h6
                rw [h6] at hf'; simp at hf'
          · simp at h5
        · simp at h5
      | some m2 =>
        simp only
        cases h6 : resolveEnv w efs (bs.map (·.envName)) m2 with
        | none => exact absurd h6 (henv _)
        | some m3 =>
          simp only
          cases h7 : applyAll w ffs l m3 with
          | none => exact absurd h7 (happ _)
          | some m4 => exact ⟨m4, rfl⟩

/-- A configuration with one string field `A` (`-a`, `A`), and the yaml flag `-c`; the file `f` says `a: null`, the
file `g` says `a: 3`. -/
def exWorld (args : List Bytes) (env : Bytes → Option Bytes) : World where
  strict := true
  pre := []
  preOk := fun _ _ => true
  args := args
  env := env
  yaml := fun f => if f = [102] then some (fun _ => .replace none) else some (fun _ => .set 3)
  pv := fun _ s => match s with | [d] => some d.toNat | _ => none

def exBinding : Binding := ⟨[97], [65], .int, false⟩

/-- **C55** does not hold: `./example -c f -a 5` with `a: null` in the file (and a pointer field) loses the flag. -/
theorem C55_violated : ∃ (w : World) (m : Mem), load w [99] [exBinding] (fun _ => 0) = .done m ∧
    ArgList (knownFlags w [99] [exBinding]) w.args [([99], [102]), ([97], [5])] ∧ m.view 0 = none := by
  refine ⟨exWorld [[45, 99], [102], [45, 97], [5]] (fun _ => none), _, rfl, ?_, rfl⟩
  refine .next [dash] [99] [102] _ _ (.inl rfl) ⟨by simp, by decide, by decide⟩ rfl ?_
  refine .next [dash] [97] [5] _ _ (.inl rfl) ⟨by simp, by decide, by decide⟩ rfl .nil

/-- `-a=7 --a 8` with the environment and a file: the last flag wins. -/
example : ∃ m, load (exWorld [[45, 99, 61, 103], [45, 97, 61, 7], [45, 45, 97], [8]] (fun _ => some [6])) [99] [exBinding] (fun _ => 0) =
    .done m ∧ m.view 0 = some 8 := ⟨_, rfl, rfl⟩

/-- The environment is stronger than the file. -/
example : ∃ m, load (exWorld [[45, 99, 61, 103]] (fun _ => some [6])) [99] [exBinding] (fun _ => 0) =
    .done m ∧ m.view 0 = some 6 := ⟨_, rfl, rfl⟩

/-- The file is stronger than the initial value. -/
example : ∃ m, load (exWorld [[45, 99, 61, 103]] (fun _ => none)) [99] [exBinding] (fun _ => 0) =
    .done m ∧ m.view 0 = some 3 := ⟨_, rfl, rfl⟩

example : ∃ m, load (exWorld [] (fun _ => none)) [99] [exBinding] (fun _ => 1) = .done m ∧ m.view 0 = some 1 := ⟨_, rfl, rfl⟩

/-- The yaml flag has the name of the field. -/
example : load (exWorld [] (fun _ => none)) [97] [exBinding] (fun _ => 1) = .panic := rfl

/-- `Load(p, "-c")` panics with newer versions of Go only. -/
example : load (exWorld [] (fun _ => none)) [45, 99] [exBinding] (fun _ => 1) = .panic := rfl
example : ∃ m, load { exWorld [] (fun _ => none) with strict := false } [45, 99] [exBinding] (fun _ => 1) = .done m := ⟨_, rfl⟩

end Gears.Conf
