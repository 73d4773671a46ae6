import Verif.Conf.Full
import Verif.Conf.LoadProps

/-
Properties of `Load` as a whole: C89 (what the fields hold), C90 (which structs cannot be loaded).
-/

namespace Gears.Conf

/-! ## Specification -/

/-- `v` has, at `loc`, a configuration field of kind `k` with value `x`: it is reached through exported fields only, and
`names` are the names of those that are not embedded. -/
def IsField (v : Val) (loc : List Step) (names : List Bytes) (k : Kind) (named : Bool) (x : Int) : Prop :=
  ∃ is, visible false v loc = some is ∧ names = (is.filter (!·.anon)).map (·.name) ∧ v.get loc = some (.basic k named x)

/-- The flag and the environment variable of a field. -/
def flagOf (names : List Bytes) : Bytes := List.intercalate [45] ((words (pathOf names)).map (·.map toLowerByte))
def envOf (names : List Bytes) : Bytes := List.intercalate [95] ((words (pathOf names)).map (·.map toUpperByte))

/-- `isBool` knows the flags of the program: those of the fields of `v`, the one for the yaml file, and those defined
elsewhere. -/
structure KnowsFlags (w : World) (yamlFlag : Bytes) (v : Val) (isBool : Bytes → Option Bool) : Prop where
  field : ∀ loc names k nm x, IsField v loc names k nm x → isBool (flagOf names) = some (decide (k = .bool))
  yaml  : yamlFlag ≠ [] → isBool yamlFlag = some false
  pre   : ∀ n, n ∈ w.pre.map (·.1) → isBool n = w.pre.lookup n
  only  : ∀ n, isBool n ≠ none → (∃ loc names k nm x, IsField v loc names k nm x ∧ n = flagOf names) ∨
    (yamlFlag ≠ [] ∧ n = yamlFlag) ∨ n ∈ w.pre.map (·.1)

/-- Number `i` of the effects of a yaml file (`World.yaml`) is for the field at `loc`. -/
def FieldNo (v : Val) (i : Nat) (loc : List Step) : Prop := ((visitExportedFields v)[i]?).map (·.loc) = some loc

/-- Field names are not empty. -/
def NamesOk (v : Val) : Prop := ∀ loc is, visible false v loc = some is → ∀ f ∈ is, f.name ≠ []

/-! ## Lemmas -/

theorem init_source (env : Nat → Ty) (fuel : Nat) (v v' : Val) (h : initStruct env fuel v = some v') :
    ∀ loc x, v'.get loc = some x → x.isLeaf = true → v.get loc = some x ∨ (v.get loc = none ∧ x.isZeroLeaf) := by
  let S : Val → Val → Prop := fun v v' =>
    ∀ loc x, v'.get loc = some x → x.isLeaf = true → v.get loc = some x ∨ (v.get loc = none ∧ x.isZeroLeaf)
  let T : Val → Val → Prop := fun v v' =>
    ∀ loc x, v'.get loc = some x → x.isLeaf = true → v.get loc = some x ∨ (v.get loc = none ∧ x.isZeroLeaf)
  refine (init_induction (P := S) (Q := T) ?_ ?_ ?_ ?_ ?_ fuel).1 v v' h
  · exact fun v _ loc x hx _ => .inl hx
  · intro fs fs' hi loc x hx hl
    match loc with
    | [] => simp [get_nil] at hx; subst hx; simp [Val.isLeaf] at hl
    | .deref :: p => simp [Val.get] at hx
    | .field i :: p =>
      rw [get_cons_struct] at hx ⊢
      split at hx
      rotate_left
      · simp at hx
      rename_i f w hg
      obtain ⟨v0, hg0⟩ := (hi i).2 f w hg
      obtain ⟨w', hg', h1 | h1⟩ := (hi i).1 f v0 hg0
      · rw [hg] at hg'; simp at hg'; subst hg'
        rw [hg0]; exact h1.2 p x hx hl
      · rw [hg] at hg'; simp at hg'; subst hg'
        rw [hg0, ← h1.2]; exact .inl hx
  · intro n w ih loc x hx hl
    match loc with
    | [] => simp [get_nil] at hx; subst hx; simp [Val.isLeaf] at hl
    | .field i :: p => simp [Val.get] at hx
    | .deref :: p =>
      refine .inr ⟨by simp [Val.get], ?_⟩
      rcases ih p x hx hl with h1 | h1
      · exact zero_allZero _ p x h1
      · exact h1.2
  · intro w w' ih loc x hx hl
    match loc with
    | [] => simp [get_nil] at hx; subst hx; simp [Val.isLeaf] at hl
    | .field i :: p => simp [Val.get] at hx
    | .deref :: p => exact ih p x hx hl
  · exact fun v v' _ _ _ _ h => h

/-- The value a field has after `initStruct` is the one it had before, and 0 if it is new. -/
theorem init_int {env : Nat → Ty} {fuel : Nat} {v v' : Val} (h : initStruct env fuel v = some v') {loc : List Step}
    {k : Kind} {nm : Bool} {x : Int} (hx : v'.get loc = some (.basic k nm x)) : v.int loc = x := by
  rcases init_source env fuel v v' h loc _ hx rfl with h1 | ⟨h1, h2⟩
  · simp [Val.int, h1]
  · simp [Val.isZeroLeaf] at h2; simp [Val.int, h1, h2]

theorem init_struct {env : Nat → Ty} {fuel : Nat} {fs : Fields} {v' : Val}
    (h : initStruct env fuel (.struct fs) = some v') : ∃ fs', v' = .struct fs' := by
  rcases initElem_cases h with ⟨_, fs', -, h2, -⟩ | ⟨h1, -⟩
  · exact ⟨fs', h2⟩
  · exact absurd rfl (h1 fs)

theorem flagOf_eq (names : List Bytes) : flagOf names = flagStyle (pathOf names) := (C50_naming _).1.symm

theorem envOf_eq (names : List Bytes) : envOf names = envStyle (pathOf names) := (C50_naming _).2.symm

/-- The visited fields are the configuration fields. -/
theorem mem_visited {fs : Fields} (hn : NamesOk (.struct fs)) (x : Visit) :
    x ∈ visitExportedFields (.struct fs) ↔
      ∃ names y, IsField (.struct fs) x.loc names x.kind x.named y ∧ x.path = pathOf names := by
  rw [(C54_visit fs).1 x]
  constructor
  · rintro ⟨loc, is, k, nm, val, h1, h2, rfl⟩
    exact ⟨_, val, ⟨is, h1, rfl, h2⟩, C54_path is (hn loc is h1)⟩
  · rintro ⟨names, y, ⟨is, h1, rfl, h2⟩, h3⟩
    refine ⟨x.loc, is, x.kind, x.named, y, h1, h2, ?_⟩
    obtain ⟨p, l, k, nm⟩ := x
    simp only [Visit.mk.injEq, and_true, and_self] at h3 ⊢
    rw [h3]; exact (C54_path is (hn _ is h1)).symm

/-- A field has a number. -/
theorem field_index {fs : Fields} (hn : NamesOk (.struct fs)) {loc : List Step} {names : List Bytes} {k : Kind} {nm : Bool}
    {x : Int} (h : IsField (.struct fs) loc names k nm x) :
    ∃ i, (visitExportedFields (.struct fs))[i]? = some ⟨pathOf names, loc, k, nm⟩ ∧
      (visitExportedFields (.struct fs)).findIdx? (fun x => decide (x.loc = loc)) = some i := by
  have hm := (mem_visited hn ⟨pathOf names, loc, k, nm⟩).2 ⟨names, x, h, rfl⟩
  obtain ⟨i, hi, hi'⟩ := List.getElem_of_mem hm
  refine ⟨i, by rw [List.getElem?_eq_getElem hi, hi'], ?_⟩
  rw [List.findIdx?_eq_some_iff_getElem]
  refine ⟨hi, by simp [hi'], fun j hj => ?_⟩
  have hnd := (C54_visit fs).2
  simp only [decide_eq_true_eq]
  intro he
  exact List.pairwise_iff_getElem.1 hnd j i (by simp; omega) (by simpa using hi) hj (by simp [hi', he])

/-! ## C89 -/

theorem loadConf_done {env : Nat → Ty} {fuel : Nat} {w : World} {yamlFlag : Bytes} {v v' : Val} {m : Mem}
    (h : loadConf env fuel w yamlFlag v = some (.done v' m)) : initStruct env fuel v = some v' ∧
      load w yamlFlag ((visitExportedFields v').map bindingOf)
        (fun i => match (visitExportedFields v')[i]? with | some x => v'.int x.loc | none => 0) = .done m := by
  simp only [loadConf] at h
  split at h
  · simp at h
  rename_i v1 h1
  split at h
  · simp at h
  · simp at h
  rename_i m1 h2
  simp at h
  obtain ⟨rfl, rfl⟩ := h
  exact ⟨h1, h2⟩

theorem lookup_none_iff {β : Type} (l : List (Bytes × β)) (n : Bytes) : l.lookup n = none ↔ n ∉ l.map (·.1) := by
  rw [List.lookup_eq_none_iff]
  simp only [bne_iff_ne, List.mem_map, not_exists, not_and]
  exact ⟨fun h p hp e => h p hp e.symm, fun h p hp e => h p hp e.symm⟩

/-- The flags known to `Load`. -/
theorem knowsFlags {fs : Fields} (hn : NamesOk (.struct fs)) {w : World} {yamlFlag : Bytes}
    (h : ¬ ((∃ b ∈ (visitExportedFields (.struct fs)).map bindingOf, b.named = true) ∨
      ¬ (((visitExportedFields (.struct fs)).map bindingOf).map (·.envName)).Nodup ∨
      ¬ (((visitExportedFields (.struct fs)).map bindingOf).map (·.flagName)).Nodup ∨
      (yamlFlag ≠ [] ∧ yamlFlag ∈ w.pre.map (·.1)) ∨
      (∃ b ∈ (visitExportedFields (.struct fs)).map bindingOf,
        b.flagName ∈ w.pre.map (·.1) ∨ (yamlFlag ≠ [] ∧ b.flagName = yamlFlag)) ∨
      (w.strict = true ∧ ((yamlFlag ≠ [] ∧ BadName yamlFlag) ∨
        ∃ b ∈ (visitExportedFields (.struct fs)).map bindingOf, BadName b.flagName ∨ BadName b.envName)))) :
    KnowsFlags w yamlFlag (.struct fs) (knownFlags w yamlFlag ((visitExportedFields (.struct fs)).map bindingOf)) := by
  simp only [not_or, not_exists, Classical.not_not, not_and] at h
  obtain ⟨-, -, h1, h2, h3, -⟩ := h
  have hno : ∀ n, (∀ b ∈ (visitExportedFields (.struct fs)).map bindingOf, b.flagName ≠ n) →
      (((visitExportedFields (.struct fs)).map bindingOf).map fun b => (b.flagName, decide (b.kind = .bool))).lookup n = none := by
    intro n hb
    rw [lookup_none_iff]
    simpa using hb
  constructor
  · intro loc names k nm x hf
    obtain ⟨i, hi, -⟩ := field_index hn hf
    have hb : bindingOf ⟨pathOf names, loc, k, nm⟩ ∈ (visitExportedFields (.struct fs)).map bindingOf :=
      List.mem_map_of_mem (List.mem_of_getElem? hi)
    have := lookup_binding _ _ hb h1
    simp only [knownFlags, lookup_append]
    rw [flagOf_eq]
    simp only [bindingOf] at this ⊢
    rw [this]; rfl
  · intro hy
    simp only [knownFlags, lookup_append]
    rw [hno yamlFlag fun b hb e => (h3 b hb).2 hy e]
    simp [hy]
  · intro n hnp
    simp only [knownFlags, lookup_append]
    rw [hno n fun b hb e => (h3 b hb).1 (e ▸ hnp)]
    by_cases hy : yamlFlag = []
    · simp [hy]
    · have : n ≠ yamlFlag := fun e => h2 hy (e ▸ hnp)
      have hb : (n == yamlFlag) = false := by simpa using this
      simp [hy, List.lookup_cons, hb]
  · intro n hne
    simp only [knownFlags, lookup_append] at hne
    by_cases hp : n ∈ w.pre.map (·.1)
    · exact .inr (.inr hp)
    · rw [(lookup_none_iff w.pre n).2 hp] at hne
      by_cases hb : ∃ b ∈ (visitExportedFields (.struct fs)).map bindingOf, b.flagName = n
      · obtain ⟨b, hb, rfl⟩ := hb
        obtain ⟨x, hx, rfl⟩ := List.mem_map.1 hb
        obtain ⟨names, y, h4, h5⟩ := (mem_visited hn x).1 hx
        refine .inl ⟨x.loc, names, x.kind, x.named, y, h4, ?_⟩
        rw [flagOf_eq, ← h5]; rfl
      · rw [hno n fun b h4 h5 => hb ⟨b, h4, h5⟩] at hne
        by_cases hy : yamlFlag = []
        · simp [hy] at hne
        · by_cases hny : n = yamlFlag
          · exact .inr (.inl ⟨hy, hny⟩)
          · have hb' : (n == yamlFlag) = false := by simpa using hny
            simp [hy, List.lookup_cons, hb'] at hne

theorem yamlOf_unique {w : World} {yamlFlag : Bytes} {l : List (Bytes × Bytes)} {eff eff' : Nat → YamlEff}
    (h : YamlOf w yamlFlag l eff) (h' : YamlOf w yamlFlag l eff') : eff = eff' := by
  unfold YamlOf at h h'
  split at h
  · rename_i hc
    rw [if_pos hc] at h'
    rw [h, h']
  · rename_i hc
    rw [if_neg hc] at h'
    obtain ⟨f, h1, h2⟩ := h
    obtain ⟨f', h1', h2'⟩ := h'
    rw [h1] at h1'; simp at h1'; subst h1'
    rw [h2] at h2'; simpa using h2'

/-- **C89.**  If `Load` returns, the command line was a list `l` of settings of existing flags, followed by other
arguments, and every configuration field whose variable yaml has not replaced holds: the last value that `l` gives to
its flag; else the value of its environment variable; else what the yaml file says; else the value it had before, which
is zero for fields behind pointers that were nil.  Flag and environment variable are named after the path of the field.
A field whose variable yaml has replaced holds what yaml says.  Missing: for those fields, flag and environment
(`C55_violated`). -/
theorem C89_load_partial (env : Nat → Ty) (fuel : Nat) (w : World) (yamlFlag : Bytes) (fs : Fields) (v' : Val) (m : Mem)
    (h : loadConf env fuel w yamlFlag (.struct fs) = some (.done v' m)) (hn : NamesOk v') :
    ∃ isBool l eff, KnowsFlags w yamlFlag v' isBool ∧ ArgList isBool w.args l ∧ YamlOf w yamlFlag l eff ∧
      ∀ loc names k nm x, IsField v' loc names k nm x → ∃ i : Nat, FieldNo v' i loc ∧
        (∀ y, eff i = .replace y → fieldAfter v' m loc = y) ∧ ((∀ y, eff i ≠ .replace y) →
        (∀ s, given l (flagOf names) = some s → w.pv k s ≠ none ∧ fieldAfter v' m loc = w.pv k s) ∧
        (given l (flagOf names) = none → ∀ s, w.env (envOf names) = some s →
          w.pv k s ≠ none ∧ fieldAfter v' m loc = w.pv k s) ∧
        (given l (flagOf names) = none → w.env (envOf names) = none → ∀ y, eff i = .set y → fieldAfter v' m loc = some y) ∧
        (given l (flagOf names) = none → w.env (envOf names) = none → eff i = .keep →
          fieldAfter v' m loc = some ((Val.struct fs).int loc))) := by
  obtain ⟨h1, h2⟩ := loadConf_done h
  obtain ⟨fs', rfl⟩ := init_struct h1
  obtain ⟨l, eff, h3, h4, h5⟩ := C55_partial _ _ _ _ _ h2
  obtain ⟨l', eff', h3', h4', h5'⟩ := C55_replaced _ _ _ _ _ h2
  have hl := C55_args_unique _ _ _ _ h3 h3'
  subst hl
  have he := yamlOf_unique h4 h4'
  subst he
  have hp : ¬ load w yamlFlag ((visitExportedFields (.struct fs')).map bindingOf)
      (fun i => match (visitExportedFields (.struct fs'))[i]? with | some x => (Val.struct fs').int x.loc | none => 0) = .panic := by
    rw [h2]; simp
  refine ⟨_, l, eff, knowsFlags hn ((not_congr (C81_panic _ _ _ _)).1 hp), h3, h4, ?_⟩
  intro loc names k nm x hf
  obtain ⟨i, hi, hi'⟩ := field_index hn hf
  have hfa : fieldAfter (.struct fs') m loc = m.view i := by simp [fieldAfter, hi']
  refine ⟨i, by simp [FieldNo, hi], fun y hy => by rw [hfa, h5' i y hy], fun hr => ?_⟩
  obtain ⟨h6, h7, h8, h9, h10⟩ := h5 i (bindingOf ⟨pathOf names, loc, k, nm⟩) (by simp [hi]) hr
  rw [hfa, flagOf_eq, envOf_eq]
  refine ⟨fun s hs => ?_, fun hg s hs => ?_, h9, fun a b c => ?_⟩
  · exact ⟨h7 s hs ▸ h6, h7 s hs⟩
  · exact ⟨h8 hg s hs ▸ h6, h8 hg s hs⟩
  · rw [h10 a b c]
    obtain ⟨is, -, -, hx⟩ := hf
    rw [init_int h1 hx]
    simp [hi, Val.int, hx]

/-! ## C82, for `Load` as a whole -/

/-- A value that the flag named `n` accepts. -/
def TakesValue (w : World) (v : Val) (n s : Bytes) : Prop :=
  (∀ loc names k nm x, IsField v loc names k nm x → flagOf names = n → w.pv k s ≠ none) ∧
    (n ∈ w.pre.map (·.1) → w.preOk n s = true)

theorem knowsFlags_unique {w : World} {yamlFlag : Bytes} {v : Val} {f g : Bytes → Option Bool}
    (hf : KnowsFlags w yamlFlag v f) (hg : KnowsFlags w yamlFlag v g) : f = g := by
  have key : ∀ {f g : Bytes → Option Bool}, KnowsFlags w yamlFlag v f → KnowsFlags w yamlFlag v g → ∀ n, f n ≠ none → f n = g n := by
    intro f g hf hg n hne
    rcases hf.only n hne with ⟨loc, names, k, nm, x, h, rfl⟩ | ⟨h, rfl⟩ | h
    · rw [hf.field _ _ _ _ _ h, hg.field _ _ _ _ _ h]
    · rw [hf.yaml h, hg.yaml h]
    · rw [hf.pre n h, hg.pre n h]
  funext n
  by_cases hne : f n = none
  · by_cases hne' : g n = none
    · rw [hne, hne']
    · exact (key hg hf n hne').symm
  · exact key hf hg n hne

theorem takes_iff {fs : Fields} (hn : NamesOk (.struct fs)) (w : World) (n s : Bytes) :
    Accepts w ((visitExportedFields (.struct fs)).map bindingOf) n s ↔ TakesValue w (.struct fs) n s := by
  refine and_congr ⟨fun h loc names k nm x hf e => ?_, fun h b hb e => ?_⟩ Iff.rfl
  · obtain ⟨i, hi, -⟩ := field_index hn hf
    refine h _ (List.mem_map_of_mem (List.mem_of_getElem? hi)) ?_
    rw [← e, flagOf_eq]; rfl
  · obtain ⟨x, hx, rfl⟩ := List.mem_map.1 hb
    obtain ⟨names, y, h4, h5⟩ := (mem_visited hn x).1 hx
    refine h _ names _ _ y h4 ?_
    rw [flagOf_eq, ← h5]; exact e

/-- If `Load(&struct, yamlFlag)` does not panic, it returns exactly if the command line is a list of settings of existing
flags, followed by other arguments, the flags accept their values, the yaml file named can be read and decoded, and the
environment variables of the fields have values for them; otherwise the process exits. -/
theorem C82_conf (env : Nat → Ty) (fuel : Nat) (w : World) (yamlFlag : Bytes) (fs : Fields) (v' : Val) (r : ConfRes)
    (hi : initStruct env fuel (.struct fs) = some v') (hn : NamesOk v')
    (h : loadConf env fuel w yamlFlag (.struct fs) = some r) (hp : r ≠ .panic) :
    ((∃ m, r = .done v' m) ↔ ∃ isBool l eff, KnowsFlags w yamlFlag v' isBool ∧ ArgList isBool w.args l ∧
      (∀ p ∈ l, TakesValue w v' p.1 p.2) ∧ YamlOf w yamlFlag l eff ∧
      ∀ loc names k nm x, IsField v' loc names k nm x → ∀ s, w.env (envOf names) = some s → w.pv k s ≠ none) ∧
    ((¬ ∃ m, r = .done v' m) → r = .exit) := by
  obtain ⟨fs', rfl⟩ := init_struct hi
  simp only [loadConf, hi] at h
  generalize hld : load w yamlFlag ((visitExportedFields (.struct fs')).map bindingOf)
      (fun i => match (visitExportedFields (.struct fs'))[i]? with | some x => (Val.struct fs').int x.loc | none => 0) = ld at h
  have hlp : ld ≠ .panic := by rintro rfl; simp at h; exact hp h.symm
  have hdone : (∃ m, r = .done (.struct fs') m) ↔ ∃ m, ld = .done m := by
    cases ld with
    | panic => exact absurd rfl hlp
    | exit => simp at h; subst h; simp
    | done m => simp at h; subst h; simp
  refine ⟨?_, fun hno => ?_⟩
  · have hk := knowsFlags hn (w := w) (yamlFlag := yamlFlag) ((not_congr (C81_panic _ _ _ _)).1 (hld.symm ▸ hlp))
    have h82 := C82_exit w yamlFlag ((visitExportedFields (.struct fs')).map bindingOf) _ (hld.symm ▸ hlp)
    rw [hld] at h82
    rw [hdone, h82]
    have henv : (∀ b ∈ (visitExportedFields (.struct fs')).map bindingOf, ∀ s, w.env b.envName = some s → w.pv b.kind s ≠ none) ↔
        ∀ loc names k nm x, IsField (.struct fs') loc names k nm x → ∀ s, w.env (envOf names) = some s → w.pv k s ≠ none := by
      constructor
      · intro h loc names k nm x hf s hs
        obtain ⟨i, hi, -⟩ := field_index hn hf
        rw [envOf_eq] at hs
        exact h _ (List.mem_map_of_mem (List.mem_of_getElem? hi)) s hs
      · intro h b hb s hs
        obtain ⟨x, hx, rfl⟩ := List.mem_map.1 hb
        obtain ⟨names, y, h4, h5⟩ := (mem_visited hn x).1 hx
        refine h _ names _ _ y h4 s ?_
        rw [envOf_eq, ← h5]; exact hs
    constructor
    · rintro ⟨l, eff, h1, h2, h3, h4⟩
      exact ⟨_, l, eff, hk, h1, fun p hp => (takes_iff hn w _ _).1 (h2 p hp), h3, henv.1 h4⟩
    · rintro ⟨isBool, l, eff, h0, h1, h2, h3, h4⟩
      obtain rfl := knowsFlags_unique h0 hk
      exact ⟨l, eff, h1, fun p hp => (takes_iff hn w _ _).2 (h2 p hp), h3, henv.2 h4⟩
  · rw [hdone] at hno
    cases ld with
    | panic => exact absurd rfl hlp
    | exit => simp at h; exact h.symm
    | done m => exact absurd ⟨m, rfl⟩ hno

/-! ## C90 -/

theorem nodup_map_iff {α β γ : Type} (f : α → β) (g : α → γ) : ∀ l : List α, (l.map f).Nodup →
    ((l.map g).Nodup ↔ ∀ x ∈ l, ∀ y ∈ l, g x = g y → f x = f y)
  | [], _ => by simp
  | a :: l, h => by
    simp only [List.map_cons, List.nodup_cons] at h ⊢
    rw [nodup_map_iff f g l h.2]
    constructor
    · rintro ⟨h1, h2⟩ x hx y hy e
      rcases List.mem_cons.1 hx with hx' | hx' <;> rcases List.mem_cons.1 hy with hy' | hy'
      · rw [hx', hy']
      · exact absurd (List.mem_map.2 ⟨y, hy', by rw [← hx', e]⟩) h1
      · exact absurd (List.mem_map.2 ⟨x, hx', by rw [← hy', e]⟩) h1
      · exact h2 x hx' y hy' e
    · intro h1
      refine ⟨fun hm => ?_, fun x hx y hy e => h1 x (by simp [hx]) y (by simp [hy]) e⟩
      obtain ⟨y, hy, e⟩ := List.mem_map.1 hm
      exact h.1 (List.mem_map.2 ⟨y, hy, h1 y (by simp [hy]) a (by simp) e⟩)

theorem filter_pathOf : ∀ names : List Bytes, (∀ n ∈ names, dot ∉ n) → (pathOf names).filter (· ≠ dot) = names.flatten
  | [], _ => rfl
  | [n], h => by
    have : dot ∉ n := h n (by simp)
    simp only [pathOf, List.intercalate, List.intersperse, List.flatten_cons, List.flatten_nil, List.append_nil]
    rw [List.filter_eq_self]
    intro b hb
    simp only [ne_eq, decide_not, Bool.not_eq_eq_eq_not, Bool.not_true, decide_eq_false_iff_not]
    rintro rfl; exact this hb
  | n :: k :: ns, h => by
    have e : pathOf (n :: k :: ns) = n ++ dot :: pathOf (k :: ns) := intercalate_cons_ne _ _ _ (by simp)
    have ih := filter_pathOf (k :: ns) (fun n hn => h n (List.mem_cons_of_mem _ hn))
    have hn : n.filter (· ≠ dot) = n := by
      rw [List.filter_eq_self]
      intro b hb
      simp only [ne_eq, decide_not, Bool.not_eq_eq_eq_not, Bool.not_true, decide_eq_false_iff_not]
      rintro rfl; exact h n (by simp) hb
    rw [e, List.filter_append, hn, List.filter_cons_of_neg (by simp), ih]
    simp

/-- Field names as Go programs have them, restricted to ASCII initials and without underscores (no identifier
contains `-` or `=`). -/
def PlainNames (v : Val) : Prop := ∀ loc names k nm x, IsField v loc names k nm x →
  Exported names ∧ 45 ∉ pathOf names ∧ 95 ∉ pathOf names ∧ 61 ∉ pathOf names

theorem loop_no_equals {sep : UInt8} {tr : UInt8 → UInt8} (hs : sep ≠ 61) (ht : ∀ b, b ≠ 61 → tr b ≠ 61) :
    ∀ (p : Bytes) (pd : Bool), 61 ∉ p → 61 ∉ loop sep tr pd p
  | [], _, _ => by simp [loop]
  | b :: p, pd, h => by
    have h1 : b ≠ 61 := fun e => h (by simp [e])
    have h2 : 61 ∉ p := fun e => h (by simp [e])
    have ih := fun pd => loop_no_equals hs ht p pd h2
    simp only [loop]
    split
    · cases pd <;> simp [ih, Ne.symm hs, Ne.symm (ht b h1)]
    · split <;> simp [ih, Ne.symm hs, Ne.symm (ht b h1)]

/-- Field names are identifiers as far as it matters here: not empty, without `-`, `.` and `=`. -/
def Identifiers (v : Val) : Prop := ∀ loc names k nm x, IsField v loc names k nm x → ∀ n ∈ names,
  n ≠ [] ∧ 45 ∉ n ∧ 46 ∉ n ∧ 61 ∉ n

theorem pathOf_cons (n : Bytes) : ∀ ns : List Bytes, ∃ r, pathOf (n :: ns) = n ++ r
  | [] => ⟨[], by simp [pathOf, List.intercalate]⟩
  | k :: ns => ⟨_, intercalate_cons_ne _ _ _ (by simp)⟩

theorem not_mem_pathOf {c : UInt8} (hc : c ≠ 46) : ∀ names : List Bytes, (∀ n ∈ names, c ∉ n) ↔ c ∉ pathOf names
  | [] => by simp [pathOf, List.intercalate]
  | [n] => by simp [pathOf, List.intercalate]
  | n :: k :: ns => by
    have e : pathOf (n :: k :: ns) = n ++ dot :: pathOf (k :: ns) := intercalate_cons_ne _ _ _ (by simp)
    have ih := not_mem_pathOf hc (k :: ns)
    rw [e, List.mem_append, List.mem_cons, not_or, not_or, ← ih]
    constructor
    · exact fun h => ⟨h n (by simp), hc, fun m hm => h m (List.mem_cons_of_mem _ hm)⟩
    · rintro ⟨h1, -, h2⟩ m hm
      rcases List.mem_cons.1 hm with rfl | hm
      · exact h1
      · exact h2 m hm

/-- The names of fields do not begin with `-` and do not contain `=`. -/
theorem not_bad {names : List Bytes} (h : ∀ n ∈ names, n ≠ [] ∧ 45 ∉ n ∧ 46 ∉ n ∧ 61 ∉ n) :
    ¬ BadName (flagStyle (pathOf names)) ∧ ¬ BadName (envStyle (pathOf names)) := by
  have h61 : 61 ∉ pathOf names := (not_mem_pathOf (by decide) names).1 fun n hn => (h n hn).2.2.2
  have e1 : ∀ b : UInt8, b ≠ 61 → lowerASCII b ≠ 61 := all_bytes (by decide +kernel)
  have e2 : ∀ b : UInt8, b ≠ 61 → upperASCII b ≠ 61 := all_bytes (by decide +kernel)
  have e3 : ∀ b : UInt8, b ≠ 45 → lowerASCII b ≠ 45 := all_bytes (by decide +kernel)
  have e4 : ∀ b : UInt8, b ≠ 45 → upperASCII b ≠ 45 := all_bytes (by decide +kernel)
  have hd : ∀ (sep : UInt8) (tr : UInt8 → UInt8), (∀ b : UInt8, b ≠ 45 → tr b ≠ 45) → ∀ x,
      loop sep tr true (pathOf names) ≠ 45 :: x := by
    intro sep tr ht x hx
    match names, h with
    | [], _ => simp [pathOf, List.intercalate, loop] at hx
    | [] :: ns, h => exact (h [] (by simp)).1 rfl
    | (b :: n) :: ns, h =>
      obtain ⟨-, h1, h2, -⟩ := h (b :: n) (by simp)
      obtain ⟨r, hr⟩ := pathOf_cons (b :: n) ns
      rw [hr] at hx
      have h1 : b ≠ 45 := fun e => h1 (by simp [e])
      have h2 : b ≠ dot := fun e => h2 (by simp [e, dot])
      simp only [List.cons_append, loop] at hx
      split at hx
      · simp only [if_true, List.nil_append, List.cons.injEq] at hx
        exact ht b h1 hx.1
      · simp only [if_neg h2, List.cons.injEq] at hx
        exact ht b h1 hx.1
  rw [flagStyle_loop, envStyle_loop]
  refine ⟨?_, ?_⟩ <;> rintro (⟨x, hx⟩ | hx)
  · exact hd _ _ e3 _ hx
  · exact loop_no_equals (by decide) e1 _ _ h61 hx
  · exact hd _ _ e4 _ hx
  · exact loop_no_equals (by decide) e2 _ _ h61 hx

/-- **C90.**  `Load` panics exactly if the type of some configuration field is declared from a basic type, or two fields
have the same flag or the same environment variable, or one of the flags exists already, or, since Go 1.17, the yaml
flag begins with `-` or contains `=`. -/
theorem C90_panic (env : Nat → Ty) (fuel : Nat) (w : World) (yamlFlag : Bytes) (fs : Fields) (v' : Val)
    (h : initStruct env fuel (.struct fs) = some v') (hn : NamesOk v') (hp : Identifiers v') :
    loadConf env fuel w yamlFlag (.struct fs) = some .panic ↔
      (∃ loc names k x, IsField v' loc names k true x) ∨
      (∃ loc names k nm x loc' names' k' nm' x', IsField v' loc names k nm x ∧ IsField v' loc' names' k' nm' x' ∧
        loc ≠ loc' ∧ (flagOf names = flagOf names' ∨ envOf names = envOf names')) ∨
      (yamlFlag ≠ [] ∧ yamlFlag ∈ w.pre.map (·.1)) ∨
      (∃ loc names k nm x, IsField v' loc names k nm x ∧
        (flagOf names ∈ w.pre.map (·.1) ∨ (yamlFlag ≠ [] ∧ flagOf names = yamlFlag))) ∨
      (w.strict = true ∧ yamlFlag ≠ [] ∧ BadName yamlFlag) := by
  obtain ⟨fs', rfl⟩ := init_struct h
  have hl : loadConf env fuel w yamlFlag (.struct fs) = some .panic ↔
      load w yamlFlag ((visitExportedFields (.struct fs')).map bindingOf)
        (fun i => match (visitExportedFields (.struct fs'))[i]? with | some x => (Val.struct fs').int x.loc | none => 0) = .panic := by
    simp only [loadConf, h]
    split
    · rename_i hh; exact ⟨fun _ => hh, fun _ => rfl⟩
    · rename_i hh; exact ⟨fun e => by simp at e, fun e => by cases hh.symm.trans e⟩
    · rename_i hh; exact ⟨fun e => by simp at e, fun e => by cases hh.symm.trans e⟩
  rw [hl, C81_panic]
  have field_of : ∀ x ∈ visitExportedFields (.struct fs'), ∃ names y, IsField (.struct fs') x.loc names x.kind x.named y ∧
      x.path = pathOf names := fun x hx => (mem_visited hn x).1 hx
  have of_field : ∀ loc names k nm x, IsField (.struct fs') loc names k nm x →
      ⟨pathOf names, loc, k, nm⟩ ∈ visitExportedFields (.struct fs') := fun loc names k nm x hf =>
    (mem_visited hn ⟨pathOf names, loc, k, nm⟩).2 ⟨names, x, hf, rfl⟩
  -- names and flags
  have hdup : ∀ (g : Binding → Bytes) (of : List Bytes → Bytes),
      (∀ loc names k nm, g (bindingOf ⟨pathOf names, loc, k, nm⟩) = of names) →
      (¬ (((visitExportedFields (.struct fs')).map bindingOf).map g).Nodup ↔
        ∃ loc names k nm x loc' names' k' nm' x', IsField (.struct fs') loc names k nm x ∧
          IsField (.struct fs') loc' names' k' nm' x' ∧ loc ≠ loc' ∧ of names = of names') := by
    intro g of hg
    rw [List.map_map, nodup_map_iff (fun x : Visit => x.loc) (g ∘ bindingOf) _ (C54_visit fs').2]
    constructor
    · intro hnot
      apply Classical.byContradiction
      intro hc
      refine hnot fun x hx y hy e => ?_
      obtain ⟨n1, y1, hf1, hp1⟩ := field_of x hx
      obtain ⟨n2, y2, hf2, hp2⟩ := field_of y hy
      apply Classical.byContradiction
      intro hne
      refine hc ⟨_, _, _, _, _, _, _, _, _, _, hf1, hf2, hne, ?_⟩
      rw [← hg x.loc _ x.kind x.named, ← hg y.loc _ y.kind y.named, ← hp1, ← hp2]; exact e
    · rintro ⟨loc, names, k, nm, x, loc', names', k', nm', x', h1, h2, h3, h4⟩ hall
      rw [← hg loc _ k nm, ← hg loc' _ k' nm'] at h4
      exact h3 (hall _ (of_field _ _ _ _ _ h1) _ (of_field _ _ _ _ _ h2) h4)
  have hflag := hdup (·.flagName) flagOf (fun _ names _ _ => (flagOf_eq names).symm)
  have henv := hdup (·.envName) envOf (fun _ names _ _ => (envOf_eq names).symm)
  have hnamed : (∃ b ∈ (visitExportedFields (.struct fs')).map bindingOf, b.named = true) ↔
      ∃ loc names k x, IsField (.struct fs') loc names k true x := by
    constructor
    · rintro ⟨b, hb, hb'⟩
      obtain ⟨x, hx, rfl⟩ := List.mem_map.1 hb
      obtain ⟨names, y, h1, -⟩ := field_of x hx
      simp only [bindingOf] at hb'
      exact ⟨_, _, _, _, hb' ▸ h1⟩
    · rintro ⟨loc, names, k, x, hf⟩
      exact ⟨_, List.mem_map_of_mem (of_field _ _ _ _ _ hf), rfl⟩
  have hpre : (∃ b ∈ (visitExportedFields (.struct fs')).map bindingOf,
        b.flagName ∈ w.pre.map (·.1) ∨ (yamlFlag ≠ [] ∧ b.flagName = yamlFlag)) ↔
      ∃ loc names k nm x, IsField (.struct fs') loc names k nm x ∧
        (flagOf names ∈ w.pre.map (·.1) ∨ (yamlFlag ≠ [] ∧ flagOf names = yamlFlag)) := by
    constructor
    · rintro ⟨b, hb, hb'⟩
      obtain ⟨x, hx, rfl⟩ := List.mem_map.1 hb
      obtain ⟨names, y, h1, h2⟩ := field_of x hx
      refine ⟨_, _, _, _, _, h1, ?_⟩
      rw [flagOf_eq, ← h2]; exact hb'
    · rintro ⟨loc, names, k, nm, x, hf, hb⟩
      rw [flagOf_eq] at hb
      exact ⟨_, List.mem_map_of_mem (of_field _ _ _ _ _ hf), hb⟩
  have hbad : ¬ ∃ b ∈ (visitExportedFields (.struct fs')).map bindingOf, BadName b.flagName ∨ BadName b.envName := by
    rintro ⟨b, hb, hb'⟩
    obtain ⟨x, hx, rfl⟩ := List.mem_map.1 hb
    obtain ⟨names, y, h1, h2⟩ := field_of x hx
    have a := hp _ _ _ _ _ h1
    simp only [bindingOf, h2] at hb'
    exact hb'.elim (not_bad a).1 (not_bad a).2
  rw [hflag, henv, hnamed, hpre]
  simp only [hbad, or_false]
  constructor
  · rintro (h1 | ⟨l, n, k, m, x, l', n', k', m', x', h1, h2, h3, h4⟩ | ⟨l, n, k, m, x, l', n', k', m', x', h1, h2, h3, h4⟩ |
      h1 | h1 | h1)
    · exact .inl h1
    · exact .inr (.inl ⟨l, n, k, m, x, l', n', k', m', x', h1, h2, h3, .inr h4⟩)
    · exact .inr (.inl ⟨l, n, k, m, x, l', n', k', m', x', h1, h2, h3, .inl h4⟩)
    · exact .inr (.inr (.inl h1))
    · exact .inr (.inr (.inr (.inl h1)))
    · exact .inr (.inr (.inr (.inr h1)))
  · rintro (h1 | ⟨l, n, k, m, x, l', n', k', m', x', h1, h2, h3, h4 | h4⟩ | h1 | h1 | h1)
    · exact .inl h1
    · exact .inr (.inr (.inl ⟨l, n, k, m, x, l', n', k', m', x', h1, h2, h3, h4⟩))
    · exact .inr (.inl ⟨l, n, k, m, x, l', n', k', m', x', h1, h2, h3, h4⟩)
    · exact .inr (.inr (.inr (.inl h1)))
    · exact .inr (.inr (.inr (.inr (.inl h1))))
    · exact .inr (.inr (.inr (.inr (.inr h1))))

/-- **C90**, when names clash: for field names that begin with an ASCII capital and have no underscores, two fields have
the same flag, and the same environment variable, exactly if their names written one after the other are the same
(for other names see `C52_env_violated` and `C52_nonascii_violated`). -/
theorem C90_clash (v : Val) (hp : PlainNames v) (loc loc' : List Step) (names names' : List Bytes) (k k' : Kind)
    (nm nm' : Bool) (x x' : Int) (h : IsField v loc names k nm x) (h' : IsField v loc' names' k' nm' x') :
    (flagOf names = flagOf names' ↔ names.flatten = names'.flatten) ∧
    (envOf names = envOf names' ↔ names.flatten = names'.flatten) := by
  obtain ⟨a1, a2, a3, -⟩ := hp _ _ _ _ _ h
  obtain ⟨b1, b2, b3, -⟩ := hp _ _ _ _ _ h'
  have e1 := C52_flag names names' a1 b1 a2 b2
  have e2 := C52_env_partial names names' a1 b1 a3 b3
  rw [filter_pathOf _ a1.dot, filter_pathOf _ b1.dot] at e1 e2
  rw [flagOf_eq, flagOf_eq, envOf_eq, envOf_eq]
  exact ⟨e1, e2⟩

/-! ## Examples -/

/-- `struct { A *struct { Bc int }; d *int }` -/
def exConf : Fields := .cons ⟨ascii "A", true, false, {}⟩ (.nil 0) (.cons ⟨ascii "d", false, false, {}⟩ (.nil 1) .nil)

def exEnv : Nat → Ty := fun n =>
  if n = 0 then .struct (.cons ⟨ascii "Bc", true, false, {}⟩ (.basic .int false) .nil) else .basic .int false

/-- With `-a-bc=7` the new field `A.Bc` gets 7. -/
example : ∃ v m, loadConf exEnv 5 (exWorld [ascii "-a-bc=" ++ [7]] (fun _ => some [6])) [99] (.struct exConf) = some (.done v m) ∧
    IsField v [.field 0, .deref, .field 0] [ascii "A", ascii "Bc"] .int false 0 ∧
    fieldAfter v m [.field 0, .deref, .field 0] = some 7 := ⟨_, _, rfl, ⟨_, rfl, rfl, rfl⟩, rfl⟩

/-- Without it, it gets the value of `A_BC`. -/
example : ∃ v m, loadConf exEnv 5 (exWorld [] (fun n => if n = ascii "A_BC" then some [6] else none)) [99] (.struct exConf) =
    some (.done v m) ∧ fieldAfter v m [.field 0, .deref, .field 0] = some 6 := ⟨_, _, rfl, rfl⟩

/-- A value that is not one for the field makes the process exit. -/
example : loadConf exEnv 5 (exWorld [ascii "-a-bc=" ++ [7, 7]] (fun _ => none)) [99] (.struct exConf) = some .exit := rfl

/-- All fields in a value, visible or not. -/
inductive Within : FieldInfo → Val → Prop
  | here {f fs i w} : Fields.get? fs i = some (f, w) → Within f (.struct fs)
  | field {f g fs i w} : Fields.get? fs i = some (g, w) → Within f w → Within f (.struct fs)
  | deref {f w} : Within f w → Within f (.ptr w)

theorem visible_within : ∀ (loc : List Step) (b : Bool) (v : Val) (is : List FieldInfo), visible b v loc = some is →
    ∀ f ∈ is, Within f v
  | [], b, v, is, h, f, hf => by
    have : is = [] := by cases b <;> cases v <;> simp [visible] at h <;> exact h
    simp [this] at hf
  | .field i :: p, b, v, is, h, f, hf => by
    cases v with
    | struct fs =>
      simp only [visible] at h
      split at h
      · rename_i g w hg
        split at h
        · simp only [Option.map_eq_some_iff] at h
          obtain ⟨is', h1, rfl⟩ := h
          rcases List.mem_cons.1 hf with rfl | hf
          · exact .here hg
          · exact .field hg (visible_within p true w is' h1 f hf)
        · simp at h
      · simp at h
    | _ => cases b <;> simp [visible] at h
  | .deref :: p, b, v, is, h, f, hf => by
    cases v with
    | ptr w =>
      cases b with
      | true => simp only [visible] at h; exact .deref (visible_within p false w is h f hf)
      | false => simp [visible] at h
    | _ => cases b <;> simp [visible] at h

/-- `struct { A struct { B int }; AB int }` -/
def exClash : Val := .struct
  (.cons ⟨ascii "A", true, false, {}⟩ (.struct (.cons ⟨ascii "B", true, false, {}⟩ (.basic .int false 0) .nil))
    (.cons ⟨ascii "AB", true, false, {}⟩ (.basic .int false 0) .nil))

theorem within_cons {f g : FieldInfo} {v : Val} {fs : Fields} (h : Within f (.struct (.cons g v fs))) :
    f = g ∨ Within f v ∨ Within f (.struct fs) := by
  generalize hs : Val.struct (.cons g v fs) = s at h
  cases h with
  | @here _ i w h =>
    cases hs
    cases i with
    | zero => simp only [Fields.get?, Option.some.injEq, Prod.mk.injEq] at h; exact .inl h.1.symm
    | succ i => exact .inr (.inr (.here h))
  | @field g' _ i w h h' =>
    cases hs
    cases i with
    | zero => simp only [Fields.get?, Option.some.injEq, Prod.mk.injEq] at h; exact .inr (.inl (h.2 ▸ h'))
    | succ i => exact .inr (.inr (.field h h'))
  | deref => cases hs

theorem within_nil {f : FieldInfo} : ¬ Within f (.struct .nil) := by
  intro h
  generalize hs : Val.struct .nil = s at h
  cases h with
  | here h => cases hs; simp [Fields.get?] at h
  | field h => cases hs; simp [Fields.get?] at h
  | deref => cases hs

theorem exClash_within {f : FieldInfo} (h : Within f exClash) :
    f.anon = false ∧ (f.name = ascii "A" ∨ f.name = ascii "B" ∨ f.name = ascii "AB") := by
  have leaf : ∀ {f k b x}, ¬ Within f (.basic k b x) := by intro f k b x h; cases h
  rcases within_cons h with rfl | h | h
  · simp
  · rcases within_cons h with rfl | h | h
    · simp
    · exact absurd h leaf
    · exact absurd h within_nil
  · rcases within_cons h with rfl | h | h
    · simp
    · exact absurd h leaf
    · exact absurd h within_nil

/-- The conditions on names hold, and the struct cannot be loaded: `A.B` and `AB` are the flag `a-b`. -/
example : NamesOk exClash ∧ Identifiers exClash ∧ PlainNames exClash ∧
    initStruct exEnv 5 exClash = some exClash ∧
    IsField exClash [.field 0, .field 0] [ascii "A", ascii "B"] .int false 0 ∧
    IsField exClash [.field 1] [ascii "AB"] .int false 0 ∧ flagOf [ascii "A", ascii "B"] = flagOf [ascii "AB"] := by
  have key : ∀ loc names k nm x, IsField exClash loc names k nm x → names ≠ [] ∧
      ∀ n ∈ names, n = ascii "A" ∨ n = ascii "B" ∨ n = ascii "AB" := by
    rintro loc names k nm x ⟨is, h1, rfl, h2⟩
    refine ⟨fun e => ?_, fun n hn => ?_⟩
    · match loc, is with
      | [], _ => simp [exClash, Val.get] at h2
      | _ :: _, [] => 
        rename_i s p
        cases s <;> simp [exClash, visible] at h1
        split at h1 <;> simp at h1
      | _ :: _, f :: is =>
        have := (exClash_within (visible_within _ _ _ _ h1 f (by simp))).1
        simp [this] at e
    · obtain ⟨f, hf, rfl⟩ := List.mem_map.1 hn
      exact (exClash_within (visible_within _ _ _ _ h1 f (List.mem_filter.1 hf).1)).2
  refine ⟨fun loc is h f hf => ?_, fun loc names k nm x h n hn => ?_, fun loc names k nm x h => ?_, rfl, ⟨_, rfl, rfl, rfl⟩,
    ⟨_, rfl, rfl, rfl⟩, by decide⟩
  · rcases (exClash_within (visible_within _ _ _ _ h f hf)).2 with e | e | e <;> rw [e] <;> decide
  · rcases (key _ _ _ _ _ h).2 n hn with rfl | rfl | rfl <;> decide
  · have hk := (key _ _ _ _ _ h).2
    refine ⟨⟨(key _ _ _ _ _ h).1, fun n hn => ?_, fun n hn => ?_⟩, ?_, ?_, ?_⟩
    · rcases hk n hn with rfl | rfl | rfl <;> exact ⟨_, _, rfl, by decide⟩
    · rcases hk n hn with rfl | rfl | rfl <;> decide
    all_goals
      refine (not_mem_pathOf (by decide) names).1 fun n hn => ?_
      rcases hk n hn with rfl | rfl | rfl <;> decide

/-- `struct { A struct { B int }; AB int }` cannot be loaded. -/
example : loadConf exEnv 5 (exWorld [] (fun _ => none)) [99] (.struct
    (.cons ⟨ascii "A", true, false, {}⟩ (.struct (.cons ⟨ascii "B", true, false, {}⟩ (.basic .int false 0) .nil))
      (.cons ⟨ascii "AB", true, false, {}⟩ (.basic .int false 0) .nil))) = some .panic := rfl

end Gears.Conf
