import Verif.Conf.Yaml
import Verif.Conf.ValuesProps

/-
Properties C107–C109: what a yaml file does to a configuration struct.
-/

namespace Gears.Conf.Yaml

/-! ## Specification -/

/-- The node of the entry whose key has the text `s`. -/
def Entries.find (L : Lib) (s : Bytes) : Entries → Option Node
  | .nil => none
  | .cons (.scalar str t) n es => if t = s ∧ scalarRes L str t ≠ .null then some n else es.find L s
  | .cons _ _ es => es.find L s

/-- The key of a field: the one of its tag, or its name in lower case. -/
def keyName (L : Lib) (f : FieldInfo) : Bytes :=
  match f.yaml.key with
  | [] => toLower L f.name
  | c :: s => c :: s

/-- The node that a mapping has for a field: fields that are not exported and not embedded, or whose tag is `-`, have
none; an inlined field has the mapping itself. -/
def child (L : Lib) (es : Entries) (f : FieldInfo) : Option Node :=
  if (f.exported = false ∧ f.anon = false) ∨ f.yaml.skip = true then none
  else if f.yaml.inl = true then some (.map es)
  else es.find L (keyName L f)

/-- Every key is a scalar. -/
def Entries.scalars : Entries → Prop
  | .nil => True
  | .cons k _ es => (∃ str s, k = .scalar str s) ∧ es.scalars

/-- What happens to a variable. -/
inductive Eff where
  | keep
  | set (y : Int)
  /-- a pointer on the way to it becomes nil -/
  | gone
  /-- an error -/
  | bad
deriving Repr, DecidableEq

/-- What a node does to the variable at a location of a value. -/
def effect (L : Lib) : List Step → Node → Val → Eff
  | [], n, .basic k _ _ =>
    match n with
    | .scalar str s =>
      if scalarRes L str s = .null then .keep
      else match conv L k (scalarRes L str s) s with
        | some y => .set y
        | none => .bad
    | _ => .bad
  | .deref :: p, n, .ptr w => if n.isNull L then .gone else effect L p n w
  | .field i :: p, n, .struct fs =>
    match n with
    | .map es =>
      match fs.get? i with
      | some (f, w) =>
        match child L es f with
        | some n => effect L p n w
        | none => .keep
      | none => .keep
    | n => if n.isNull L then .keep else .bad
  | _, _, _ => .keep

def After : Eff → Kind → Bool → Int → Option Val → Prop
  | .keep, k, nm, x, o => o = some (.basic k nm x)
  | .set y, k, nm, _, o => o = some (.basic k nm y)
  | .gone, _, _, _, o => o = none
  | .bad, _, _, _, _ => False

/-! ## Lemmas: locations -/

theorem get_append : ∀ (p q : List Step) (v : Val), v.get (p ++ q) = (v.get p).bind (·.get q)
  | [], q, v => by simp [get_nil]
  | .field i :: p, q, v => by
    cases v <;> simp [Val.get]
    rename_i fs
    cases h : fs.get? i with
    | none => simp
    | some x => simp [get_append p q]
  | .deref :: p, q, v => by
    cases v <;> simp [Val.get]
    exact get_append p q _

theorem get?_set : ∀ (fs : Fields) (i j : Nat) (w : Val),
    (Fields.set fs i w).get? j = if j = i then (fs.get? i).map (fun x => (x.1, w)) else fs.get? j
  | .nil, i, j, w => by simp [Fields.set, Fields.get?]
  | .cons f v fs, 0, j, w => by cases j <;> simp [Fields.set, Fields.get?]
  | .cons f v fs, i + 1, j, w => by
    cases j with
    | zero => simp [Fields.set, Fields.get?]
    | succ j => simp [Fields.set, Fields.get?, get?_set fs i j w]

theorem map_done {d : Dec} {f : Val → Val} {v' : Val} {e : Bool} (h : d.map f = .done v' e) :
    ∃ w, d = .done w e ∧ v' = f w := by
  cases d <;> simp [Dec.map] at h
  exact ⟨_, by rw [h.2], h.1.symm⟩

theorem orErr_done {d : Dec} {e e' : Bool} {v' : Val} (h : d.orErr e = .done v' e') :
    ∃ e'', d = .done v' e'' ∧ e' = (e || e'') := by
  cases d <;> simp [Dec.orErr] at h
  exact ⟨_, by rw [h.1], h.2.symm⟩

theorem modify_spec {f : Val → Dec} {e : Bool} : ∀ {p : List Step} {v v' : Val}, modify f p v = .done v' e →
    ∃ w w', v.get p = some w ∧ f w = .done w' e ∧ v'.get p = some w' ∧
      ∀ q, ¬ p <+: q → ¬ q <+: p → v'.get q = v.get q
  | [], v, v', h => ⟨v, v', by simp [get_nil], h, by simp [get_nil], fun q hq => absurd (List.nil_prefix) hq⟩
  | .field i :: p, v, v', h => by
    cases v <;> simp only [modify] at h <;> try (simp at h; done)
    rename_i fs
    split at h
    · rename_i g w hw
      obtain ⟨w1, h1, rfl⟩ := map_done h
      obtain ⟨u, u', h2, h3, h4, h5⟩ := modify_spec h1
      refine ⟨u, u', by simp [Val.get, hw, h2], h3, by simp [Val.get, get?_set, hw, h4], fun q hq hq' => ?_⟩
      cases q with
      | nil => exact absurd List.nil_prefix hq'
      | cons s q =>
        cases s with
        | deref => simp [Val.get]
        | field j =>
          simp only [Val.get, get?_set]
          by_cases e : j = i
          · subst e
            simp only [hw, Option.map_some, if_true]
            refine h5 q (fun hp => hq ?_) (fun hp => hq' ?_)
            · exact List.cons_prefix_cons.2 ⟨rfl, hp⟩
            · exact List.cons_prefix_cons.2 ⟨rfl, hp⟩
          · rw [if_neg e]
    · simp at h
  | .deref :: p, v, v', h => by
    cases v <;> simp only [modify] at h <;> try (simp at h; done)
    rename_i w
    obtain ⟨w1, h1, rfl⟩ := map_done h
    obtain ⟨u, u', h2, h3, h4, h5⟩ := modify_spec h1
    refine ⟨u, u', by simp [Val.get, h2], h3, by simp [Val.get, h4], fun q hq hq' => ?_⟩
    cases q with
    | nil => exact absurd List.nil_prefix hq'
    | cons s q =>
      cases s with
      | field j => simp [Val.get]
      | deref =>
        simp only [Val.get]
        exact h5 q (fun hp => hq (List.cons_prefix_cons.2 ⟨rfl, hp⟩)) (fun hp => hq' (List.cons_prefix_cons.2 ⟨rfl, hp⟩))

/-! ## Lemmas: the names of fields -/

theorem append_ok {a b : Infos} {l : List Info} (h : a.append b = .ok l) : ∃ l1 l2, a = .ok l1 ∧ b = .ok l2 ∧ l = l1 ++ l2 := by
  cases a <;> cases b <;> simp [Infos.append] at h
  exact ⟨_, _, rfl, rfl, h.symm⟩

theorem under_ok {a : Infos} {s : Step} {l : List Info} (h : a.under s = .ok l) :
    ∃ l', a = .ok l' ∧ l = l'.map fun i => { i with path := s :: i.path } := by
  cases a <;> simp [Infos.under] at h
  exact ⟨_, rfl, h.symm⟩

/-- A field that has a key or is inlined. -/
def Used (f : FieldInfo) : Prop := (f.exported = true ∨ f.anon = true) ∧ f.yaml.skip = false

/-- The fields in the list: those with a key of their own, and those of inlined fields. -/
theorem infosF_spec (L : Lib) : ∀ (fs : Fields) (i0 : Nat) (l : List Info), infosF L i0 fs = .ok l →
    (∀ a ∈ l, ∃ j f w, fs.get? j = some (f, w) ∧ Used f ∧
      (f.yaml.inl = false ∧ a = ⟨keyOf L f, [.field (i0 + j)], !f.exported⟩ ∨
       f.yaml.inl = true ∧ ∃ l', infosV L w = .ok l' ∧ ∃ a' ∈ l', a = { a' with path := .field (i0 + j) :: a'.path })) ∧
    (∀ j f w, fs.get? j = some (f, w) → Used f →
      (f.yaml.inl = false → ⟨keyOf L f, [.field (i0 + j)], !f.exported⟩ ∈ l) ∧
      (f.yaml.inl = true → ∃ l', infosV L w = .ok l' ∧ ∀ a' ∈ l', { a' with path := .field (i0 + j) :: a'.path } ∈ l))
  | .nil, i0, l, h => by
    simp [infosF] at h; subst h
    simp [Fields.get?]
  | .cons f v fs, i0, l, h => by
    simp only [infosF] at h
    obtain ⟨l1, l2, h1, h2, rfl⟩ := append_ok h
    obtain ⟨ih1, ih2⟩ := infosF_spec L fs (i0 + 1) l2 h2
    constructor
    · intro a ha
      rcases List.mem_append.1 ha with ha | ha
      · refine ⟨0, f, v, rfl, ?_⟩
        split at h1
        · simp at h1; subst h1; simp at ha
        rename_i hu
        split at h1
        · simp at h1; subst h1; simp at ha
        rename_i hs
        refine ⟨⟨by grind, by simpa using hs⟩, ?_⟩
        split at h1
        · rename_i hi
          obtain ⟨l', h3, rfl⟩ := under_ok h1
          obtain ⟨a', ha', rfl⟩ := List.mem_map.1 ha
          exact .inr ⟨hi, l', h3, a', ha', rfl⟩
        · rename_i hi
          simp at h1; subst h1
          simp at ha
          exact .inl ⟨by simpa using hi, ha⟩
      · obtain ⟨j, g, w, h3, h4, h5⟩ := ih1 a ha
        exact ⟨j + 1, g, w, h3, h4, by rw [show i0 + (j + 1) = i0 + 1 + j by omega]; exact h5⟩
    · intro j g w hg hu
      cases j with
      | zero =>
        simp only [Fields.get?, Option.some.injEq, Prod.mk.injEq] at hg
        obtain ⟨rfl, rfl⟩ := hg
        obtain ⟨u1, u2⟩ := hu
        have e1 : (!f.exported && !f.anon) = false := by rcases u1 with u | u <;> simp [u]
        rw [if_neg (by simp [e1]), if_neg (by simp [u2])] at h1
        constructor
        · intro hi
          rw [if_neg (by simp [hi])] at h1
          simp at h1; subst h1
          simp
        · intro hi
          rw [if_pos hi] at h1
          obtain ⟨l', h3, rfl⟩ := under_ok h1
          exact ⟨l', h3, fun a' ha' => List.mem_append_left _ (List.mem_map.2 ⟨a', ha', rfl⟩)⟩
      | succ j =>
        obtain ⟨h3, h4⟩ := ih2 j g w hg hu
        rw [show i0 + (j + 1) = i0 + 1 + j by omega]
        refine ⟨fun hi => List.mem_append_right _ (h3 hi), fun hi => ?_⟩
        obtain ⟨l', h5, h6⟩ := h4 hi
        exact ⟨l', h5, fun a' ha' => List.mem_append_right _ (h6 a' ha')⟩

theorem keyOf_name (L : Lib) (f : FieldInfo) : keyOf L f = keyName L f := by
  unfold keyOf keyName
  cases f.yaml.key <;> simp

theorem child_used (L : Lib) (es : Entries) {f : FieldInfo} (h : Used f) :
    child L es f = if f.yaml.inl = true then some (.map es) else es.find L (keyOf L f) := by
  obtain ⟨h1, h2⟩ := h
  rw [child, if_neg (by rcases h1 with h | h <;> simp [h, h2]), keyOf_name]

theorem child_unused (L : Lib) (es : Entries) {f : FieldInfo} (h : ¬ Used f) : child L es f = none := by
  rw [child, if_pos]
  simp only [Used] at h
  grind

/-- The effect at the fields of the list. -/
theorem effect_info (L : Lib) (es : Entries) : ∀ (q : List Step) (v : Val) (l : List Info), infosV L v = .ok l → ∀ a ∈ l, a.path = q →
    (∃ w, v.get q = some w) ∧ ∀ p w, v.get q = some w →
      effect L (q ++ p) (.map es) v = match es.find L a.key with | some n => effect L p n w | none => .keep
  | [], v, l, h, a, ha, hq => by
    exfalso
    cases v <;> simp only [infosV] at h <;> try (simp at h; done)
    · obtain ⟨l', h3, rfl⟩ := under_ok h
      obtain ⟨a', ha', rfl⟩ := List.mem_map.1 ha
      simp at hq
    · obtain ⟨j, f, w, -, -, h3⟩ := (infosF_spec L _ _ _ h).1 a ha
      rcases h3 with ⟨-, rfl⟩ | ⟨-, l', -, a', -, rfl⟩ <;> simp at hq
  | s :: q, v, l, h, a, ha, hq => by
    cases v <;> simp only [infosV] at h <;> try (simp at h; done)
    · rename_i w0
      obtain ⟨l', h3, rfl⟩ := under_ok h
      obtain ⟨a', ha', rfl⟩ := List.mem_map.1 ha
      simp at hq
      obtain ⟨rfl, rfl⟩ := hq
      have := effect_info L es _ w0 l' h3 a' ha' rfl
      simp only [Val.get, List.cons_append, effect, Node.isNull, Bool.false_eq_true, if_false]
      exact this
    · rename_i fs
      obtain ⟨j, f, w0, h1, h2, h3⟩ := (infosF_spec L _ _ _ h).1 a ha
      rcases h3 with ⟨hi, rfl⟩ | ⟨hi, l', h3, a', ha', rfl⟩
      · simp at hq
        obtain ⟨rfl, rfl⟩ := hq
        simp only [Val.get, h1, get_nil, List.cons_append, effect, List.nil_append]
        refine ⟨⟨_, rfl⟩, fun p w hw => ?_⟩
        simp at hw; subst hw
        rw [child_used L es h2, if_neg (by simp [hi])]
      · simp at hq
        obtain ⟨rfl, rfl⟩ := hq
        have := effect_info L es _ w0 l' h3 a' ha' rfl
        simp only [Val.get, h1, List.cons_append, effect]
        rw [child_used L es h2, if_pos hi]
        exact this

/-- Everywhere else nothing happens. -/
theorem effect_else (L : Lib) (es : Entries) : ∀ (q : List Step) (v : Val) (l : List Info), infosV L v = .ok l →
    (∀ a ∈ l, ¬ a.path <+: q) → effect L q (.map es) v = .keep
  | [], v, l, h, hq => by
    cases v <;> simp [effect]
    simp [infosV] at h
  | s :: q, v, l, h, hq => by
    cases v <;> simp only [infosV] at h <;> try (simp at h; done)
    · rename_i w0
      cases s with
      | field i => simp [effect]
      | deref =>
        obtain ⟨l', h3, rfl⟩ := under_ok h
        simp only [effect, Node.isNull, Bool.false_eq_true, if_false]
        refine effect_else L es q w0 l' h3 fun a ha hp => hq _ (List.mem_map.2 ⟨a, ha, rfl⟩) ?_
        exact List.cons_prefix_cons.2 ⟨rfl, hp⟩
    · rename_i fs
      cases s with
      | deref => simp [effect]
      | field i =>
        simp only [effect]
        split
        · rename_i f w hf
          by_cases hu : Used f
          · obtain ⟨h1, h2⟩ := (infosF_spec L _ _ _ h).2 i f w hf hu
            rw [child_used L es hu]
            cases hi : f.yaml.inl with
            | false =>
              have := hq _ (h1 hi)
              simp at this
            | true =>
              obtain ⟨l', h3, h4⟩ := h2 hi
              simp only [if_true]
              refine effect_else L es q w l' h3 fun a ha hp => hq _ (h4 a ha) ?_
              simpa using hp
          · rw [child_unused L es hu]
        · rfl

theorem infosF_field (L : Lib) {fs : Fields} {i0 : Nat} {l : List Info} (h : infosF L i0 fs = .ok l) :
    ∀ a ∈ l, ∃ j p, i0 ≤ j ∧ a.path = .field j :: p := by
  intro a ha
  obtain ⟨j, f, w, -, -, h3⟩ := (infosF_spec L _ _ _ h).1 a ha
  rcases h3 with ⟨-, rfl⟩ | ⟨-, l', -, a', -, rfl⟩
  · exact ⟨i0 + j, _, by omega, rfl⟩
  · exact ⟨i0 + j, _, by omega, rfl⟩

def Apart (a b : Info) : Prop := ¬ a.path <+: b.path ∧ ¬ b.path <+: a.path

mutual
theorem infosV_apart (L : Lib) : ∀ (v : Val) (l : List Info), infosV L v = .ok l → l.Pairwise Apart
  | .struct fs, l, h => infosF_apart L fs 0 l (by simpa [infosV] using h)
  | .ptr w, l, h => by
    simp only [infosV] at h
    obtain ⟨l', h3, rfl⟩ := under_ok h
    rw [List.pairwise_map]
    refine (infosV_apart L w l' h3).imp fun {a b} hab => ?_
    simpa [Apart] using hab
  | .basic .., l, h => by simp [infosV] at h
  | .nil _, l, h => by simp [infosV] at h
  | .other _, l, h => by simp [infosV] at h

theorem infosF_apart (L : Lib) : ∀ (fs : Fields) (i0 : Nat) (l : List Info), infosF L i0 fs = .ok l → l.Pairwise Apart
  | .nil, i0, l, h => by simp [infosF] at h; subst h; exact .nil
  | .cons f v fs, i0, l, h => by
    simp only [infosF] at h
    obtain ⟨l1, l2, h1, h2, rfl⟩ := append_ok h
    have ih := infosF_apart L fs (i0 + 1) l2 h2
    have hf := infosF_field L h2
    rw [List.pairwise_append]
    have hl1 : l1.Pairwise Apart ∧ ∀ a ∈ l1, ∃ p, a.path = .field i0 :: p := by
      split at h1
      · simp at h1; subst h1; simp
      split at h1
      · simp at h1; subst h1; simp
      split at h1
      · obtain ⟨l', h3, rfl⟩ := under_ok h1
        refine ⟨?_, by simp⟩
        rw [List.pairwise_map]
        refine (infosV_apart L v l' h3).imp fun {a b} hab => ?_
        simpa [Apart] using hab
      · simp at h1; subst h1; simp
    refine ⟨hl1.1, ih, fun a ha b hb => ?_⟩
    obtain ⟨p, hp⟩ := hl1.2 a ha
    obtain ⟨j, p', hj, hp'⟩ := hf b hb
    simp only [Apart, hp, hp', List.cons_prefix_cons, Step.field.injEq]
    constructor <;> intro hh <;> omega
end

/-! ## Lemmas: the entries -/

theorem find_none_of_has (L : Lib) {str : Bool} {s : Bytes} : ∀ {es : Entries}, es.has (.scalar str s) = false → es.find L s = none
  | .nil, _ => rfl
  | .cons k n es, h => by
    simp only [Entries.has, Bool.or_eq_false_iff] at h
    have ih := find_none_of_has L h.2
    cases k with
    | scalar str' t =>
      simp only [Entries.find]
      rw [if_neg (fun hh => by simp [sameKey, hh.1] at h)]
      exact ih
    | map => simpa [Entries.find] using ih
    | seq => simpa [Entries.find] using ih

mutual
def nodeSize : Node → Nat
  | .scalar .. => 1
  | .seq _ => 1
  | .map es => 1 + entriesSize es
def entriesSize : Entries → Nat
  | .nil => 0
  | .cons _ n es => 1 + nodeSize n + entriesSize es
end

theorem find_size (L : Lib) {s : Bytes} {n : Node} : ∀ {es : Entries}, es.find L s = some n → nodeSize n < entriesSize es
  | .nil, h => by simp [Entries.find] at h
  | .cons k m es, h => by
    simp only [entriesSize]
    cases k with
    | scalar str t =>
      simp only [Entries.find] at h
      split at h
      · simp at h; subst h; omega
      · have := find_size L h; omega
    | map => have := find_size L (es := es) h; omega
    | seq => have := find_size L (es := es) h; omega

/-- How the node of a field is decoded. -/
def sub (L : Lib) (env : Nat → Ty) (fuel : Nat) (a : Info) (n : Node) : Val → Dec :=
  if a.ro then readOnly L n else decode L env fuel n

theorem key_unique {a b : Info} : ∀ {l : List Info}, (l.map (·.key)).Nodup → a ∈ l → b ∈ l → a.key = b.key → a = b
  | [], _, ha, _, _ => by simp at ha
  | c :: l, h, ha, hb, he => by
    simp only [List.map_cons, List.nodup_cons, List.mem_map, not_exists, not_and] at h
    rcases List.mem_cons.1 ha with rfl | ha' <;> rcases List.mem_cons.1 hb with rfl | hb'
    · rfl
    · exact absurd he.symm (h.1 b hb')
    · exact absurd he (h.1 a ha')
    · exact key_unique h.2 ha' hb' he

theorem apart_of_ne {a b : Info} : ∀ {l : List Info}, l.Pairwise Apart → a ∈ l → b ∈ l → a ≠ b → Apart a b
  | [], _, ha, _, _ => by simp at ha
  | c :: l, h, ha, hb, he => by
    rw [List.pairwise_cons] at h
    rcases List.mem_cons.1 ha with rfl | ha' <;> rcases List.mem_cons.1 hb with rfl | hb'
    · exact absurd rfl he
    · exact h.1 b hb'
    · exact (h.1 a ha').symm
    · exact apart_of_ne h.2 ha' hb' he

theorem entries_spec (L : Lib) (env : Nat → Ty) (fuel : Nat) : ∀ (es : Entries) (l : List Info) (v v' : Val) (e : Bool),
    l.Pairwise Apart → (l.map (·.key)).Nodup → (∀ a ∈ l, ∃ w, v.get a.path = some w) → es.dup = false →
    decodeEntries L env fuel es l v = .done v' e →
    (∀ a ∈ l, match es.find L a.key with
      | none => ∀ p, v'.get (a.path ++ p) = v.get (a.path ++ p)
      | some n => ∃ w w' ea, v.get a.path = some w ∧ sub L env fuel a n w = .done w' ea ∧ v'.get a.path = some w') ∧
    (∀ q, (∀ a ∈ l, ¬ a.path <+: q ∧ ¬ q <+: a.path) → v'.get q = v.get q) ∧
    (e = false ↔ es.scalars ∧ ∀ a ∈ l, ∀ n, es.find L a.key = some n → ∀ w, v.get a.path = some w →
      ∃ w', sub L env fuel a n w = .done w' false)
  | .nil, l, v, v', e, _, _, _, _, h => by
    simp [decodeEntries] at h
    obtain ⟨rfl, rfl⟩ := h
    simp [Entries.find, Entries.scalars]
  | .cons k n es, l, v, v', e, hl, hk, hw, hd, h => by
    simp only [Entries.dup, Bool.or_eq_false_iff] at hd
    simp only [decodeEntries] at h
    have ih := entries_spec L env fuel es l
    cases k with
    | map =>
      simp only [keyText] at h
      obtain ⟨e', h1, rfl⟩ := orErr_done h
      obtain ⟨i1, i2, i3⟩ := ih v v' e' hl hk hw hd.2 h1
      exact ⟨i1, i2, by simp [Entries.scalars]⟩
    | seq =>
      simp only [keyText] at h
      obtain ⟨e', h1, rfl⟩ := orErr_done h
      obtain ⟨i1, i2, i3⟩ := ih v v' e' hl hk hw hd.2 h1
      exact ⟨i1, i2, by simp [Entries.scalars]⟩
    | scalar str s =>
      have hpl : (Entries.cons (.scalar str s) n es).scalars ↔ es.scalars := by simp [Entries.scalars]
      simp only [keyText] at h
      split at h
      · rename_i hn
        obtain ⟨i1, i2, i3⟩ := ih v v' e hl hk hw hd.2 (by split at hn <;> simp_all)
        have hnull : scalarRes L str s = .null := by
          apply Classical.byContradiction; intro hc; simp [hc] at hn
        simp only [Entries.find, hnull, ne_eq, not_true_eq_false, and_false, if_false, hpl]
        exact ⟨i1, i2, i3⟩
      · rename_i hn; split at hn <;> simp at hn
      · rename_i s' hn
        have hnn : scalarRes L str s ≠ .null := by intro hc; simp [hc] at hn
        have hs : s' = s := by simp [hnn] at hn; exact hn.symm
        subst hs
        have hfind : ∀ t, (Entries.cons (.scalar str s') n es).find L t = if s' = t then some n else es.find L t := by
          intro t; simp [Entries.find, hnn]
        simp only [hfind, hpl]
        split at h
        · -- no such field
          rename_i hnone
          obtain ⟨i1, i2, i3⟩ := ih v v' e hl hk hw hd.2 h
          have hne : ∀ a ∈ l, ¬ s' = a.key := by
            intro a ha hc
            have := List.find?_eq_none.1 hnone a ha
            simp [hc] at this
          refine ⟨fun a ha => ?_, i2, ?_⟩
          · rw [if_neg (hne a ha)]; exact i1 a ha
          · rw [i3]
            constructor
            · rintro ⟨h1, h2⟩
              exact ⟨h1, fun a ha m hm => h2 a ha m (by rwa [if_neg (hne a ha)] at hm)⟩
            · rintro ⟨h1, h2⟩
              exact ⟨h1, fun a ha m hm => h2 a ha m (by rwa [if_neg (hne a ha)])⟩
        · rename_i i hi
          have hil : i ∈ l := List.mem_of_find?_eq_some hi
          have hik : i.key = s' := by have := List.find?_some hi; simpa using this
          have huniq : ∀ a ∈ l, a.key = s' → a = i := fun a ha hak => key_unique hk ha hil (hak.trans hik.symm)
          have hapart : ∀ a ∈ l, a ≠ i → Apart i a := fun a ha hne => apart_of_ne hl hil ha (Ne.symm hne)
          have hesn : es.find L s' = none := find_none_of_has L hd.1
          split at h
          · rename_i v1 e1 hm
            obtain ⟨e2, h2, rfl⟩ := orErr_done h
            obtain ⟨w, w', m1, m2, m3, m4⟩ := modify_spec hm
            have m2' : sub L env fuel i n w = .done w' e1 := by
              unfold sub; exact m2
            have hsame : ∀ a ∈ l, a ≠ i → ∀ p, v1.get (a.path ++ p) = v.get (a.path ++ p) := by
              intro a ha hne p
              have hap := hapart a ha hne
              refine m4 _ (fun hp => ?_) (fun hp => hap.2 ((List.prefix_append _ _).trans hp))
              rcases List.prefix_or_prefix_of_prefix hp (List.prefix_append a.path p) with h3 | h3
              · exact hap.1 h3
              · exact hap.2 h3
            have hsame' : ∀ a ∈ l, a ≠ i → v1.get a.path = v.get a.path := by
              intro a ha hne
              have := hsame a ha hne []
              simpa using this
            obtain ⟨i1, i2, i3⟩ := ih v1 v' e2 hl hk (fun a ha => by
              by_cases hne : a = i
              · subst hne; exact ⟨_, m3⟩
              · rw [hsame' a ha hne]; exact hw a ha) hd.2 h2
            refine ⟨fun a ha => ?_, fun q hq => ?_, ?_⟩
            · by_cases hne : a = i
              · subst hne
                rw [if_pos hik.symm]
                have := i1 a ha
                rw [hik, hesn] at this
                refine ⟨w, w', e1, m1, m2', ?_⟩
                have := this []
                rw [List.append_nil] at this
                rw [this, m3]
              · rw [if_neg (fun hc => hne (huniq a ha hc.symm))]
                have := i1 a ha
                split at this
                · intro p; rw [this p, hsame a ha hne p]
                · rw [hsame' a ha hne] at this; exact this
            · rw [i2 q hq]
              exact m4 q (hq i hil).1 (hq i hil).2
            · rw [Bool.or_eq_false_iff, i3]
              constructor
              · rintro ⟨rfl, h3, h4⟩
                refine ⟨h3, fun a ha m hfm w0 hw0 => ?_⟩
                by_cases hne : a = i
                · subst hne
                  rw [if_pos hik.symm] at hfm
                  simp at hfm; subst hfm
                  rw [m1] at hw0; simp at hw0; subst hw0
                  exact ⟨w', m2'⟩
                · rw [if_neg (fun hc => hne (huniq a ha hc.symm))] at hfm
                  exact h4 a ha m hfm w0 (by rw [hsame' a ha hne]; exact hw0)
              · rintro ⟨h3, h4⟩
                refine ⟨?_, h3, fun a ha m hfm w0 hw0 => ?_⟩
                · obtain ⟨w2, h5⟩ := h4 i hil n (by rw [if_pos hik.symm]) w m1
                  rw [m2'] at h5; simp at h5; exact h5.2
                · have hne : a ≠ i := by
                    rintro rfl; rw [hik, hesn] at hfm; simp at hfm
                  rw [hsame' a ha hne] at hw0
                  exact h4 a ha m (by rw [if_neg (fun hc => hne (huniq a ha hc.symm))]; exact hfm) w0 hw0
          · rename_i hx
            exact absurd h (hx v' e)

/-! ## Lemmas: the whole -/

/-- What is proved of a node and a value. -/
def Right (L : Lib) (n : Node) (v v' : Val) : Prop :=
  ∀ loc k nm x, v.get loc = some (.basic k nm x) → After (effect L loc n v) k nm x (v'.get loc)

theorem effect_null (L : Lib) (str : Bool) (s : Bytes) (h : scalarRes L str s = .null) : ∀ (loc : List Step) (v : Val),
    (∀ w, v ≠ .ptr w) → effect L loc (.scalar str s) v = .keep
  | [], v, _ => by cases v <;> simp [effect, h]
  | .deref :: p, v, hv => by cases v <;> simp [effect] ; exact absurd rfl (hv _)
  | .field i :: p, v, hv => by cases v <;> simp [effect, Node.isNull, h]

/-- Pointers on the way are followed. -/
theorem into_right (L : Lib) (env : Nat → Ty) (fuel : Nat) (n : Node) (hn : n.isNull L = false) (f : Val → Dec)
    (hf : ∀ w w', (∀ u, w ≠ .ptr u) → f w = .done w' false → Right L n w w') : ∀ (v v' : Val),
    into env fuel f v = .done v' false → Right L n v v'
  | .ptr w, v', h => by
    simp only [into] at h
    obtain ⟨w', h1, rfl⟩ := map_done h
    have ih := into_right L env fuel n hn f hf w w' h1
    intro loc k nm x hx
    cases loc with
    | nil => simp [get_nil] at hx
    | cons s p =>
      cases s with
      | field i => simp [Val.get] at hx
      | deref =>
        simp only [effect, hn, Bool.false_eq_true, if_false, Val.get]
        exact ih p k nm x hx
  | .nil m, v', h => by
    intro loc k nm x hx
    cases loc with
    | nil => simp [get_nil] at hx
    | cons s p => cases s <;> simp [Val.get] at hx
  | .basic k0 nm0 x0, v', h => hf _ _ (by simp) (by simpa [into] using h)
  | .struct fs, v', h => hf _ _ (by simp) (by simpa [into] using h)
  | .other x0, v', h => hf _ _ (by simp) (by simpa [into] using h)

theorem infos_ok {L : Lib} {v : Val} {l : List Info} (h : infos L v = .ok l) :
    infosV L v = .ok l ∧ (l.map (·.key)).Nodup := by
  unfold infos at h
  split at h
  · rename_i l' hl
    split at h
    · simp at h; subst h; exact ⟨hl, by assumption⟩
    · simp at h
  · rename_i hx; exact absurd h (hx l)

theorem get_prefix {p q : List Step} {v : Val} {k : Kind} {nm : Bool} {x : Int} (hp : p <+: q)
    (h : v.get p = some (.basic k nm x)) {w : Val} (hw : v.get q = some w) : p = q := by
  obtain ⟨r, rfl⟩ := hp
  rw [get_append, h] at hw
  cases r with
  | nil => simp
  | cons s r => cases s <;> simp [Val.get] at hw

theorem decode_right (L : Lib) (env : Nat → Ty) (fuel : Nat) : ∀ (m : Nat) (n : Node), nodeSize n ≤ m → ∀ (v v' : Val),
    decode L env fuel n v = .done v' false → Right L n v v'
  | 0, n, hm, v, v', h => by cases n <;> simp [nodeSize] at hm
  | m + 1, .scalar str s, hm, v, v', h => by
    simp only [decode] at h
    split at h
    · rename_i hn
      intro loc k nm x hx
      cases v with
      | ptr w =>
        simp [nullTo] at h; subst h
        cases loc with
        | nil => simp [get_nil] at hx
        | cons t p =>
          cases t with
          | field i => simp [Val.get] at hx
          | deref => simp [effect, Node.isNull, hn, After, Val.get]
      | other y => cases loc with
        | nil => simp [get_nil] at hx
        | cons t p => cases t <;> simp [Val.get] at hx
      | basic k0 nm0 x0 =>
        simp [nullTo] at h; subst h
        rw [effect_null L str s hn _ _ (by simp)]; exact hx
      | struct fs =>
        simp [nullTo] at h; subst h
        rw [effect_null L str s hn _ _ (by simp)]; exact hx
      | nil y =>
        simp [nullTo] at h; subst h
        rw [effect_null L str s hn _ _ (by simp)]; exact hx
    · rename_i hn
      refine into_right L env fuel _ (by simp [Node.isNull, hn]) _ (fun w w' hw hf => ?_) v v' h
      intro loc k nm x hx
      cases w with
      | basic k0 nm0 x0 =>
        cases loc with
        | cons t p => cases t <;> simp [Val.get] at hx
        | nil =>
          simp [get_nil] at hx
          obtain ⟨rfl, rfl, rfl⟩ := hx
          simp only [setScalar] at hf
          simp only [effect, if_neg hn]
          split at hf
          · rename_i y hy
            simp at hf; subst hf
            simp [hy, After, get_nil]
          · simp at hf
      | ptr u => exact absurd rfl (hw u)
      | struct fs => simp [setScalar] at hf
      | nil y => simp [setScalar] at hf
      | other y => cases loc with
        | nil => simp [get_nil] at hx
        | cons t p => cases t <;> simp [Val.get] at hx
  | m + 1, .seq c, hm, v, v', h => by
    simp only [decode] at h
    refine into_right L env fuel _ (by simp [Node.isNull]) _ (fun w w' hw hf => ?_) v v' h
    intro loc k nm x hx
    cases w with
    | other y => cases loc with
      | nil => simp [get_nil] at hx
      | cons t p => cases t <;> simp [Val.get] at hx
    | _ => simp [setSeq] at hf
  | m + 1, .map es, hm, v, v', h => by
    simp only [decode] at h
    refine into_right L env fuel _ (by simp [Node.isNull]) _ (fun w w' hw hf => ?_) v v' h
    intro loc k nm x hx
    cases w with
    | other y => cases loc with
      | nil => simp [get_nil] at hx
      | cons t p => cases t <;> simp [Val.get] at hx
    | basic k0 nm0 x0 => simp at hf
    | ptr u => exact absurd rfl (hw u)
    | nil y => simp at hf
    | struct fs =>
      simp only at hf
      split at hf
      · simp at hf
      rename_i hd
      simp only [Bool.not_eq_true] at hd
      split at hf
      · simp at hf
      · simp at hf
      rename_i l hl
      obtain ⟨hl, hk⟩ := infos_ok hl
      have hpath : ∀ a ∈ l, ∃ w, (Val.struct fs).get a.path = some w :=
        fun a ha => (effect_info L es _ _ l hl a ha rfl).1
      obtain ⟨h1, h2, h3⟩ := entries_spec L env fuel es l _ _ _ (infosV_apart L _ l hl) hk hpath hd hf
      by_cases hq : ∃ a ∈ l, a.path <+: loc
      · obtain ⟨a, ha, p, rfl⟩ := hq
        obtain ⟨⟨u, hu⟩, he⟩ := effect_info L es _ _ l hl a ha rfl
        rw [he p u hu]
        have := h1 a ha
        cases hfi : es.find L a.key with
        | none => rw [hfi] at this; rw [this p]; exact hx
        | some n =>
          rw [hfi] at this
          obtain ⟨u0, u', ea, g1, g2, g3⟩ := this
          rw [hu] at g1; simp at g1; subst g1
          have hea : ea = false := by
            obtain ⟨w2, hw2⟩ := (h3.1 rfl).2 a ha n hfi u hu
            rw [g2] at hw2; simp at hw2; exact hw2.2
          subst hea
          rw [get_append, hu] at hx
          rw [get_append, g3]
          simp only [Option.bind_some] at hx ⊢
          unfold sub at g2
          split at g2
          · unfold readOnly at g2
            split at g2
            · rename_i hn
              cases n with
              | seq => simp [Node.isNull] at hn
              | map => simp [Node.isNull] at hn
              | scalar str s =>
                simp [Node.isNull] at hn
                split at g2
                · simp at g2; subst g2
                  rw [effect_null L str s hn _ _ (by simp)]; exact hx
                · simp at g2; subst g2
                  rw [effect_null L str s hn _ _ (by simp)]; exact hx
                · simp at g2
            · simp at g2
          · have hsz := find_size L hfi
            simp only [nodeSize] at hm
            exact decode_right L env fuel m n (by omega) u u' g2 p k nm x hx
      · have hq' : ∀ a ∈ l, ¬ a.path <+: loc := fun a ha hp => hq ⟨a, ha, hp⟩
        rw [effect_else L es loc _ l hl hq']
        rw [h2 loc fun a ha => ⟨hq' a ha, fun hp => ?_⟩]
        · exact hx
        · obtain ⟨u, hu⟩ := hpath a ha
          exact hq' a ha (get_prefix hp hx hu ▸ List.prefix_refl _)

/-! ## C107 -/

/-- The node under the lower-cased names. -/
def reach (L : Lib) : List Bytes → Node → Option Node
  | [], n => some n
  | s :: ss, .map es =>
    match es.find L (s.map toLowerByte) with
    | some n => reach L ss n
    | none => none
  | _ :: _, _ => none

/-- Fields whose keys are their names: ASCII, without a yaml tag; embedded structs are inlined. -/
def Simple (f : FieldInfo) : Prop :=
  if f.anon then f.yaml.inl = true ∧ f.yaml.skip = false else f.yaml = {} ∧ ∀ b ∈ f.name, b < 128

theorem keyOf_simple (L : Lib) {f : FieldInfo} (ha : f.anon = false) (h : Simple f) : keyOf L f = f.name.map toLowerByte := by
  simp only [Simple, ha, Bool.false_eq_true, if_false] at h
  have h2 : f.name.all (· < 128) = true := by simpa using h.2
  simp only [keyOf, h.1, ne_eq, not_true_eq_false, if_false, toLower, h2, if_true]
  apply List.map_congr_left
  intro b _
  rw [toLower_eq]

theorem effect_reach (L : Lib) {k : Kind} {nm : Bool} {x : Int} : ∀ (loc : List Step) (md : Bool) (v : Val) (is : List FieldInfo) (n : Node),
    visible md v loc = some is → v.get loc = some (.basic k nm x) → (∀ f ∈ is, Simple f) →
    (∀ p, p <+: (is.filter (!·.anon)).map (·.name) → ∀ m, reach L p n = some m → m.isNull L = false) →
    (reach L ((is.filter (!·.anon)).map (·.name)) n = none → effect L loc n v = .keep ∨ effect L loc n v = .bad) ∧
    (∀ m, reach L ((is.filter (!·.anon)).map (·.name)) n = some m →
      effect L loc n v = .bad ∨ ∃ str s y, m = .scalar str s ∧ conv L k (scalarRes L str s) s = some y ∧ effect L loc n v = .set y)
  | [], md, v, is, n, hv, hg, hs, hn => by
    simp [visible] at hv; subst hv
    simp [get_nil] at hg; subst hg
    refine ⟨by simp [reach], fun m hm => ?_⟩
    simp [reach] at hm; subst hm
    have h0 : n.isNull L = false := hn [] (by simp) n rfl
    cases n with
    | scalar str s =>
      simp [Node.isNull] at h0
      simp only [effect, if_neg h0]
      cases hc : conv L k (scalarRes L str s) s with
      | none => exact .inl rfl
      | some y => exact .inr ⟨str, s, y, rfl, hc, rfl⟩
    | seq c => exact .inl rfl
    | map es => exact .inl rfl
  | .deref :: p, md, v, is, n, hv, hg, hs, hn => by
    cases v <;> try (simp [Val.get] at hg; done)
    rename_i w
    cases md <;> simp only [visible] at hv
    · simp at hv
    have h0 : n.isNull L = false := hn [] List.nil_prefix n rfl
    simp only [effect, h0, Bool.false_eq_true, if_false]
    exact effect_reach L p false w is n hv hg hs hn
  | .field i :: p, md, v, is, n, hv, hg, hs, hn => by
    cases v <;> try (simp [Val.get] at hg; done)
    rename_i fs
    have hv' : visible md (.struct fs) (.field i :: p) = match fs.get? i with
      | some (f, w) => if f.exported then (visible true w p).map (f :: ·) else none
      | none => none := by cases md <;> rfl
    rw [hv'] at hv
    cases hfi : fs.get? i with
    | none => simp [hfi] at hv
    | some fw =>
      obtain ⟨f, w⟩ := fw
      simp only [hfi] at hv
      split at hv
      · rename_i hex
        obtain ⟨is', hv1, rfl⟩ := Option.map_eq_some_iff.1 hv
        simp only [Val.get, hfi] at hg
        have hsf := hs f (by simp)
        have hs' : ∀ g ∈ is', Simple g := fun g hg => hs g (by simp [hg])
        have h0 : n.isNull L = false := hn [] List.nil_prefix n rfl
        cases n with
        | scalar str s =>
          simp only [effect, h0, Bool.false_eq_true, if_false]
          refine ⟨fun _ => .inr (by trivial), fun m _ => .inl (by trivial)⟩
        | seq c =>
          simp only [effect, h0, Bool.false_eq_true, if_false]
          refine ⟨fun _ => .inr (by trivial), fun m _ => .inl (by trivial)⟩
        | map es =>
          simp only [effect, hfi]
          cases ha : f.anon with
          | true =>
            have hu : Used f := by simp [Simple, ha] at hsf; exact ⟨.inr ha, hsf.2⟩
            have hi : f.yaml.inl = true := by simp [Simple, ha] at hsf; exact hsf.1
            rw [child_used L es hu, if_pos hi]
            have e : (f :: is').filter (!·.anon) = is'.filter (!·.anon) := by simp [ha]
            rw [e] at hn ⊢
            exact effect_reach L p true w is' (.map es) hv1 hg hs' hn
          | false =>
            have h1 := hsf
            simp [Simple, ha] at h1
            have hu : Used f := ⟨.inl hex, by rw [h1.1]⟩
            rw [child_used L es hu, if_neg (by simp [h1.1]), keyOf_simple L ha hsf]
            have e : (f :: is').filter (!·.anon) = f :: is'.filter (!·.anon) := by simp [ha]
            rw [e] at hn ⊢
            simp only [List.map_cons, reach] at hn ⊢
            cases hfd : es.find L (f.name.map toLowerByte) with
            | none => simp
            | some m0 =>
              simp only
              refine effect_reach L p true w is' m0 hv1 hg hs' fun q hq m hm => ?_
              refine hn (f.name :: q) (List.cons_prefix_cons.2 ⟨rfl, hq⟩) m ?_
              simp [reach, hfd, hm]
      · simp at hv

/-- **C107.**  If yaml accepts a file, every variable of the struct is as the file says: `effect` goes down the file and
the struct in step. -/
theorem C107_effect (L : Lib) (env : Nat → Ty) (fuel : Nat) (n : Node) (v v' : Val) (h : decode L env fuel n v = .done v' false) :
    ∀ loc k nm x, v.get loc = some (.basic k nm x) → After (effect L loc n v) k nm x (v'.get loc) :=
  decode_right L env fuel _ n (Nat.le_refl _) v v' h

/-- What C107 says of a field: if the file is accepted, and there is no null on the way, the field holds the value that the file has
under the names of the field, and is unchanged if the file has none. -/
def FieldClaim (L : Lib) (n : Node) (v v' : Val) (loc : List Step) (names : List Bytes) (k : Kind) (nm : Bool) (x : Int) : Prop :=
  IsField v loc names k nm x → (∀ p, p <+: names → ∀ m, reach L p n = some m → m.isNull L = false) →
    (reach L names n = none → v'.get loc = some (.basic k nm x)) ∧
    (∀ m, reach L names n = some m →
      ∃ str s y, m = .scalar str s ∧ conv L k (scalarRes L str s) s = some y ∧ v'.get loc = some (.basic k nm y))

/-- **C107** in full: for structs without yaml tags, yaml finds a field under the names that flags and environment
variables have for it. -/
def C107Claim : Prop := ∀ (L : Lib) (env : Nat → Ty) (fuel : Nat) (n : Node) (v v' : Val), decode L env fuel n v = .done v' false →
  ∀ loc names k nm x, (∀ is, visible false v loc = some is → ∀ f ∈ is, f.yaml = {} ∧ ∀ b ∈ f.name, b < 128) →
    FieldClaim L n v v' loc names k nm x

/-- **C107** for fields on whose way embedded structs are inlined.  Missing: embedded structs that are not. -/
theorem C107_path_partial (L : Lib) (env : Nat → Ty) (fuel : Nat) (n : Node) (v v' : Val) (h : decode L env fuel n v = .done v' false)
    (loc : List Step) (names : List Bytes) (k : Kind) (nm : Bool) (x : Int)
    (hs : ∀ is, visible false v loc = some is → ∀ f ∈ is, Simple f) : FieldClaim L n v v' loc names k nm x := by
  rintro ⟨is, hv, rfl, hg⟩ hn
  obtain ⟨h1, h2⟩ := effect_reach L loc false v is n hv hg (hs is hv) hn
  have h3 := C107_effect L env fuel n v v' h loc k nm x hg
  refine ⟨fun hr => ?_, fun m hm => ?_⟩
  · rcases h1 hr with e | e <;> rw [e] at h3
    · exact h3
    · exact absurd h3 (by simp [After])
  · rcases h2 m hm with e | ⟨str, s, y, e1, e2, e⟩
    · rw [e] at h3; exact absurd h3 (by simp [After])
    · rw [e] at h3
      exact ⟨str, s, y, e1, e2, h3⟩

/-! ### `Load` -/

def Eff.toYaml : Eff → YamlEff
  | .keep => .keep
  | .set y => .set y
  | .gone => .replace none
  | .bad => .keep

/-- The effects of yaml files on the fields of `v` (yaml.go:28-40): `read` is what a file contains, if it can be read and parsed
(`some none`: nothing).  (A panic is not distinguished from an error here.) -/
def fileEffects (L : Lib) (env : Nat → Ty) (fuel : Nat) (read : Bytes → Option (Option Node)) (v : Val) (file : Bytes) :
    Option (Nat → YamlEff) :=
  match read file with
  | none => none
  | some none => some fun _ => .keep
  | some (some n) =>
    match decode L env fuel n v with
    | .done _ false => some fun i =>
      match (visitExportedFields v)[i]? with
      | some x => (effect L x.loc n v).toYaml
      | none => .keep
    | _ => none

/-- The value of a variable. -/
def intAt (v : Val) (loc : List Step) : Option Int :=
  match v.get loc with
  | some (.basic _ _ y) => some y
  | _ => none

/-- `Load` with a yaml file: a field for which there is neither flag nor environment variable holds what yaml makes of it. -/
theorem C107_load (L : Lib) (read : Bytes → Option (Option Node)) (env : Nat → Ty) (fuel : Nat) (w : World) (yamlFlag : Bytes) (fs : Fields)
    (v' : Val) (m : Mem) (h : loadConf env fuel w yamlFlag (.struct fs) = some (.done v' m)) (hn : NamesOk v')
    (hw : w.yaml = fileEffects L env fuel read v') :
    ∃ isBool l, KnowsFlags w yamlFlag v' isBool ∧ ArgList isBool w.args l ∧
      ∀ loc names k nm x, IsField v' loc names k nm x → given l (flagOf names) = none → w.env (envOf names) = none →
        ((yamlFlag = [] ∨ given l yamlFlag = none ∨ given l yamlFlag = some []) → fieldAfter v' m loc = some x) ∧
        (yamlFlag ≠ [] → ∀ file, given l yamlFlag = some file → file ≠ [] →
          (read file = some none ∧ fieldAfter v' m loc = some x) ∨
          ∃ n v'', read file = some (some n) ∧ decode L env fuel n v' = .done v'' false ∧ fieldAfter v' m loc = intAt v'' loc) := by
  obtain ⟨isBool, l, eff, h1, h2, h3, h4⟩ := C89_load_partial env fuel w yamlFlag fs v' m h hn
  refine ⟨isBool, l, h1, h2, fun loc names k nm x hf hg he => ?_⟩
  obtain ⟨i, hno, hrep, hi⟩ := h4 loc names k nm x hf
  have hx : (Val.struct fs).int loc = x := by
    obtain ⟨is, -, -, hx⟩ := hf
    exact init_int (loadConf_done h).1 hx
  have hkeep : eff i = .keep → fieldAfter v' m loc = some x := fun e => by
    rw [(hi (by simp [e])).2.2.2 hg he e, hx]
  constructor
  · intro hc
    unfold YamlOf at h3
    rw [if_pos hc] at h3
    exact hkeep (by rw [h3])
  · intro hy file hfile hne
    unfold YamlOf at h3
    rw [if_neg (by simp [hy, hfile, hne])] at h3
    obtain ⟨f, h5, h6⟩ := h3
    rw [hfile] at h5; simp at h5; subst h5
    rw [hw] at h6
    unfold fileEffects at h6
    split at h6
    · simp at h6
    · rename_i hr
      simp at h6
      exact .inl ⟨hr, hkeep (by rw [← h6])⟩
    · rename_i n hr
      split at h6
      · rename_i v'' hd
        simp at h6
        refine .inr ⟨n, v'', hr, hd, ?_⟩
        obtain ⟨vi, hvi, hvl⟩ := Option.map_eq_some_iff.1 hno
        have heff : eff i = (effect L loc n v').toYaml := by rw [← h6]; simp [hvi, hvl]
        obtain ⟨is, -, -, hget⟩ := hf
        have hafter := C107_effect L env fuel n v' v'' hd loc k nm x hget
        cases hc : effect L loc n v' with
        | keep =>
          rw [hc] at heff hafter
          rw [hkeep heff]
          simp only [After] at hafter
          simp [intAt, hafter]
        | set y =>
          rw [hc] at heff hafter
          rw [(hi (by simp [heff, Eff.toYaml])).2.2.1 hg he y heff]
          simp only [After] at hafter
          simp [intAt, hafter]
        | gone =>
          rw [hc] at heff hafter
          rw [hrep none heff]
          simp only [After] at hafter
          simp [intAt, hafter]
        | bad =>
          rw [hc] at hafter
          exact absurd hafter (by simp [After])
      · simp at h6

/-! ### Examples -/

/-- A library for the examples. -/
def exLib : Lib := ⟨fun s => s.length, fun _ => none, id, fun _ => none, fun _ => none, fun _ => false, id, fun _ _ => none⟩

/-- `struct { E; Host int }` with `type E struct { Port int }`, `E` inlined or not -/
def exStruct (inl : Bool) : Val :=
  .struct (.cons ⟨Str.ascii "E", true, true, { inl := inl }⟩ (.struct (.cons ⟨Str.ascii "Port", true, false, {}⟩ (.basic .int false 1) .nil))
    (.cons ⟨Str.ascii "Host", true, false, {}⟩ (.ptr (.basic .int false 2)) .nil))

/-- `port: 80`, `host: 3` -/
def exFile : Node := .map (.cons (.scalar false (Str.ascii "port")) (.scalar false (Str.ascii "80"))
  (.cons (.scalar false (Str.ascii "host")) (.scalar false (Str.ascii "0x_3")) .nil))

/-- With `yaml:",inline"`, as in struct_test.go:104, yaml finds the field `port`. -/
example : decode exLib (fun _ => .other) 1 exFile (exStruct true) = .done (.struct
    (.cons ⟨Str.ascii "E", true, true, { inl := true }⟩ (.struct (.cons ⟨Str.ascii "Port", true, false, {}⟩ (.basic .int false 80) .nil))
    (.cons ⟨Str.ascii "Host", true, false, {}⟩ (.ptr (.basic .int false 3)) .nil))) false := by rfl

/-- Without it, `port: 80` is ignored, although the flag is `-port`. -/
theorem C107_violated : ¬ C107Claim := by
  intro h
  have h1 := h exLib (fun _ => .other) 1 exFile (exStruct false) _ rfl [.field 0, .field 0] [Str.ascii "Port"] .int false 1
    (fun is his => by
      have e : is = [⟨Str.ascii "E", true, true, {}⟩, ⟨Str.ascii "Port", true, false, {}⟩] := (Option.some.inj his).symm
      subst e; decide) ⟨_, rfl, by decide, rfl⟩
    (fun p hp m hm => by
      obtain ⟨q, hq⟩ := hp
      cases p with
      | nil => cases hm; rfl
      | cons a p =>
        simp only [List.cons_append, List.cons.injEq] at hq
        obtain ⟨rfl, hq⟩ := hq
        have : p = [] := by cases p <;> simp at hq ⊢
        subst this
        have : m = .scalar false (Str.ascii "80") := (Option.some.inj hm).symm
        subst this
        decide)
  obtain ⟨str, s, y, e1, e2, e3⟩ := h1.2 (.scalar false (Str.ascii "80")) (by rfl)
  simp at e1
  obtain ⟨rfl, rfl⟩ := e1
  have e4 : conv exLib .int (scalarRes exLib false (Str.ascii "80")) (Str.ascii "80") = some 80 := by decide +kernel
  have : y = 80 := by simpa using e2.symm.trans e4
  subst this
  have e5 : some (Val.basic .int false 1) = some (.basic .int false 80) := e3
  simp at e5

/-! ## C108 -/

/-- The texts of the keys. -/
def Entries.texts : Entries → List Bytes
  | .nil => []
  | .cons (.scalar _ s) _ es => s :: es.texts
  | .cons _ _ es => es.texts

/-- A file fits a value (whose nil pointers are to types `env`): null fits everything, a scalar fits a variable if it is
a text for its type, a mapping fits a struct if its keys are different scalars and its values fit the fields they are
for, and a pointer is as what it points to. -/
inductive Fits (L : Lib) (env : Nat → Ty) : Node → Val → Prop where
  | null {n v} : n.isNull L = true → (∀ x, v ≠ .other x) → Fits L env n v
  | basic {str s k nm x y} : scalarRes L str s ≠ .null → conv L k (scalarRes L str s) s = some y → Fits L env (.scalar str s) (.basic k nm x)
  | other {n x y} : L.oth n x = some y → Fits L env n (.other x)
  | ptr {n w} : n.isNull L = false → Fits L env n w → Fits L env n (.ptr w)
  | nil {n m} : n.isNull L = false → Fits L env n (zero (env m)) → Fits L env n (.nil m)
  | struct {es fs} : es.scalars → es.texts.Nodup → (∀ i f w n, fs.get? i = some (f, w) → child L es f = some n → Fits L env n w) →
      Fits L env (.map es) (.struct fs)

theorem has_iff : ∀ {es : Entries} {str : Bool} {s : Bytes}, es.has (.scalar str s) = true ↔ s ∈ es.texts
  | .nil, str, s => by simp [Entries.has, Entries.texts]
  | .cons k n es, str, s => by
    cases k <;> simp [Entries.has, Entries.texts, sameKey, has_iff]

theorem dup_iff : ∀ {es : Entries}, es.scalars → (es.dup = false ↔ es.texts.Nodup)
  | .nil, _ => by simp [Entries.dup, Entries.texts]
  | .cons k n es, h => by
    obtain ⟨⟨str, s, rfl⟩, h⟩ := h
    rw [Entries.dup, Bool.or_eq_false_iff, dup_iff h]
    simp only [Entries.texts, List.nodup_cons]
    rw [← Bool.not_eq_true, has_iff]

theorem into_fits (L : Lib) (env : Nat → Ty) (fuel : Nat) (n : Node) (hn : n.isNull L = false) (f : Val → Dec)
    (hf : ∀ w w' e, (∀ u, w ≠ .ptr u) → (∀ m, w ≠ .nil m) → f w = .done w' e → (e = false ↔ Fits L env n w)) :
    ∀ (v v' : Val) (e : Bool), into env fuel f v = .done v' e → (e = false ↔ Fits L env n v)
  | .ptr w, v', e, h => by
    simp only [into] at h
    obtain ⟨w', h1, rfl⟩ := map_done h
    rw [into_fits L env fuel n hn f hf w w' e h1]
    constructor
    · exact .ptr hn
    · intro h2
      cases h2 with
      | null h3 _ => simp [hn] at h3
      | ptr _ h3 => exact h3
  | .nil m, v', e, h => by
    simp only [into] at h
    have key : ∀ (fuel m : Nat) (v' : Val) (e : Bool), intoNil env f fuel m = .done v' e → (e = false ↔ Fits L env n (.nil m)) := by
      intro fuel
      induction fuel with
      | zero => intro m v' e h; simp [intoNil] at h
      | succ fuel ih =>
        intro m v' e h
        have hz : Fits L env n (.nil m) ↔ Fits L env n (zero (env m)) := by
          constructor
          · intro h2
            cases h2 with
            | null h3 _ => simp [hn] at h3
            | nil _ h3 => exact h3
          · exact .nil hn
        rw [hz]
        simp only [intoNil] at h
        split at h
        · rename_i m' hm'
          obtain ⟨w', h1, rfl⟩ := map_done h
          rw [hm']
          exact ih m' w' e h1
        · rename_i hne
          obtain ⟨w', h1, rfl⟩ := map_done h
          refine hf _ w' e (fun u hu => ?_) (fun m' hm' => hne m' hm') h1
          cases ht : env m <;> simp [ht, zero] at hu
    exact key fuel m v' e h
  | .basic k0 nm0 x0, v', e, h => hf _ _ _ (by simp) (by simp) (by simpa [into] using h)
  | .struct fs, v', e, h => hf _ _ _ (by simp) (by simp) (by simpa [into] using h)
  | .other x0, v', e, h => hf _ _ _ (by simp) (by simp) (by simpa [into] using h)

theorem get?_size : ∀ {fs : Fields} {i : Nat} {f : FieldInfo} {w : Val}, fs.get? i = some (f, w) → sizeOf w < sizeOf fs
  | .nil, i, f, w, h => by simp [Fields.get?] at h
  | .cons g v fs, 0, f, w, h => by
    simp [Fields.get?] at h
    obtain ⟨rfl, rfl⟩ := h
    simp; omega
  | .cons g v fs, i + 1, f, w, h => by
    have := get?_size (fs := fs) h
    simp; omega

/-- A mapping fits the fields of a struct if it fits those in the list. -/
theorem fits_infos (L : Lib) (env : Nat → Ty) (es : Entries) (hs : es.scalars) (hd : es.texts.Nodup) : ∀ (m : Nat) (v : Val), sizeOf v ≤ m →
    ∀ (l : List Info), infosV L v = .ok l →
    (Fits L env (.map es) v ↔ ∀ a ∈ l, ∀ n, es.find L a.key = some n → ∀ w, v.get a.path = some w → Fits L env n w)
  | 0, v, hm, l, h => by cases v <;> simp at hm
  | m + 1, .ptr w, hm, l, h => by
    simp only [infosV] at h
    obtain ⟨l', h3, rfl⟩ := under_ok h
    have hf : Fits L env (.map es) (.ptr w) ↔ Fits L env (.map es) w := by
      constructor
      · intro h2
        cases h2 with
        | null h3 _ => simp [Node.isNull] at h3
        | ptr _ h3 => exact h3
      · exact .ptr (by simp [Node.isNull])
    rw [hf, fits_infos L env es hs hd m w (by simp at hm; omega) l' h3]
    simp [Val.get]
  | m + 1, .struct fs, hm, l, h => by
    simp only [infosV] at h
    obtain ⟨g1, g2⟩ := infosF_spec L _ _ _ h
    simp only [Nat.zero_add] at g1 g2
    have hf : Fits L env (.map es) (.struct fs) ↔
        ∀ i f w n, fs.get? i = some (f, w) → child L es f = some n → Fits L env n w := by
      constructor
      · intro h2
        cases h2 with
        | null h3 _ => simp [Node.isNull] at h3
        | struct _ _ h3 => exact h3
      · exact .struct hs hd
    rw [hf]
    have ih : ∀ i f w, fs.get? i = some (f, w) → ∀ l, infosV L w = .ok l →
        (Fits L env (.map es) w ↔ ∀ a ∈ l, ∀ n, es.find L a.key = some n → ∀ u, w.get a.path = some u → Fits L env n u) := by
      intro i f w hi l hl
      have := get?_size hi
      exact fits_infos L env es hs hd m w (by simp at hm; omega) l hl
    constructor
    · intro hh a ha n hn u hu
      obtain ⟨j, f, w, h1, h2, h3⟩ := g1 a ha
      rcases h3 with ⟨hi, rfl⟩ | ⟨hi, l', h3, a', ha', rfl⟩
      · simp [Val.get, h1, get_nil] at hu
        subst hu
        exact hh j f w n h1 (by rw [child_used L es h2, if_neg (by simp [hi])]; exact hn)
      · simp only [Val.get, h1] at hu
        exact (ih j f w h1 l' h3).1 (hh j f w _ h1 (by rw [child_used L es h2, if_pos hi])) a' ha' n hn u hu
    · intro hh i f w n hi hc
      by_cases hu : Used f
      · obtain ⟨k1, k2⟩ := g2 i f w hi hu
        rw [child_used L es hu] at hc
        split at hc
        · rename_i hinl
          simp at hc; subst hc
          obtain ⟨l', h3, h4⟩ := k2 hinl
          refine (ih i f w hi l' h3).2 fun a ha n hn u hu => ?_
          exact hh _ (h4 a ha) n hn u (by simp [Val.get, hi, hu])
        · rename_i hinl
          exact hh _ (k1 (by simpa using hinl)) n hc w (by simp [Val.get, hi, get_nil])
      · rw [child_unused L es hu] at hc; simp at hc
  | m + 1, .basic .., hm, l, h => by simp [infosV] at h
  | m + 1, .nil _, hm, l, h => by simp [infosV] at h
  | m + 1, .other _, hm, l, h => by simp [infosV] at h

theorem decode_fits (L : Lib) (env : Nat → Ty) (fuel : Nat) : ∀ (m : Nat) (n : Node), nodeSize n ≤ m → ∀ (v v' : Val) (e : Bool),
    decode L env fuel n v = .done v' e → (e = false ↔ Fits L env n v)
  | 0, n, hm, v, v', e, h => by cases n <;> simp [nodeSize] at hm
  | m + 1, .scalar str s, hm, v, v', e, h => by
    simp only [decode] at h
    split at h
    · rename_i hn
      have hn' : (Node.scalar str s).isNull L = true := by simp [Node.isNull, hn]
      cases v with
      | other x =>
        simp only [nullTo, ofOther] at h
        split at h
        · rename_i y hy
          simp at h
          exact ⟨fun _ => .other hy, fun _ => h.2⟩
        · rename_i hy
          simp at h
          obtain ⟨-, rfl⟩ := h
          refine ⟨by simp, fun h2 => ?_⟩
          cases h2 with
          | null _ h3 => exact absurd rfl (h3 x)
          | other h3 => rw [hy] at h3; simp at h3
      | _ =>
        simp [nullTo] at h
        exact ⟨fun _ => .null hn' (by simp), fun _ => by simp [h.2]⟩
    · rename_i hn
      have hn' : (Node.scalar str s).isNull L = false := by simp [Node.isNull, hn]
      refine into_fits L env fuel _ hn' _ (fun w w' e hw hw' hf => ?_) v v' e h
      cases w with
      | basic k nm x =>
        simp only [setScalar] at hf
        split at hf
        · rename_i y hy
          simp at hf
          exact ⟨fun _ => .basic hn hy, fun _ => hf.2⟩
        · rename_i hy
          simp at hf
          obtain ⟨-, rfl⟩ := hf
          refine ⟨by simp, fun h2 => ?_⟩
          cases h2 with
          | null h3 _ => simp [hn'] at h3
          | basic _ h3 => rw [hy] at h3; simp at h3
      | ptr u => exact absurd rfl (hw u)
      | nil u => exact absurd rfl (hw' u)
      | struct fs =>
        simp [setScalar] at hf
        obtain ⟨-, rfl⟩ := hf
        refine ⟨by simp, fun h2 => ?_⟩
        cases h2 with
        | null h3 _ => simp [hn'] at h3
      | other x =>
        simp only [setScalar, ofOther] at hf
        split at hf
        · rename_i y hy
          simp at hf
          exact ⟨fun _ => .other hy, fun _ => hf.2⟩
        · rename_i hy
          simp at hf
          obtain ⟨-, rfl⟩ := hf
          refine ⟨by simp, fun h2 => ?_⟩
          cases h2 with
          | null _ h3 => exact absurd rfl (h3 x)
          | other h3 => rw [hy] at h3; simp at h3
  | m + 1, .seq c, hm, v, v', e, h => by
    simp only [decode] at h
    refine into_fits L env fuel _ (by simp [Node.isNull]) _ (fun w w' e hw hw' hf => ?_) v v' e h
    cases w with
    | ptr u => exact absurd rfl (hw u)
    | nil u => exact absurd rfl (hw' u)
    | other x =>
      simp only [setSeq, ofOther] at hf
      split at hf
      · rename_i y hy
        simp at hf
        exact ⟨fun _ => .other hy, fun _ => hf.2⟩
      · rename_i hy
        simp at hf
        obtain ⟨-, rfl⟩ := hf
        refine ⟨by simp, fun h2 => ?_⟩
        cases h2 with
        | null _ h3 => exact absurd rfl (h3 x)
        | other h3 => rw [hy] at h3; simp at h3
    | basic k nm x =>
      simp [setSeq] at hf
      obtain ⟨-, rfl⟩ := hf
      refine ⟨by simp, fun h2 => ?_⟩
      cases h2 with
      | null h3 _ => simp [Node.isNull] at h3
    | struct fs =>
      simp [setSeq] at hf
      obtain ⟨-, rfl⟩ := hf
      refine ⟨by simp, fun h2 => ?_⟩
      cases h2 with
      | null h3 _ => simp [Node.isNull] at h3
  | m + 1, .map es, hm, v, v', e, h => by
    simp only [decode] at h
    refine into_fits L env fuel _ (by simp [Node.isNull]) _ (fun w w' e hw hw' hf => ?_) v v' e h
    cases w with
    | ptr u => exact absurd rfl (hw u)
    | nil u => exact absurd rfl (hw' u)
    | other x =>
      simp only [ofOther] at hf
      split at hf
      · rename_i y hy
        simp at hf
        exact ⟨fun _ => .other hy, fun _ => hf.2⟩
      · rename_i hy
        simp at hf
        obtain ⟨-, rfl⟩ := hf
        refine ⟨by simp, fun h2 => ?_⟩
        cases h2 with
        | null _ h3 => exact absurd rfl (h3 x)
        | other h3 => rw [hy] at h3; simp at h3
    | basic k nm x =>
      simp at hf
      obtain ⟨-, rfl⟩ := hf
      refine ⟨by simp, fun h2 => ?_⟩
      cases h2 with
      | null h3 _ => simp [Node.isNull] at h3
    | struct fs =>
      simp only at hf
      have hinv : Fits L env (.map es) (.struct fs) → es.scalars ∧ es.texts.Nodup := by
        intro h2
        cases h2 with
        | null h3 _ => simp [Node.isNull] at h3
        | struct h3 h4 _ => exact ⟨h3, h4⟩
      split at hf
      · rename_i hd
        simp at hf
        obtain ⟨-, rfl⟩ := hf
        refine ⟨by simp, fun h2 => ?_⟩
        obtain ⟨h3, h4⟩ := hinv h2
        rw [← dup_iff h3, hd] at h4
        simp at h4
      rename_i hd
      simp only [Bool.not_eq_true] at hd
      split at hf
      · simp at hf
      · simp at hf
      rename_i l hl
      obtain ⟨hl, hk⟩ := infos_ok hl
      have hpath : ∀ a ∈ l, ∃ w, (Val.struct fs).get a.path = some w :=
        fun a ha => (effect_info L es _ _ l hl a ha rfl).1
      obtain ⟨h1, h2, h3⟩ := entries_spec L env fuel es l _ _ _ (infosV_apart L _ l hl) hk hpath hd hf
      rw [h3]
      have hsub : es.scalars → es.texts.Nodup → ((∀ a ∈ l, ∀ n, es.find L a.key = some n → ∀ w, (Val.struct fs).get a.path = some w →
            ∃ w', sub L env fuel a n w = .done w' false) ↔ Fits L env (.map es) (.struct fs)) := by
        intro hs hnd
        rw [fits_infos L env es hs hnd _ _ (Nat.le_refl _) l hl]
        have : ∀ a ∈ l, ∀ n, es.find L a.key = some n → ∀ w, (Val.struct fs).get a.path = some w →
            ((∃ w', sub L env fuel a n w = .done w' false) ↔ Fits L env n w) := by
          intro a ha n hn w hw
          have := h1 a ha
          rw [hn] at this
          obtain ⟨w0, w0', ea, g1, g2, g3⟩ := this
          rw [hw] at g1; simp at g1; subst g1
          rw [g2]
          have hfit : ea = false ↔ Fits L env n w := by
            unfold sub at g2
            split at g2
            · unfold readOnly at g2
              split at g2
              · rename_i hnull
                split at g2 <;> simp at g2
                · exact ⟨fun _ => .null hnull (by simp), fun _ => by simp [g2.2]⟩
                · exact ⟨fun _ => .null hnull (by simp), fun _ => by simp [g2.2]⟩
              · simp at g2
            · have hsz := find_size L hn
              simp only [nodeSize] at hm
              exact decode_fits L env fuel m n (by omega) w w0' ea g2
          rw [← hfit]
          simp
        exact ⟨fun hh a ha n hn w hw => (this a ha n hn w hw).1 (hh a ha n hn w hw),
          fun hh a ha n hn w hw => (this a ha n hn w hw).2 (hh a ha n hn w hw)⟩
      constructor
      · rintro ⟨h4, h5⟩
        exact (hsub h4 ((dup_iff h4).1 hd)).1 h5
      · intro h4
        obtain ⟨h5, h6⟩ := hinv h4
        exact ⟨h5, (hsub h5 h6).2 h4⟩

/-- **C108.**  The files that yaml accepts are those that fit the struct. -/
theorem C108_fits (L : Lib) (env : Nat → Ty) (fuel : Nat) (n : Node) (v v' : Val) (e : Bool) (h : decode L env fuel n v = .done v' e) :
    e = false ↔ Fits L env n v :=
  decode_fits L env fuel _ n (Nat.le_refl _) v v' e h

/-! ### No panic -/

/-- A struct, or a pointer to one. -/
def isStruct : Val → Bool
  | .struct _ => true
  | .ptr w => isStruct w
  | _ => false

mutual
/-- The keys of a struct, with those of inlined structs. -/
def keys (L : Lib) : Val → List Bytes
  | .struct fs => keysF L fs
  | .ptr w => keys L w
  | _ => []

def keysF (L : Lib) : Fields → List Bytes
  | .nil => []
  | .cons f v fs =>
    (if (f.exported = false ∧ f.anon = false) ∨ f.yaml.skip = true then []
      else if f.yaml.inl = true then keys L v
      else [keyName L f]) ++ keysF L fs
end

mutual
/-- Values that yaml can decode into: no nil pointers, different keys in each struct, embedded structs exported or
inlined, inlined fields structs. -/
def Sound (L : Lib) : Val → Prop
  | .basic .. => True
  | .other _ => True
  | .nil _ => False
  | .ptr w => Sound L w
  | .struct fs => (keysF L fs).Nodup ∧ SoundF L fs

def SoundF (L : Lib) : Fields → Prop
  | .nil => True
  | .cons f v fs =>
    ((f.exported = true ∨ f.anon = true) → f.yaml.skip = false →
      Sound L v ∧ if f.yaml.inl = true then isStruct v = true else f.exported = true) ∧ SoundF L fs
end

theorem soundF_get {L : Lib} : ∀ {fs : Fields} {i : Nat} {f : FieldInfo} {w : Val}, SoundF L fs → fs.get? i = some (f, w) → Used f →
    Sound L w ∧ if f.yaml.inl = true then isStruct w = true else f.exported = true
  | .nil, i, f, w, _, h, _ => by simp [Fields.get?] at h
  | .cons g v fs, 0, f, w, hs, h, hu => by
    simp only [Fields.get?, Option.some.injEq, Prod.mk.injEq] at h
    obtain ⟨rfl, rfl⟩ := h
    exact hs.1 hu.1 hu.2
  | .cons g v fs, i + 1, f, w, hs, h, hu => soundF_get hs.2 h hu

theorem keys_ok (L : Lib) : ∀ (m : Nat), (∀ v, sizeOf v ≤ m → Sound L v → isStruct v = true → ∃ l, infosV L v = .ok l ∧ l.map (·.key) = keys L v) ∧
    (∀ fs i, sizeOf fs ≤ m → SoundF L fs → ∃ l, infosF L i fs = .ok l ∧ l.map (·.key) = keysF L fs)
  | 0 => ⟨fun v hm => by cases v <;> simp at hm, fun fs i hm => by cases fs <;> simp at hm⟩
  | m + 1 => by
    obtain ⟨ih1, ih2⟩ := keys_ok L m
    constructor
    · intro v hm hs hst
      cases v with
      | basic => simp [isStruct] at hst
      | other => simp [isStruct] at hst
      | nil => simp [isStruct] at hst
      | ptr w =>
        obtain ⟨l, h1, h2⟩ := ih1 w (by simp at hm; omega) (by simpa [Sound] using hs) (by simpa [isStruct] using hst)
        simp only [infosV, h1, Infos.under]
        exact ⟨_, rfl, by simp [keys, ← h2, Function.comp_def]⟩
      | struct fs =>
        obtain ⟨l, h1, h2⟩ := ih2 fs 0 (by simp at hm; omega) hs.2
        exact ⟨l, by simpa only [infosV] using h1, by simpa [keys] using h2⟩
    · intro fs i hm hs
      cases fs with
      | nil => exact ⟨[], by simp [infosF, keysF]⟩
      | cons f v fs =>
        simp at hm
        obtain ⟨l2, h1, h2⟩ := ih2 fs (i + 1) (by omega) hs.2
        by_cases hu : Used f
        · obtain ⟨hsv, hif⟩ := hs.1 hu.1 hu.2
          have c1 : ¬ (!f.exported && !f.anon) = true := by rcases hu.1 with h | h <;> simp [h]
          have c2 : ¬ ((f.exported = false ∧ f.anon = false) ∨ f.yaml.skip = true) := by
            rcases hu.1 with h | h <;> simp [h, hu.2]
          have c3 : ¬ f.yaml.skip = true := by simp [hu.2]
          simp only [infosF, keysF, if_neg c1, if_neg c2, if_neg c3]
          by_cases hi : f.yaml.inl = true
          · rw [if_pos hi] at hif
            obtain ⟨l1, h3, h4⟩ := ih1 v (by omega) hsv hif
            simp only [if_pos hi, h3, h1, Infos.under, Infos.append]
            exact ⟨_, rfl, by simp [← h4, ← h2, Function.comp_def]⟩
          · simp only [if_neg hi, h1, Infos.append]
            exact ⟨_, rfl, by simp [← h2, keyOf_name]⟩
        · have c2 : (f.exported = false ∧ f.anon = false) ∨ f.yaml.skip = true := by
            simp only [Used] at hu
            grind
          simp only [infosF, keysF, if_pos c2]
          by_cases hc : (!f.exported && !f.anon) = true
          · simp only [if_pos hc, h1, Infos.append]
            exact ⟨_, rfl, by simp [← h2]⟩
          · have c3 : f.yaml.skip = true := by grind
            simp only [if_neg hc, if_pos c3, h1, Infos.append]
            exact ⟨_, rfl, by simp [← h2]⟩

theorem modify_total {f : Val → Dec} {w' : Val} {e : Bool} : ∀ {p : List Step} {v w : Val}, v.get p = some w → f w = .done w' e →
    ∃ v', modify f p v = .done v' e
  | [], v, w, h, hf => by simp [get_nil] at h; subst h; exact ⟨_, hf⟩
  | .field i :: p, v, w, h, hf => by
    cases v <;> simp only [Val.get] at h <;> try (simp at h; done)
    split at h
    · rename_i g u hg
      obtain ⟨u', h1⟩ := modify_total h hf
      exact ⟨_, by simp only [modify, hg, h1, Dec.map]; rfl⟩
    · simp at h
  | .deref :: p, v, w, h, hf => by
    cases v <;> simp only [Val.get] at h <;> try (simp at h; done)
    obtain ⟨u', h1⟩ := modify_total h hf
    exact ⟨_, by simp only [modify, h1, Dec.map]; rfl⟩

theorem entries_total (L : Lib) (env : Nat → Ty) (fuel : Nat) : ∀ (es : Entries) (l : List Info) (v : Val),
    l.Pairwise Apart → (l.map (·.key)).Nodup → (∀ a ∈ l, ∃ w, v.get a.path = some w) → es.dup = false →
    (∀ a ∈ l, ∀ n, es.find L a.key = some n → ∀ w, v.get a.path = some w → ∃ w' e, sub L env fuel a n w = .done w' e) →
    ∃ v' e, decodeEntries L env fuel es l v = .done v' e
  | .nil, l, v, _, _, _, _, _ => ⟨v, false, by simp [decodeEntries]⟩
  | .cons k n es, l, v, hl, hk, hw, hd, ht => by
    simp only [Entries.dup, Bool.or_eq_false_iff] at hd
    simp only [decodeEntries]
    have ih := entries_total L env fuel es l
    cases k with
    | map =>
      obtain ⟨v', e, h⟩ := ih v hl hk hw hd.2 (by simpa [Entries.find] using ht)
      exact ⟨_, _, by simp only [keyText, h, Dec.orErr]; rfl⟩
    | seq =>
      obtain ⟨v', e, h⟩ := ih v hl hk hw hd.2 (by simpa [Entries.find] using ht)
      exact ⟨_, _, by simp only [keyText, h, Dec.orErr]; rfl⟩
    | scalar str s =>
      by_cases hn : scalarRes L str s = .null
      · obtain ⟨v', e, h⟩ := ih v hl hk hw hd.2 (by simpa [Entries.find, hn] using ht)
        exact ⟨_, _, by simp only [keyText, hn, if_true, h]; rfl⟩
      · simp only [keyText, if_neg hn]
        have hfind : ∀ t, (Entries.cons (.scalar str s) n es).find L t = if s = t then some n else es.find L t := by
          intro t; simp [Entries.find, hn]
        simp only [hfind] at ht
        cases hf : l.find? (·.key = s) with
        | none =>
          have hne : ∀ a ∈ l, ¬ s = a.key := by
            intro a ha hc
            have := List.find?_eq_none.1 hf a ha
            simp [hc] at this
          exact ih v hl hk hw hd.2 (fun a ha m hm => ht a ha m (by rw [if_neg (hne a ha)]; exact hm))
        | some i =>
          have hil : i ∈ l := List.mem_of_find?_eq_some hf
          have hik : i.key = s := by have := List.find?_some hf; simpa using this
          have huniq : ∀ a ∈ l, a.key = s → a = i := fun a ha hak => key_unique hk ha hil (hak.trans hik.symm)
          have hapart : ∀ a ∈ l, a ≠ i → Apart i a := fun a ha hne => apart_of_ne hl hil ha (Ne.symm hne)
          have hesn : es.find L s = none := find_none_of_has L hd.1
          obtain ⟨w, hwi⟩ := hw i hil
          obtain ⟨w', e1, hsub⟩ := ht i hil n (by rw [if_pos hik.symm]) w hwi
          obtain ⟨v1, hm⟩ := modify_total (f := sub L env fuel i n) hwi hsub
          obtain ⟨u, u', m1, m2, m3, m4⟩ := modify_spec hm
          have hsame : ∀ a ∈ l, a ≠ i → v1.get a.path = v.get a.path := by
            intro a ha hne
            exact m4 _ (hapart a ha hne).1 (hapart a ha hne).2
          obtain ⟨v', e, h⟩ := ih v1 hl hk (fun a ha => by
              by_cases hne : a = i
              · subst hne; exact ⟨_, m3⟩
              · rw [hsame a ha hne]; exact hw a ha) hd.2 (fun a ha m hfm w0 hw0 => by
            have hne : a ≠ i := by
              rintro rfl; rw [hik, hesn] at hfm; simp at hfm
            rw [hsame a ha hne] at hw0
            exact ht a ha m (by rw [if_neg (fun hc => hne (huniq a ha hc.symm))]; exact hfm) w0 hw0)
          unfold sub at hm
          exact ⟨_, _, by simp only [hm, h, Dec.orErr]; rfl⟩

theorem into_total {env : Nat → Ty} {fuel : Nat} {L : Lib} {f : Val → Dec}
    (hf : ∀ w, Sound L w → (∀ u, w ≠ .ptr u) → ∃ w' e, f w = .done w' e) : ∀ (v : Val), Sound L v →
    ∃ v' e, into env fuel f v = .done v' e
  | .ptr w, h => by
    obtain ⟨w', e, h1⟩ := into_total (env := env) (fuel := fuel) hf w (by simpa [Sound] using h)
    exact ⟨_, _, by simp only [into, h1, Dec.map]; rfl⟩
  | .nil m, h => by simp [Sound] at h
  | .basic k nm x, h => by simpa only [into] using hf _ h (by simp)
  | .struct fs, h => by simpa only [into] using hf _ h (by simp)
  | .other x, h => by simpa only [into] using hf _ h (by simp)

theorem sound_info (L : Lib) : ∀ (m : Nat) (v : Val), sizeOf v ≤ m → ∀ l, infosV L v = .ok l → Sound L v → ∀ a ∈ l, ∀ w, v.get a.path = some w →
    Sound L w ∧ a.ro = false
  | 0, v, hm, l, h, hs, a, ha, w, hw => by cases v <;> simp at hm
  | m + 1, v, hm, l, h, hs, a, ha, w, hw => by
    cases v <;> simp only [infosV] at h <;> try (simp at h; done)
    · rename_i w0
      obtain ⟨l', h3, rfl⟩ := under_ok h
      obtain ⟨a', ha', rfl⟩ := List.mem_map.1 ha
      exact sound_info L m w0 (by simp at hm; omega) l' h3 (by simpa [Sound] using hs) a' ha' w (by simpa [Val.get] using hw)
    · rename_i fs
      obtain ⟨j, f, w0, h1, h2, h3⟩ := (infosF_spec L _ _ _ h).1 a ha
      obtain ⟨g1, g2⟩ := soundF_get hs.2 h1 h2
      rcases h3 with ⟨hi, rfl⟩ | ⟨hi, l', h3, a', ha', rfl⟩
      · simp [Val.get, h1, get_nil] at hw
        subst hw
        rw [if_neg (by simp [hi])] at g2
        exact ⟨g1, by simp [g2]⟩
      · have := get?_size h1
        simp only [Nat.zero_add, Val.get, h1] at hw
        exact sound_info L m w0 (by simp at hm; omega) l' h3 g1 a' ha' w hw

theorem decode_total (L : Lib) (env : Nat → Ty) (fuel : Nat) : ∀ (m : Nat) (n : Node), nodeSize n ≤ m → ∀ (v : Val), Sound L v →
    ∃ v' e, decode L env fuel n v = .done v' e
  | 0, n, hm, v, h => by cases n <;> simp [nodeSize] at hm
  | m + 1, .scalar str s, hm, v, h => by
    simp only [decode]
    split
    · cases v <;> simp [nullTo, ofOther]
      split <;> simp
    · refine into_total (fun w hw hp => ?_) v h
      cases w with
      | ptr u => exact absurd rfl (hp u)
      | _ => simp only [setScalar, ofOther] <;> (try split) <;> exact ⟨_, _, rfl⟩
  | m + 1, .seq c, hm, v, h => by
    simp only [decode]
    refine into_total (fun w hw hp => ?_) v h
    cases w <;> simp only [setSeq, ofOther] <;> (try split) <;> exact ⟨_, _, rfl⟩
  | m + 1, .map es, hm, v, h => by
    simp only [decode]
    refine into_total (fun w hw hp => ?_) v h
    cases w with
    | ptr u => exact absurd rfl (hp u)
    | other x => simp only [ofOther]; split <;> exact ⟨_, _, rfl⟩
    | basic => exact ⟨_, _, rfl⟩
    | nil => exact ⟨_, _, rfl⟩
    | struct fs =>
      simp only
      split
      · exact ⟨_, _, rfl⟩
      rename_i hd
      simp only [Bool.not_eq_true] at hd
      obtain ⟨l, hl, hk⟩ := (keys_ok L _).1 _ (Nat.le_refl _) hw rfl
      have hk' : (l.map (·.key)).Nodup := by rw [hk]; exact hw.1
      have : infos L (.struct fs) = .ok l := by simp only [infos, hl, if_pos hk']
      simp only [this]
      have hpath : ∀ a ∈ l, ∃ w, (Val.struct fs).get a.path = some w :=
        fun a ha => (effect_info L es _ _ l hl a ha rfl).1
      refine entries_total L env fuel es l _ (infosV_apart L _ l hl) hk' hpath hd fun a ha n hn u hu => ?_
      obtain ⟨g1, g2⟩ := sound_info L _ _ (Nat.le_refl _) l hl hw a ha u hu
      have hsz := find_size L hn
      simp only [nodeSize] at hm
      simp only [sub, g2, Bool.false_eq_true, if_false]
      exact decode_total L env fuel m n (by omega) u g1

/-- **C108** in full: `Load` with a yaml file does not panic if it does not without. -/
def C108Claim : Prop := ∀ (L : Lib) (env : Nat → Ty) (fuel : Nat) (n : Node) (fs : Fields),
  (∀ i f w, fs.get? i = some (f, w) → f = ⟨f.name, true, false, {}⟩ ∧ ∃ x, w = .basic .int false x) →
  (∀ w, w.pre = [] → loadConf env fuel w (Str.ascii "c") (.struct fs) ≠ some .panic) →
  decode L env fuel n (.struct fs) ≠ .panic

/-- **C108** for structs with different keys: yaml neither panics nor fails to return.  Missing: structs in which
lower-cased names are equal. -/
theorem C108_total_partial (L : Lib) (env : Nat → Ty) (fuel : Nat) (n : Node) (v : Val) (h : Sound L v) :
    ∃ v' e, decode L env fuel n v = .done v' e :=
  decode_total L env fuel _ n (Nat.le_refl _) v h

example : Sound exLib (exStruct true) := by
  simp [exStruct, Sound, SoundF, keysF, keys, isStruct]
  decide

/-- `Load` of a struct that yaml can decode into returns exactly if flags and environment variables have values for their
fields (`C82_conf`) and the yaml file named, if any, can be read and is empty or fits the struct. -/
theorem C108_load (L : Lib) (read : Bytes → Option (Option Node)) (env : Nat → Ty) (fuel : Nat) (w : World) (yamlFlag : Bytes) (fs : Fields)
    (v' : Val) (r : ConfRes) (hi : initStruct env fuel (.struct fs) = some v') (hn : NamesOk v')
    (h : loadConf env fuel w yamlFlag (.struct fs) = some r) (hp : r ≠ .panic)
    (hw : w.yaml = fileEffects L env fuel read v') (hs : Sound L v') :
    (∃ m, r = .done v' m) ↔ ∃ isBool l, KnowsFlags w yamlFlag v' isBool ∧ ArgList isBool w.args l ∧
      (∀ p ∈ l, TakesValue w v' p.1 p.2) ∧
      (∀ loc names k nm x, IsField v' loc names k nm x → ∀ s, w.env (envOf names) = some s → w.pv k s ≠ none) ∧
      (yamlFlag ≠ [] → ∀ file, given l yamlFlag = some file → file ≠ [] →
        read file = some none ∨ ∃ n, read file = some (some n) ∧ Fits L env n v') := by
  rw [(C82_conf env fuel w yamlFlag fs v' r hi hn h hp).1]
  have key : ∀ file, (∃ eff, w.yaml file = some eff) ↔ read file = some none ∨ ∃ n, read file = some (some n) ∧ Fits L env n v' := by
    intro file
    rw [hw]
    unfold fileEffects
    cases hr : read file with
    | none => simp
    | some o =>
      cases o with
      | none => simp
      | some n =>
        obtain ⟨v'', e, hd⟩ := C108_total_partial L env fuel n v' hs
        have := C108_fits L env fuel n v' v'' e hd
        cases e with
        | false => simp [hd, this.1 rfl]
        | true =>
          have hnf : ¬ Fits L env n v' := fun hf => by simpa using this.2 hf
          simp [hd, hnf]
  have hy : ∀ l, (∃ eff, YamlOf w yamlFlag l eff) ↔ (yamlFlag ≠ [] → ∀ file, given l yamlFlag = some file → file ≠ [] →
        read file = some none ∨ ∃ n, read file = some (some n) ∧ Fits L env n v') := by
    intro l
    unfold YamlOf
    by_cases hc : yamlFlag = [] ∨ given l yamlFlag = none ∨ given l yamlFlag = some []
    · simp only [if_pos hc]
      refine ⟨fun _ h0 file h1 h2 => ?_, fun _ => ⟨_, rfl⟩⟩
      rcases hc with hc | hc | hc
      · exact absurd hc h0
      · rw [hc] at h1; simp at h1
      · rw [hc] at h1; simp at h1; exact absurd h1 (fun e => h2 e)
    · simp only [if_neg hc]
      constructor
      · rintro ⟨eff, f, h1, h2⟩ h0 file h3 h4
        rw [h1] at h3; simp at h3; subst h3
        exact (key f).1 ⟨eff, h2⟩
      · intro h0
        simp only [not_or] at hc
        cases hg : given l yamlFlag with
        | none => exact absurd hg hc.2.1
        | some file =>
          obtain ⟨eff, he⟩ := (key file).2 (h0 hc.1 file hg (by rintro rfl; exact hc.2.2 hg))
          exact ⟨eff, file, rfl, he⟩
  constructor
  · rintro ⟨isBool, l, eff, h1, h2, h3, h4, h5⟩
    exact ⟨isBool, l, h1, h2, h3, h5, (hy l).1 ⟨eff, h4⟩⟩
  · rintro ⟨isBool, l, h1, h2, h3, h4, h5⟩
    obtain ⟨eff, he⟩ := (hy l).2 h5
    exact ⟨isBool, l, eff, h1, h2, h3, he, h4⟩

/-- `-c=g` where the file `g` contains `n` -/
def exLoad (n : Node) : World :=
  { exWorld [[45, 99, 61, 103]] (fun _ => none) with
    yaml := fileEffects exLib (fun _ => .other) 3 (fun f => if f = [103] then some (some n) else none) (exStruct true) }

example : ∃ m, loadConf (fun _ => .other) 3 (exLoad exFile) [99] (exStruct true) = some (.done (exStruct true) m) ∧
    fieldAfter (exStruct true) m [.field 0, .field 0] = some 80 := ⟨_, rfl, rfl⟩

/-- `host: {}` does not fit an int. -/
example : loadConf (fun _ => .other) 3 (exLoad (.map (.cons (.scalar false (Str.ascii "host")) (.map .nil) .nil))) [99] (exStruct true) =
    some .exit := rfl

/-- **C89** does not hold for all fields: with `a: null` in the file `f`, `-c f -a 5` and the environment variable `A`
leave the field `A` of `struct { A *int }` nil; flag and variable have set a variable that nothing points to. -/
theorem C89_violated : ∃ (w : World) (v' : Val) (m : Mem),
    loadConf (fun _ => .basic .int false) 3 w [99] (.struct (.cons ⟨Str.ascii "A", true, false, {}⟩ (.nil 0) .nil)) =
      some (.done v' m) ∧
    w.yaml = fileEffects exLib (fun _ => .basic .int false) 3
      (fun _ => some (some (.map (.cons (.scalar false (Str.ascii "a")) (.scalar false (Str.ascii "null")) .nil)))) v' ∧
    w.args = [Str.ascii "-c", Str.ascii "f", Str.ascii "-a", [5]] ∧ w.env (Str.ascii "A") = some [6] ∧
    w.pv .int [5] = some 5 ∧ w.pv .int [6] = some 6 ∧
    IsField v' [.field 0, .deref] [Str.ascii "A"] .int false 0 ∧ flagOf [Str.ascii "A"] = Str.ascii "a" ∧
    fieldAfter v' m [.field 0, .deref] = none :=
  ⟨{ exWorld [Str.ascii "-c", Str.ascii "f", Str.ascii "-a", [5]] (fun _ => some [6]) with
      yaml := fileEffects exLib (fun _ => .basic .int false) 3
        (fun _ => some (some (.map (.cons (.scalar false (Str.ascii "a")) (.scalar false (Str.ascii "null")) .nil))))
        (.struct (.cons ⟨Str.ascii "A", true, false, {}⟩ (.ptr (.basic .int false 0)) .nil)) },
    _, _, rfl, rfl, rfl, rfl, rfl, rfl, ⟨_, rfl, rfl, rfl⟩, by decide, rfl⟩

/-- `struct { Ab, AB int }` -/
def exTwice : Fields := .cons ⟨Str.ascii "Ab", true, false, {}⟩ (.basic .int false 0) (.cons ⟨Str.ascii "AB", true, false, {}⟩ (.basic .int false 0) .nil)

/-- The flags of `exTwice` are `-ab` and `-a-b`, its keys are both `ab`: every mapping makes yaml panic. -/
theorem C108_violated : ¬ C108Claim := by
  intro h
  refine h exLib (fun _ => .other) 5 (.map .nil) exTwice ?_ ?_ ?_
  · intro i f w hf
    match i with
    | 0 => simp [exTwice, Fields.get?] at hf; obtain ⟨rfl, rfl⟩ := hf; simp
    | 1 => simp [exTwice, Fields.get?] at hf; obtain ⟨rfl, rfl⟩ := hf; simp
    | i + 2 => simp [exTwice, Fields.get?] at hf
  · intro w hw hp
    have hi : initStruct (fun _ => .other) 5 (.struct exTwice) = some (.struct exTwice) := by rfl
    have hb : (visitExportedFields (.struct exTwice)).map bindingOf =
      [⟨Str.ascii "ab", Str.ascii "AB", .int, false⟩, ⟨Str.ascii "a-b", Str.ascii "A_B", .int, false⟩] := by decide +kernel
    simp only [loadConf, hi] at hp
    split at hp
    · rename_i h1
      rw [C81_panic, hb, hw] at h1
      have h2 : ¬ BadName (Str.ascii "c") ∧ ¬ BadName (Str.ascii "ab") ∧ ¬ BadName (Str.ascii "AB") ∧ ¬ BadName (Str.ascii "a-b") ∧ ¬ BadName (Str.ascii "A_B") := by
        simp only [← oddName_iff]; decide
      rcases h1 with h1 | h1 | h1 | h1 | h1 | h1
      · revert h1; decide
      · revert h1; decide
      · revert h1; decide
      · simp at h1
      · revert h1; decide
      · simp [h2] at h1
    · simp at hp
    · simp at hp
  · rfl

/-! ### What the variables hold does not matter -/

mutual
/-- Values that differ only in what their variables hold. -/
def Same : Val → Val → Prop
  | .basic k nm _, .basic k' nm' _ => k = k' ∧ nm = nm'
  | .other x, .other y => x = y
  | .nil m, .nil m' => m = m'
  | .ptr v, .ptr w => Same v w
  | .struct fs, .struct gs => SameF fs gs
  | _, _ => False

def SameF : Fields → Fields → Prop
  | .nil, .nil => True
  | .cons f v fs, .cons g w gs => f = g ∧ Same v w ∧ SameF fs gs
  | _, _ => False
end

theorem sameF_get : ∀ {fs gs : Fields}, SameF fs gs → ∀ i, (fs.get? i = none ∧ gs.get? i = none) ∨
    ∃ f v w, fs.get? i = some (f, v) ∧ gs.get? i = some (f, w) ∧ Same v w
  | .nil, .nil, _, i => by simp [Fields.get?]
  | .nil, .cons .., h, _ => by simp [SameF] at h
  | .cons .., .nil, h, _ => by simp [SameF] at h
  | .cons f v fs, .cons g w gs, h, 0 => by
    obtain ⟨rfl, h1, -⟩ := h
    exact .inr ⟨f, v, w, rfl, rfl, h1⟩
  | .cons f v fs, .cons g w gs, h, i + 1 => sameF_get h.2.2 i

/-- What a file does to a variable does not depend on what the variables hold, so that it does not matter that `Load`
has set some of them from flags before it reads the file. -/
theorem C107_same (L : Lib) : ∀ (loc : List Step) (n : Node) (v w : Val), Same v w → effect L loc n v = effect L loc n w
  | [], n, v, w, h => by
    cases v <;> cases w <;> simp [Same] at h <;> simp [effect]
    cases n <;> simp [h.1]
  | .deref :: p, n, v, w, h => by
    cases v <;> cases w <;> simp only [Same] at h <;> simp only [effect]
    rw [C107_same L p n _ _ h]
  | .field i :: p, n, v, w, h => by
    cases v <;> cases w <;> simp only [Same] at h <;> simp only [effect]
    cases n with
    | map es =>
      simp only
      rcases sameF_get h i with ⟨h1, h2⟩ | ⟨f, u, u', h1, h2, h3⟩
      · rw [h1, h2]
      · rw [h1, h2]
        simp only
        split
        · exact C107_same L p _ _ _ h3
        · rfl
    | _ => simp

mutual
theorem same_symm : ∀ (v w : Val), Same v w → Same w v
  | .basic .., w, h => by cases w <;> simp [Same] at h ⊢; exact ⟨h.1.symm, h.2.symm⟩
  | .other _, w, h => by cases w <;> simp [Same] at h ⊢; exact h.symm
  | .nil _, w, h => by cases w <;> simp [Same] at h ⊢; exact h.symm
  | .ptr v, w, h => by cases w <;> simp [Same] at h ⊢; exact same_symm v _ h
  | .struct fs, w, h => by cases w <;> simp [Same] at h ⊢; exact sameF_symm fs _ h
theorem sameF_symm : ∀ (v w : Fields), SameF v w → SameF w v
  | .nil, w, h => by cases w <;> simp [SameF] at h ⊢
  | .cons f v fs, w, h => by
    cases w <;> simp [SameF] at h ⊢
    exact ⟨h.1.symm, same_symm v _ h.2.1, sameF_symm fs _ h.2.2⟩
end

theorem fits_same {L : Lib} {env : Nat → Ty} {n : Node} {v : Val} (h : Fits L env n v) : ∀ w, Same v w → Fits L env n w := by
  induction h with
  | null h1 h2 =>
    intro w hw
    refine .null h1 fun x hx => ?_
    subst hx
    rename_i v
    cases v <;> simp [Same] at hw
    exact h2 _ rfl
  | basic h1 h2 =>
    intro w hw
    cases w <;> simp [Same] at hw
    obtain ⟨rfl, rfl⟩ := hw
    exact .basic h1 h2
  | other h1 =>
    intro w hw
    cases w <;> simp [Same] at hw
    subst hw
    exact .other h1
  | ptr h1 _ ih =>
    intro w hw
    cases w <;> simp [Same] at hw
    exact .ptr h1 (ih _ hw)
  | nil h1 h2 _ =>
    intro w hw
    cases w <;> simp [Same] at hw
    subst hw
    exact .nil h1 h2
  | struct h1 h2 _ ih =>
    intro w hw
    cases w <;> simp [Same] at hw
    refine .struct h1 h2 fun i f u n hi hc => ?_
    rcases sameF_get hw i with ⟨g1, g2⟩ | ⟨f', u', u'', g1, g2, g3⟩
    · rw [hi] at g2; simp at g2
    · rw [hi] at g2; simp at g2
      obtain ⟨rfl, rfl⟩ := g2
      exact ih i _ u' n g1 hc _ g3

/-- Nor does it matter for whether the file is accepted. -/
theorem C108_same (L : Lib) (env : Nat → Ty) (n : Node) (v w : Val) (h : Same v w) : Fits L env n v ↔ Fits L env n w :=
  ⟨fun h1 => fits_same h1 w h, fun h1 => fits_same h1 v (same_symm v w h)⟩

/-! ## C109 -/

theorem litDigits_filter {base acc n : Nat} {t : Bytes} (h : LitDigits base acc t n) : LitDigits base acc (t.filter (· ≠ 95)) n := by
  induction h with
  | last hd => rw [List.filter_cons_of_pos (by simpa using digitOf_ne hd)]; exact .last hd
  | next hd _ ih => rw [List.filter_cons_of_pos (by simpa using digitOf_ne hd)]; exact .next hd ih
  | sep hd _ ih =>
    rw [List.filter_cons_of_pos (by simpa using digitOf_ne hd), List.filter_cons_of_neg (by simp)]
    exact .next hd ih

theorem litDigits_bytes {base acc n : Nat} {t : Bytes} (h : LitDigits base acc t n) : ∀ b ∈ t, b = 95 ∨ ∃ d, DigitOf base b d := by
  induction h with
  | last hd => simp; exact .inr ⟨_, hd⟩
  | next hd _ ih => simp; exact ⟨.inr ⟨_, hd⟩, ih⟩
  | sep hd _ ih => simp; exact ⟨.inr ⟨_, hd⟩, ih⟩

theorem digitOf_dash {base d : Nat} : ¬ DigitOf base 45 d := by
  rintro ⟨-, h⟩
  have : (45 : UInt8).toNat = 45 := rfl
  omega

theorem digitOf_isDig {base d : Nat} (hb : base ≤ 10) {c : UInt8} (h : DigitOf base c d) : isDig c = true := by
  obtain ⟨h1, h2⟩ := h
  simp only [isDig, Bool.and_eq_true, decide_eq_true_eq, UInt8.le_iff_toNat_le]
  have : (48 : UInt8).toNat = 48 := rfl
  have : (57 : UInt8).toNat = 57 := rfl
  omega

theorem prefix_ne {p : UInt8} {base : Nat} (h : (p, base) ∈ prefixes) : p ≠ 95 ∧ p ≠ 45 := by
  rw [prefix_iff] at h
  rcases h with ⟨h | h, -⟩ | ⟨h | h, -⟩ | ⟨h | h, -⟩ <;> subst h <;> decide

theorem literal_filter {t : Bytes} {n : Nat} (h : Literal t n) : Literal (t.filter (· ≠ 95)) n := by
  cases h with
  | zero => exact .zero
  | decimal h1 h2 =>
    refine .decimal (litDigits_filter h1) ?_
    obtain ⟨c, r, d, rfl, hd⟩ := litDigits_head h1
    rw [List.filter_cons_of_pos (by simpa using digitOf_ne hd)]
    simpa using h2
  | octal h1 h2 =>
    have := Literal.octal (u := []) (.inl rfl) (litDigits_filter h2)
    rcases h1 with rfl | rfl <;> simpa using this
  | based hp h1 h2 =>
    have := Literal.based hp (u := []) (.inl rfl) (litDigits_filter h2)
    rcases h1 with rfl | rfl <;> simpa [List.filter_cons, (prefix_ne hp).1] using this

theorem literal_no_dash {t : Bytes} {n : Nat} (h : Literal t n) : 45 ∉ t := by
  have key : ∀ {base acc n : Nat} {t : Bytes}, LitDigits base acc t n → 45 ∉ t := by
    intro base acc n t h hm
    rcases litDigits_bytes h 45 hm with h | ⟨d, h⟩
    · simp at h
    · exact digitOf_dash h
  cases h with
  | zero => decide
  | decimal h1 h2 => exact key h1
  | octal h1 h2 =>
    have := key h2
    rcases h1 with rfl | rfl <;> simp [this]
  | based hp h1 h2 =>
    have := key h2
    rcases h1 with rfl | rfl <;> simp [this, Ne.symm (prefix_ne hp).2]

theorem literal_isDig {t : Bytes} {n : Nat} (h : Literal t n) : ∃ c r, t = c :: r ∧ isDig c = true := by
  cases h with
  | zero => exact ⟨_, _, rfl, by decide⟩
  | decimal h1 h2 =>
    obtain ⟨c, r, d, rfl, hd⟩ := litDigits_head h1
    exact ⟨c, r, rfl, digitOf_isDig (by omega) hd⟩
  | octal h1 h2 => exact ⟨_, _, rfl, by decide⟩
  | based hp h1 h2 => exact ⟨_, _, rfl, by decide⟩

theorem isDig_ne {c : UInt8} (h : isDig c = true) : c ≠ 95 ∧ c ≠ 46 ∧ c ≠ 45 ∧ c ≠ 43 := by
  refine ⟨?_, ?_, ?_, ?_⟩ <;> rintro rfl <;> revert h <;> decide

/-- The words of `resolveMap` do not begin with a digit, or with a sign and a digit. -/
theorem resolveMap_number (L : Lib) {s : Bytes} (h : (∃ c r, s = c :: r ∧ isDig c = true) ∨ ∃ g c r, s = g :: c :: r ∧ (g = 43 ∨ g = 45) ∧ isDig c = true) :
    resolveMap L s = none := by
  have key : ∀ t ∈ ["true", "True", "TRUE", "false", "False", "FALSE", "", "~", "null", "Null", "NULL", ".nan", ".NaN", ".NAN",
      ".inf", ".Inf", ".INF", "+.inf", "+.Inf", "+.INF", "-.inf", "-.Inf", "-.INF"].map Str.ascii, s ≠ t := by
    have e : ∀ t ∈ ["true", "True", "TRUE", "false", "False", "FALSE", "", "~", "null", "Null", "NULL", ".nan", ".NaN", ".NAN",
      ".inf", ".Inf", ".INF", "+.inf", "+.Inf", "+.INF", "-.inf", "-.Inf", "-.INF"].map Str.ascii,
        (t.head?.map isDig ≠ some true) ∧ ((t.head? = some 43 ∨ t.head? = some 45) → t.tail.head?.map isDig ≠ some true) := by decide +kernel
    intro t ht hst
    subst hst
    obtain ⟨e1, e2⟩ := e s ht
    rcases h with ⟨c, r, rfl, hc⟩ | ⟨g, c, r, rfl, hg, hc⟩
    · simp [hc] at e1
    · exact e2 (by simpa using hg) (by simp [hc])
  simp only [List.map_cons, List.map_nil, List.mem_cons, List.not_mem_nil, or_false, forall_eq_or_imp, forall_eq] at key
  simp [resolveMap, key]

theorem intText_shape {s : Bytes} {z : Int} (h : IntText s z) :
    ((∃ c r, s = c :: r ∧ isDig c = true) ∨ ∃ g c r, s = g :: c :: r ∧ (g = 43 ∨ g = 45) ∧ isDig c = true) ∧ 45 ∉ s.tail := by
  obtain ⟨t, n, hl, h⟩ := h
  obtain ⟨c, r, rfl, hc⟩ := literal_isDig hl
  have hd := literal_no_dash hl
  simp only [List.mem_cons, not_or] at hd
  rcases h with ⟨rfl, -⟩ | ⟨rfl, -⟩ | ⟨rfl, -⟩
  · exact ⟨.inl ⟨c, r, rfl, hc⟩, by simpa using hd.2⟩
  · exact ⟨.inr ⟨_, c, r, rfl, .inl rfl, hc⟩, by simpa using hd⟩
  · exact ⟨.inr ⟨_, c, r, rfl, .inr rfl, hc⟩, by simpa using hd⟩

theorem intText_filter {s : Bytes} {z : Int} (h : IntText s z) : IntText (s.filter (· ≠ 95)) z := by
  obtain ⟨t, n, hl, h⟩ := h
  refine ⟨_, n, literal_filter hl, ?_⟩
  rcases h with ⟨rfl, hz⟩ | ⟨rfl, hz⟩ | ⟨rfl, hz⟩
  · exact .inl ⟨rfl, hz⟩
  · exact .inr (.inl ⟨by simp, hz⟩)
  · exact .inr (.inr ⟨by simp, hz⟩)

theorem dropWhile_tail {s : Bytes} (h : 45 ∉ s.tail) (hl : (s.takeWhile isDig).length = 4) : (s.dropWhile isDig).head? ≠ some 45 := by
  cases s with
  | nil => simp
  | cons c r =>
    cases hc : isDig c with
    | false => simp [hc] at hl
    | true =>
      rw [List.dropWhile_cons_of_pos hc]
      intro hh
      have h1 : 45 ∈ r.dropWhile isDig := List.mem_of_head? hh
      exact h ((List.dropWhile_sublist _).mem h1)

/-- A plain integer literal. -/
theorem resolve_int (L : Lib) {s : Bytes} {z : Int} (h : IntText s z) (h1 : -2 ^ 63 ≤ z) (h2 : z < 2 ^ 64)
    (h3 : z < 2 ^ 63 ∨ Literal s z.toNat) : resolve L s = .int z := by
  obtain ⟨hs, hd⟩ := intText_shape h
  have hh : hintOf s = .number := by
    rcases hs with ⟨c, r, rfl, hc⟩ | ⟨g, c, r, rfl, hg, hc⟩
    · simp [hintOf, hc]
    · rcases hg with rfl | rfl <;> simp [hintOf]
  have hst : stampLike s = false := by
    cases hx : stampLike s with
    | false => rfl
    | true =>
      simp only [stampLike, Bool.and_eq_true, decide_eq_true_eq] at hx
      exact absurd hx.2 (dropWhile_tail hd hx.1)
  simp only [resolve, hh, resolveMap_number L hs, hst, Bool.false_and, Bool.false_eq_true, if_false]
  by_cases h4 : z < 2 ^ 63
  · rw [(parseInt0_iff _ z).2 ⟨intText_filter h, h1, h4⟩]
  · have hl : Literal s z.toNat := by rcases h3 with h3 | h3; exact absurd h3 h4; exact h3
    have hp : parseUint (s.filter (· ≠ 95)) = some z.toNat := (parseUint_iff _ _).2 ⟨literal_filter hl, by omega⟩
    have hn : parseInt0 (s.filter (· ≠ 95)) = none := by
      obtain ⟨c, r, hc, c1, c2⟩ := literal_head (literal_filter hl)
      rw [hc] at hp ⊢
      unfold parseInt0
      split
      · rename_i he; simp at he; exact absurd he.1 c1
      · rename_i he; simp at he; exact absurd he.1 c2
      · rw [hp]; simp only [Option.bind_some]; rw [if_pos (by omega)]
    rw [hn, hp]
    simp only [Res.int.injEq]
    omega

/-- **C109**, integers: what flags and environment variables accept is accepted in a yaml file, with the same value. -/
theorem C109_int (L : Lib) (str : Bytes → Int) (flt : Bytes → Option Int) (k : Kind) (hk : k = .int ∨ k = .int64 ∨ k = .uint ∨ k = .uint64)
    (s : Bytes) (z : Int) (h : goPv str flt k s = some z) : conv L k (scalarRes L false s) s = some z := by
  have hr : scalarRes L false s = .int z ∧ (k = .int ∨ k = .int64 → z < 2 ^ 63) ∧ (k = .uint ∨ k = .uint64 → 0 ≤ z) := by
    by_cases hi : k = .int ∨ k = .int64
    · obtain ⟨h1, h2, h3⟩ := (C103_int str flt k hi s z).1 h
      refine ⟨resolve_int L h1 h2 (by omega) (.inl h3), fun _ => h3, fun hc => ?_⟩
      rcases hi with rfl | rfl <;> simp at hc
    · have hu : k = .uint ∨ k = .uint64 := by rcases hk with h | h | h | h <;> simp_all
      obtain ⟨n, rfl, h1, h2⟩ := (C103_uint str flt k hu s z).1 h
      exact ⟨resolve_int L ⟨s, n, h1, .inl ⟨rfl, rfl⟩⟩ (by omega) (by omega) (.inr (by simpa using h1)), fun hc => absurd hc hi, fun _ => by omega⟩
  obtain ⟨h1, h2, h3⟩ := hr
  rcases hk with rfl | rfl | rfl | rfl
  · simp only [conv, h1]; rw [if_pos (h2 (.inl rfl))]
  · simp only [conv, h1]; rw [if_pos (h2 (.inr rfl))]
  · simp only [conv, h1]; rw [if_pos (h3 (.inl rfl))]
  · simp only [conv, h1]; rw [if_pos (h3 (.inr rfl))]

theorem parseUintB_lt {base : Nat} (hb : 2 ≤ base) (hb' : base ≤ 16) {s : Bytes} {n : Nat} (h : parseUintB base s = some n) : n < 2 ^ 64 := by
  unfold parseUintB at h
  split at h
  · simp at h
  · obtain ⟨⟨m, us⟩, h1, rfl⟩ := Option.map_eq_some_iff.1 h
    exact ((uintLoop_iff hb hb' s 0 false m us (by omega)).1 h1).2.1

theorem parseIntB_range {base : Nat} {s : Bytes} {z : Int} (h : parseIntB base s = some z) : -2 ^ 63 ≤ z ∧ z < 2 ^ 64 := by
  unfold parseIntB at h
  split at h
  all_goals
    obtain ⟨n, h1, h2⟩ := Option.bind_eq_some_iff.1 h
    split at h2
    · simp at h2
    · simp only [Option.some.injEq] at h2
      omega

theorem resolveMap_int {L : Lib} {s : Bytes} {i : Int} : resolveMap L s ≠ some (.int i) := by
  unfold resolveMap
  (repeat' split) <;> simp

theorem resolve_range {L : Lib} {s : Bytes} {i : Int} (h : resolve L s = .int i) : -2 ^ 63 ≤ i ∧ i < 2 ^ 64 := by
  unfold resolve at h
  split at h
  · simp at h
  split at h
  · rename_i r hr
    subst h
    exact absurd hr resolveMap_int
  split at h
  · split at h <;> simp at h
  · split at h
    · simp at h
    simp only at h
    split at h
    · rename_i j hj
      simp only [Res.int.injEq] at h; subst h
      have := ((parseInt0_iff _ _).1 hj).2
      omega
    split at h
    · rename_i n hn
      simp only [Res.int.injEq] at h; subst h
      have := ((parseUint_iff _ _).1 hn).2
      omega
    split at h
    · simp at h
    split at h
    · rename_i j hj
      simp only [Res.int.injEq] at h; subst h
      unfold resolveBased at hj
      simp only at hj
      split at hj
      · rcases Option.or_eq_some_iff.1 hj with h1 | ⟨-, h1⟩
        · exact parseIntB_range h1
        · obtain ⟨n, h2, rfl⟩ := Option.map_eq_some_iff.1 h1
          have := parseUintB_lt (by omega) (by omega) h2
          simp only [Int.ofNat_eq_natCast]
          omega
      · exact parseIntB_range hj
      · rcases Option.or_eq_some_iff.1 hj with h1 | ⟨-, h1⟩
        · exact parseIntB_range h1
        · obtain ⟨n, h2, rfl⟩ := Option.map_eq_some_iff.1 h1
          have := parseUintB_lt (by omega) (by omega) h2
          simp only [Int.ofNat_eq_natCast]
          omega
      · exact parseIntB_range hj
      · simp at hj
    · simp at h
  · simp at h

/-- What yaml stores in an integer field is in the range of its type, if what it makes of floats is. -/
theorem C109_range (L : Lib) (hi : ∀ x y, L.toInt x = some y → -2 ^ 63 ≤ y ∧ y < 2 ^ 63) (hu : ∀ x y, L.toUint x = some y → 0 ≤ y ∧ y < 2 ^ 64)
    (k : Kind) (str : Bool) (s : Bytes) (y : Int) (h : conv L k (scalarRes L str s) s = some y) :
    (k = .int ∨ k = .int64 → -2 ^ 63 ≤ y ∧ y < 2 ^ 63) ∧ (k = .uint ∨ k = .uint64 → 0 ≤ y ∧ y < 2 ^ 64) ∧
    (k = .bool → y = 0 ∨ y = 1) := by
  have hr : ∀ i, scalarRes L str s = .int i → -2 ^ 63 ≤ i ∧ i < 2 ^ 64 := by
    intro i h
    cases str with
    | true => simp [scalarRes] at h
    | false => exact resolve_range h
  refine ⟨fun hk => ?_, fun hk => ?_, fun hk => ?_⟩
  · have h' : (match scalarRes L str s with
      | .int i => if i < 2 ^ 63 then some i else none
      | .float x => L.toInt x
      | _ => none) = some y := by rcases hk with rfl | rfl <;> (simp only [conv] at h; exact h)
    split at h'
    · rename_i i hi
      have := hr i hi
      split at h'
      · simp only [Option.some.injEq] at h'; omega
      · simp at h'
    · exact hi _ _ h'
    · simp at h'
  · have h' : (match scalarRes L str s with
      | .int i => if 0 ≤ i then some i else none
      | .float x => L.toUint x
      | _ => none) = some y := by rcases hk with rfl | rfl <;> (simp only [conv] at h; exact h)
    split at h'
    · rename_i i hi
      have := hr i hi
      split at h'
      · simp only [Option.some.injEq] at h'; omega
      · simp at h'
    · exact hu _ _ h'
    · simp at h'
  · subst hk
    simp only [conv] at h
    split at h
    · rename_i b _
      cases b <;> simp at h <;> omega
    · split at h
      · simp at h; omega
      · split at h
        · simp at h; omega
        · simp at h
    · simp at h

/-- In quotes, nothing is a number; strings and durations do not need quotes, but may have them. -/
theorem C109_quoted (L : Lib) (k : Kind) (s : Bytes) :
    (k ≠ .string → k ≠ .duration → k ≠ .bool → conv L k (scalarRes L true s) s = none) ∧
    conv L .string (scalarRes L true s) s = goPv L.str L.flt .string s ∧
    conv L .duration (scalarRes L true s) s = goPv L.str L.flt .duration s := by
  refine ⟨fun h1 h2 h3 => ?_, rfl, rfl⟩
  cases k <;> simp_all [conv, scalarRes]

/-- **C109** in full: a text that is accepted in a yaml file as well as by flags means the same in both. -/
def C109Claim : Prop := ∀ (L : Lib) (k : Kind) (str : Bool) (s : Bytes) (y z : Int), conv L k (scalarRes L str s) s = some y →
  goPv L.str L.flt k s = some z → y = z

/-- **C109** for all types but float64; that one is `C109_float_partial` (Strconv/YamlFloat.lean). -/
theorem C109_same_partial (L : Lib) (k : Kind) (hk : k ≠ .float64) (str : Bool) (s : Bytes) (y z : Int)
    (h1 : conv L k (scalarRes L str s) s = some y) (h2 : goPv L.str L.flt k s = some z) : y = z := by
  have hint : k = .int ∨ k = .int64 ∨ k = .uint ∨ k = .uint64 → y = z := by
    intro hk
    cases str with
    | false => rw [C109_int L L.str L.flt k hk s z h2] at h1; simpa using h1.symm
    | true => rcases hk with rfl | rfl | rfl | rfl <;> simp [scalarRes, conv] at h1
  cases k with
  | int => exact hint (by simp)
  | int64 => exact hint (by simp)
  | uint => exact hint (by simp)
  | uint64 => exact hint (by simp)
  | float64 => exact absurd rfl hk
  | string => simp [conv, goPv] at h1 h2; omega
  | duration =>
    simp only [conv] at h1
    split at h1
    · simp only [goPv] at h2; rw [h1] at h2; simpa using h2
    · simp at h1
  | bool =>
    have h3 := (C103_bool L.str L.flt s z).1 h2
    have hs : s ∈ [Str.ascii "1", Str.ascii "t", Str.ascii "T", Str.ascii "true", Str.ascii "TRUE", Str.ascii "True"] ∧ z = 1 ∨
        s ∈ [Str.ascii "0", Str.ascii "f", Str.ascii "F", Str.ascii "false", Str.ascii "FALSE", Str.ascii "False"] ∧ z = 0 := by
      rcases h3 with ⟨h, h'⟩ | ⟨h, h'⟩
      · exact .inl ⟨h', h⟩
      · exact .inr ⟨h', h⟩
    have tab : ∀ str, (∀ s ∈ [Str.ascii "1", Str.ascii "t", Str.ascii "T", Str.ascii "true", Str.ascii "TRUE", Str.ascii "True"],
          conv L .bool (scalarRes L str s) s = none ∨ conv L .bool (scalarRes L str s) s = some 1) ∧
        (∀ s ∈ [Str.ascii "0", Str.ascii "f", Str.ascii "F", Str.ascii "false", Str.ascii "FALSE", Str.ascii "False"],
          conv L .bool (scalarRes L str s) s = none ∨ conv L .bool (scalarRes L str s) s = some 0) := by
      intro str
      cases str
      all_goals
        simp only [List.mem_cons, List.not_mem_nil, or_false, forall_eq_or_imp, forall_eq]
        refine ⟨⟨?_, ?_, ?_, ?_, ?_, ?_⟩, ⟨?_, ?_, ?_, ?_, ?_, ?_⟩⟩ <;> first | exact .inl rfl | exact .inr rfl
    rcases hs with ⟨hs, rfl⟩ | ⟨hs, rfl⟩
    · rcases (tab str).1 s hs with e | e <;> rw [e] at h1 <;> simp at h1
      exact h1.symm
    · rcases (tab str).2 s hs with e | e <;> rw [e] at h1 <;> simp at h1
      exact h1.symm

/-- The library where floats are decimal numbers without fraction. -/
def decLib : Lib := { exLib with flt := fun s => if s.all isDig then some (s.foldl (fun n b => 10 * n + (b.toNat - 48)) 0) else none }

/-- `010` is ten for a flag, and eight in a yaml file. -/
theorem C109_violated : ¬ C109Claim := by
  intro h
  have := h decLib .float64 false (Str.ascii "010") 8 10 (by decide +kernel) (by decide +kernel)
  omega

/-- Texts that only flags accept, and texts that only yaml accepts. -/
theorem C109_differ : (∀ (L : Lib) (str : Bool), conv L .bool (scalarRes L str (Str.ascii "1")) (Str.ascii "1") = none ∧
      goPv L.str L.flt .bool (Str.ascii "1") = some 1) ∧
    (∀ (L : Lib), conv L .duration (scalarRes L false (Str.ascii "0")) (Str.ascii "0") = none ∧ goPv L.str L.flt .duration (Str.ascii "0") = some 0) ∧
    (∀ (L : Lib) (str : Bool), conv L .bool (scalarRes L str (Str.ascii "yes")) (Str.ascii "yes") = some 1 ∧ goPv L.str L.flt .bool (Str.ascii "yes") = none) := by
  refine ⟨fun L str => ⟨by cases str <;> rfl, rfl⟩, fun L => ⟨rfl, rfl⟩, fun L str => ⟨by cases str <;> rfl, rfl⟩⟩

end Gears.Conf.Yaml
