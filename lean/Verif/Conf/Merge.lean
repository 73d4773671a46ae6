import Verif.Conf.YamlProps

/-
C156: anchors, aliases and merge keys in the yaml file of /repo/conf/yaml.go:24-38 (gopkg.in/yaml.v3, version of go.mod: decode.go,
functions `unmarshal`, `alias`, `mapping`, `mappingStruct`, `merge`).

* As in `Yaml.lean` the text of the file is not modelled.  Alias nodes have numbers; `tgt` gives the node that an alias stands for.
* Keys that are aliases are not modelled, nor is the limit for the number of nodes decoded through aliases (it needs more than 1000
  nodes of which more than 99 in 100 are under aliases).
* Sequences and mappings for values of unsupported types, and nodes for embedded fields that are not exported, give `unknown`.
-/

namespace Gears.Conf.Yaml.Merge

open Gears.Str (ascii)

/-! ## Nodes -/

mutual
inductive XNode where
  | scalar (str : Bool) (value : Bytes)
  | seq (ns : XNodes)
  | map (es : XEntries)
  /-- `*name`: alias node number `id` -/
  | ref (id : Nat)

inductive XNodes where
  | nil
  | cons (n : XNode) (ns : XNodes)

inductive XEntries where
  | nil
  | cons (k : Key) (n : XNode) (es : XEntries)
end

def XNodes.length : XNodes → Nat
  | .nil => 0
  | .cons _ ns => ns.length + 1

def XNode.isMap : XNode → Bool
  | .map _ => true
  | _ => false

/-- `isMerge`: a plain `<<` (a quoted one has the tag `!!str`) -/
def isMerge (k : Key) : Bool := k = .scalar false (ascii "<<")

def XEntries.has (k : Key) : XEntries → Bool
  | .nil => false
  | .cons k' _ es => sameKey k k' || es.has k

/-- `uniqueKeys` -/
def XEntries.dup : XEntries → Bool
  | .nil => false
  | .cons k _ es => es.has k || es.dup

/-! ## Decoding -/

/-- As `Dec`; `fatal`: `fail`, which ends the decoding at once with an error -/
inductive XDec where
  | fatal
  | panic
  | unknown
  | done (v : Val) (err : Bool)

def ofDec : Dec → XDec
  | .panic => .panic
  | .unknown => .unknown
  | .done v e => .done v e

def XDec.map (f : Val → Val) : XDec → XDec
  | .done v e => .done (f v) e
  | x => x

def XDec.orErr (e : Bool) : XDec → XDec
  | .done v e' => .done v (e || e')
  | x => x

/-- One after the other. -/
def XDec.bind (d : XDec) (f : Val → XDec) : XDec :=
  match d with
  | .done v e => (f v).orErr e
  | x => x

/-- The loop of `prepare` at a nil pointer (as `intoNil`). -/
def xintoNil (env : Nat → Ty) (f : Val → XDec) : Nat → Nat → XDec
  | 0, _ => .unknown
  | fuel + 1, n =>
    match zero (env n) with
    | .nil m => (xintoNil env f fuel m).map .ptr
    | v => (f v).map .ptr

/-- The loop of `prepare`. -/
def xinto (env : Nat → Ty) (fuel : Nat) (f : Val → XDec) : Val → XDec
  | .ptr w => (xinto env fuel f w).map .ptr
  | .nil n => xintoNil env f fuel n
  | v => f v

/-- `f` at a location (`fieldByIndex`). -/
def xmodify (f : Val → XDec) : List Step → Val → XDec
  | [], v => f v
  | .field i :: p, .struct fs =>
    match fs.get? i with
    | some (_, w) => (xmodify f p w).map fun w' => .struct (Fields.set fs i w')
    | none => .unknown
  | .deref :: p, .ptr w => (xmodify f p w).map .ptr
  | _ :: _, _ => .unknown

section
variable (L : Lib) (env : Nat → Ty) (fuel : Nat) (tgt : Nat → XNode)

/-- What may be merged: mappings, and aliases of mappings (the conditions of `merge`). -/
def mergeable : XNode → Bool
  | .map _ => true
  | .ref id => (tgt id).isMap
  | _ => false

/-- `decoder.mapping` at the end of the pointers; `rest` is the loop of `mappingStruct`. -/
def xmapping (dup : Bool) (rest : List Info → Val → XDec) : Val → XDec := fun w =>
  match w with
  | .other _ => .unknown
  | .struct fs =>
    if dup then .done (.struct fs) true
    else
      match infos L (.struct fs) with
      | .panic => .panic
      | .unknown => .unknown
      | .ok l => rest l (.struct fs)
  | w => .done w true

mutual
/-- `decoder.unmarshal`; `act` are the aliases being decoded (`d.aliases`), `follow` decodes what an alias stands for. -/
def xdec (follow : List Nat → Nat → Val → XDec) (act : List Nat) : XNode → Val → XDec
  | .ref id, v => if id ∈ act then .fatal else follow (id :: act) id v
  | .scalar str s, v => ofDec (decode L env fuel (.scalar str s) v)
  | .seq _, v =>
    xinto env fuel (fun w =>
      match w with
      | .other _ => .unknown
      | w => .done w true) v
  | .map es, v => xinto env fuel (xmapping L es.dup (xentries follow act es)) v

/-- The loop of `decoder.mappingStruct`. -/
def xentries (follow : List Nat → Nat → Val → XDec) (act : List Nat) : XEntries → List Info → Val → XDec
  | .nil, _, v => .done v false
  | .cons k n es, l, v =>
    if isMerge k then (xmerge follow act n v).bind (xentries follow act es l)
    else
      match keyText L k with
      | .skip => xentries follow act es l v
      | .bad => (xentries follow act es l v).orErr true
      | .name s =>
        match l.find? (·.key = s) with
        | none => xentries follow act es l v
        | some i => (if i.ro then .unknown else xmodify (xdec follow act n) i.path v).bind (xentries follow act es l)

/-- `decoder.merge`; mappings and aliases are decoded by `unmarshal`. -/
def xmerge (follow : List Nat → Nat → Val → XDec) (act : List Nat) : XNode → Val → XDec
  | .map es, v => xinto env fuel (xmapping L es.dup (xentries follow act es)) v
  | .ref id, v =>
    if (tgt id).isMap then (if id ∈ act then .fatal else follow (id :: act) id v)
    else .fatal
  | .seq ns, v => xmergeAll follow act ns v
  | .scalar _ _, _ => .fatal

/-- The loop of `merge` over a sequence, which goes backwards. -/
def xmergeAll (follow : List Nat → Nat → Val → XDec) (act : List Nat) : XNodes → Val → XDec
  | .nil, v => .done v false
  | .cons n ns, v => (xmergeAll follow act ns v).bind fun v' => if mergeable tgt n then xdec follow act n v' else .fatal
end

/-- `decoder.alias`, at most so many inside each other. -/
def follow : Nat → List Nat → Nat → Val → XDec
  | 0, _, _, _ => .unknown
  | F + 1, act, id, v => xdec L env fuel tgt (follow F) act (tgt id) v

/-- `yaml.Unmarshal` of a file into a struct. -/
def xunmarshal (F : Nat) (n : XNode) (v : Val) : XDec := xdec L env fuel tgt (follow L env fuel tgt F) [] n v

end

/-! ## Specification -/

/-- Without the entries of `A` whose keys are in `B`. -/
def without (B : Entries) : Entries → Entries
  | .nil => .nil
  | .cons k n A => if B.has k then without B A else .cons k n (without B A)

def append : Entries → Entries → Entries
  | .nil, B => B
  | .cons k n A, B => .cons k n (append A B)

/-- The entries of both; where both have one for a key, that of `B`. -/
def override (A B : Entries) : Entries := append (without B A) B

mutual
/-- Node `n` is node `x` with the aliases written out and, by the definition of the merge key (yaml.org/type/merge.html), the entries
of the merged mappings inserted unless there is an entry for the key: the mapping's own entries count more than merged ones, wherever
the key `<<` is, and in a list of mappings the earlier ones count more. -/
inductive Out (tgt : Nat → XNode) : XNode → Node → Prop where
  | scalar {str s} : Out tgt (.scalar str s) (.scalar str s)
  | seq {ns} : Out tgt (.seq ns) (.seq ns.length)
  | ref {id n} : Out tgt (tgt id) n → Out tgt (.ref id) n
  | map {es A B} : Own tgt es B → Merged tgt es A → Out tgt (.map es) (.map (override A B))

/-- The entries of a mapping other than `<<`. -/
inductive Own (tgt : Nat → XNode) : XEntries → Entries → Prop where
  | nil : Own tgt .nil .nil
  | merge {k n es B} : isMerge k = true → Own tgt es B → Own tgt (.cons k n es) B
  | cons {k n n' es B} : isMerge k = false → Out tgt n n' → Own tgt es B → Own tgt (.cons k n es) (.cons k n' B)

/-- The entries that the key `<<` inserts. -/
inductive Merged (tgt : Nat → XNode) : XEntries → Entries → Prop where
  | nil : Merged tgt .nil .nil
  | other {k n es A} : isMerge k = false → Merged tgt es A → Merged tgt (.cons k n es) A
  | one {k n es A} : isMerge k = true → mergeable tgt n = true → Out tgt n (.map A) → Merged tgt (.cons k n es) A
  | list {k ns es A} : isMerge k = true → MergedList tgt ns A → Merged tgt (.cons k (.seq ns) es) A

inductive MergedList (tgt : Nat → XNode) : XNodes → Entries → Prop where
  | nil : MergedList tgt .nil .nil
  | cons {n ns A B} : mergeable tgt n = true → Out tgt n (.map B) → MergedList tgt ns A → MergedList tgt (.cons n ns) (override A B)
end

/-- **C156** in full: a file that is accepted gives the struct the values of the file with aliases and merge keys written out. -/
def C156Claim : Prop := ∀ (L : Lib) (env : Nat → Ty) (fuel : Nat) (tgt : Nat → XNode) (F : Nat) (x : XNode) (n : Node) (v v' : Val),
  (∀ str s a b, L.oth (.scalar str s) a = L.oth (.scalar str s) b) → Out tgt x n →
  xunmarshal L env fuel tgt F x v = .done v' false → decode L env fuel n v = .done v' false

/-! ## One file after the other -/

/-- One after the other. -/
def Dec.bind (d : Dec) (f : Val → Dec) : Dec :=
  match d with
  | .done v e => (f v).orErr e
  | x => x

/-- Files without aliases and merge keys, one after the other into the same struct. -/
def applyAll (L : Lib) (env : Nat → Ty) (fuel : Nat) : List Node → Val → Dec
  | [], v => .done v false
  | n :: ns, v => Dec.bind (decode L env fuel n v) (applyAll L env fuel ns)

/-- The keys only. -/
def bare : XEntries → Entries
  | .nil => .nil
  | .cons k _ es => .cons k (.seq 0) (bare es)

def both (a b : Option (List Node)) : Option (List Node) :=
  match a, b with
  | some a, some b => some (a ++ b)
  | _, _ => none

/-- The files for a mapping; `rest` are those of its entries. -/
def layMap (dup : Bool) (keys : Entries) (rest : Option (List Node)) : Option (List Node) :=
  if dup then some [.map keys] else rest.map (.map .nil :: ·)

mutual
/-- The files without aliases and merge keys that a file stands for: one for every entry, in the order of the file, those of merged
mappings where `<<` is. -/
def lay (tgt : Nat → XNode) (get : Nat → Option (List Node)) : XNode → Option (List Node)
  | .scalar str s => some [.scalar str s]
  | .seq ns => some [.seq ns.length]
  | .ref id => get id
  | .map es => layMap es.dup (bare es) (layE tgt get es)

def layE (tgt : Nat → XNode) (get : Nat → Option (List Node)) : XEntries → Option (List Node)
  | .nil => some []
  | .cons k n es =>
    if isMerge k then both (layV tgt get n) (layE tgt get es)
    else both ((lay tgt get n).map (List.map fun m => .map (.cons k m .nil))) (layE tgt get es)

/-- The files for the value of `<<`. -/
def layV (tgt : Nat → XNode) (get : Nat → Option (List Node)) : XNode → Option (List Node)
  | .seq ns => layM tgt get ns
  | .scalar _ _ => none
  | .map es => layMap es.dup (bare es) (layE tgt get es)
  | .ref id => if (tgt id).isMap then get id else none

def layM (tgt : Nat → XNode) (get : Nat → Option (List Node)) : XNodes → Option (List Node)
  | .nil => some []
  | .cons n ns => both (layM tgt get ns) (if mergeable tgt n then lay tgt get n else none)
end

/-- Aliases at most so many inside each other. -/
def layN (tgt : Nat → XNode) : Nat → Nat → Option (List Node)
  | 0, _ => none
  | d + 1, id => lay tgt (layN tgt d) (tgt id)

/-! ## Lemmas: sequencing -/

/-- What is known of the decoder's result. -/
def Le (x : XDec) (d : Dec) : Prop := x = .unknown ∨ x = ofDec d

theorem orErr_orErr (a b : Bool) (d : Dec) : (d.orErr b).orErr a = d.orErr (a || b) := by
  cases d <;> simp [Dec.orErr, Bool.or_assoc]

theorem orErr_bind (a : Bool) (d : Dec) (f : Val → Dec) : Dec.bind (d.orErr a) f = (Dec.bind d f).orErr a := by
  cases d <;> simp [Dec.orErr, Dec.bind]
  rename_i v e
  cases f v <;> simp [Bool.or_assoc]

theorem bind_assoc (d : Dec) (f g : Val → Dec) : Dec.bind (Dec.bind d f) g = Dec.bind d (fun v => Dec.bind (f v) g) := by
  cases d with
  | done v e => exact orErr_bind e (f v) g
  | _ => rfl

theorem orErr_false (d : Dec) : d.orErr false = d := by cases d <;> simp [Dec.orErr]

theorem bind_done (d : Dec) : Dec.bind d (fun v => .done v false) = d := by
  cases d <;> simp [Dec.bind, Dec.orErr]

theorem bind_eq_done {d : Dec} {f : Val → Dec} {v' : Val} {e : Bool} (h : Dec.bind d f = .done v' e) :
    ∃ v1 e1 e2, d = .done v1 e1 ∧ f v1 = .done v' e2 ∧ e = (e1 || e2) := by
  cases d <;> simp [Dec.bind] at h
  obtain ⟨e'', h1, h2⟩ := orErr_done h
  exact ⟨_, _, _, rfl, h1, h2⟩

theorem bind_eq_ok {d : Dec} {f : Val → Dec} {v' : Val} (h : Dec.bind d f = .done v' false) :
    ∃ v1, d = .done v1 false ∧ f v1 = .done v' false := by
  obtain ⟨v1, e1, e2, h1, h2, h3⟩ := bind_eq_done h
  simp at h3
  exact ⟨v1, by rw [h1, h3.1], by rw [h2, h3.2]⟩

theorem applyAll_append (L : Lib) (env : Nat → Ty) (fuel : Nat) : ∀ (a b : List Node) (v : Val),
    applyAll L env fuel (a ++ b) v = Dec.bind (applyAll L env fuel a v) (applyAll L env fuel b)
  | [], b, v => by simp [applyAll, Dec.bind, orErr_false]
  | n :: a, b, v => by
    simp only [List.cons_append, applyAll, bind_assoc]
    congr 1
    funext u
    exact applyAll_append L env fuel a b u

theorem le_orErr {x : XDec} {d : Dec} (e : Bool) (h : Le x d) : Le (x.orErr e) (d.orErr e) := by
  rcases h with rfl | rfl
  · exact .inl rfl
  · right; cases d <;> rfl

theorem le_map {x : XDec} {d : Dec} (f : Val → Val) (h : Le x d) : Le (x.map f) (d.map f) := by
  rcases h with rfl | rfl
  · exact .inl rfl
  · right; cases d <;> rfl

theorem le_bind {x : XDec} {d : Dec} {f : Val → XDec} {g : Val → Dec} (h : Le x d)
    (hf : ∀ v e, d = .done v e → Le (f v) (g v)) : Le (x.bind f) (Dec.bind d g) := by
  rcases h with rfl | rfl
  · exact .inl rfl
  · cases d with
    | done v e => exact le_orErr e (hf v e rfl)
    | panic => exact .inr rfl
    | unknown => exact .inr rfl

/-- Neither a pointer nor nil. -/
def Leaf : Val → Prop
  | .ptr _ => False
  | .nil _ => False
  | _ => True

theorem zero_not_ptr (t : Ty) (w : Val) : zero t ≠ .ptr w := by cases t <;> simp [zero]

theorem le_intoNil {env : Nat → Ty} {f : Val → XDec} {g : Val → Dec} (h : ∀ w, Leaf w → Le (f w) (g w)) :
    ∀ (fuel n : Nat), Le (xintoNil env f fuel n) (intoNil env g fuel n)
  | 0, n => .inl rfl
  | fuel + 1, n => by
    simp only [xintoNil, intoNil]
    have hz := zero_not_ptr (env n)
    cases hv : zero (env n) with
    | nil m => exact le_map _ (le_intoNil h fuel m)
    | ptr w => exact absurd hv (hz w)
    | basic k nm x => exact le_map _ (h _ trivial)
    | other x => exact le_map _ (h _ trivial)
    | struct fs => exact le_map _ (h _ trivial)

theorem le_into {env : Nat → Ty} {fuel : Nat} {f : Val → XDec} {g : Val → Dec} (h : ∀ w, Leaf w → Le (f w) (g w)) :
    ∀ v, Le (xinto env fuel f v) (into env fuel g v)
  | .ptr w => le_map _ (le_into h w)
  | .nil n => le_intoNil h fuel n
  | .basic .. => h _ trivial
  | .other .. => h _ trivial
  | .struct .. => h _ trivial

theorem le_modify {f : Val → XDec} {g : Val → Dec} (h : ∀ w, Le (f w) (g w)) : ∀ (p : List Step) (v : Val), Le (xmodify f p v) (modify g p v)
  | [], v => h v
  | .field i :: p, v => by
    cases v <;> simp only [xmodify, modify] <;> try exact .inl rfl
    rename_i fs
    cases fs.get? i with
    | none => exact .inl rfl
    | some x => exact le_map _ (le_modify h p _)
  | .deref :: p, v => by
    cases v <;> simp only [xmodify, modify] <;> try exact .inl rfl
    exact le_map _ (le_modify h p _)

/-! ## Lemmas: locations -/

/-- Another value at a location. -/
def put : List Step → Val → Val → Val
  | [], w, _ => w
  | .field i :: p, w, .struct fs =>
    match fs.get? i with
    | some (_, u) => .struct (Fields.set fs i (put p w u))
    | none => .struct fs
  | .deref :: p, w, .ptr u => .ptr (put p w u)
  | _ :: _, _, v => v

theorem set_set_same : ∀ (fs : Fields) (i : Nat) (a b : Val), Fields.set (Fields.set fs i a) i b = Fields.set fs i b
  | .nil, _, _, _ => rfl
  | .cons f v fs, 0, a, b => rfl
  | .cons f v fs, i + 1, a, b => by simp [Fields.set, set_set_same fs i a b]

theorem set_set_comm : ∀ (fs : Fields) (i j : Nat) (a b : Val), i ≠ j →
    Fields.set (Fields.set fs i a) j b = Fields.set (Fields.set fs j b) i a
  | .nil, _, _, _, _, _ => rfl
  | .cons f v fs, 0, 0, a, b, h => absurd rfl h
  | .cons f v fs, 0, j + 1, a, b, h => rfl
  | .cons f v fs, i + 1, 0, a, b, h => rfl
  | .cons f v fs, i + 1, j + 1, a, b, h => by simp [Fields.set, set_set_comm fs i j a b (by omega)]

theorem set_get : ∀ (fs : Fields) (i : Nat) (f : FieldInfo) (w : Val), fs.get? i = some (f, w) → Fields.set fs i w = fs
  | .nil, i, f, w, h => by simp [Fields.get?] at h
  | .cons g v fs, 0, f, w, h => by simp [Fields.get?] at h; simp [Fields.set, h]
  | .cons g v fs, i + 1, f, w, h => by simp [Fields.get?] at h; simp [Fields.set, set_get fs i f w h]

theorem modify_eq {f : Val → Dec} : ∀ {p : List Step} {v w : Val}, v.get p = some w → modify f p v = (f w).map (fun w' => put p w' v)
  | [], v, w, h => by
    simp [get_nil] at h; subst h
    simp only [modify, put]
    cases f v <;> rfl
  | .field i :: p, v, w, h => by
    cases v <;> simp [Val.get] at h
    rename_i fs
    cases hi : fs.get? i with
    | none => simp [hi] at h
    | some a =>
      obtain ⟨g, u⟩ := a
      simp [hi] at h
      simp only [modify, hi, put, modify_eq h]
      cases f w <;> rfl
  | .deref :: p, v, w, h => by
    cases v <;> simp [Val.get] at h
    rename_i u
    simp only [modify, put, modify_eq h]
    cases f w <;> rfl

theorem modify_none {f : Val → Dec} : ∀ {p : List Step} {v : Val}, v.get p = none → modify f p v = .unknown
  | [], v, h => by simp [get_nil] at h
  | .field i :: p, v, h => by
    cases v <;> simp [Val.get] at h <;> simp only [modify]
    rename_i fs
    cases hi : fs.get? i with
    | none => rfl
    | some a =>
      obtain ⟨g, u⟩ := a
      simp [hi] at h
      simp only [modify_none h, Dec.map]
  | .deref :: p, v, h => by
    cases v <;> simp [Val.get] at h <;> simp only [modify]
    simp only [modify_none h, Dec.map]

theorem get_put : ∀ {p : List Step} {v w u : Val}, v.get p = some w → (put p u v).get p = some u
  | [], v, w, u, h => by simp [put, get_nil]
  | .field i :: p, v, w, u, h => by
    cases v <;> simp [Val.get] at h
    rename_i fs
    cases hi : fs.get? i with
    | none => simp [hi] at h
    | some a =>
      obtain ⟨g, u0⟩ := a
      simp [hi] at h
      simp [put, hi, Val.get, get?_set, get_put h]
  | .deref :: p, v, w, u, h => by
    cases v <;> simp [Val.get] at h
    simp [put, Val.get, get_put h]

theorem put_put : ∀ {p : List Step} {v a b : Val}, put p b (put p a v) = put p b v
  | [], v, a, b => rfl
  | .field i :: p, v, a, b => by
    cases v <;> simp [put]
    rename_i fs
    cases hi : fs.get? i with
    | none => simp [put, hi]
    | some x =>
      obtain ⟨g, u0⟩ := x
      simp [put, get?_set, hi, set_set_same, put_put]
  | .deref :: p, v, a, b => by
    cases v <;> simp [put, put_put]

theorem put_get : ∀ {p : List Step} {v w : Val}, v.get p = some w → put p w v = v
  | [], v, w, h => by simp [get_nil] at h; simp [put, h]
  | .field i :: p, v, w, h => by
    cases v <;> simp [Val.get] at h
    rename_i fs
    cases hi : fs.get? i with
    | none => simp [hi] at h
    | some a =>
      obtain ⟨g, u0⟩ := a
      simp [hi] at h
      simp [put, hi, put_get h, set_get fs i g u0 hi]
  | .deref :: p, v, w, h => by
    cases v <;> simp [Val.get] at h
    simp [put, put_get h]

theorem get_put_apart : ∀ {p q : List Step} {v a : Val}, ¬ p <+: q → ¬ q <+: p → (put p a v).get q = v.get q
  | [], q, v, a, h, _ => absurd List.nil_prefix h
  | s :: p, [], v, a, _, h => absurd List.nil_prefix h
  | .field i :: p, .field j :: q, v, a, h1, h2 => by
    cases v <;> simp [put]
    rename_i fs
    cases hi : fs.get? i with
    | none => rfl
    | some x =>
      obtain ⟨g, u0⟩ := x
      simp only [Val.get, get?_set]
      by_cases e : j = i
      · subst e
        simp only [hi, Option.map_some, if_true]
        exact get_put_apart (fun h => h1 (List.cons_prefix_cons.2 ⟨rfl, h⟩)) (fun h => h2 (List.cons_prefix_cons.2 ⟨rfl, h⟩))
      · rw [if_neg e]
  | .field i :: p, .deref :: q, v, a, _, _ => by
    cases v <;> simp [put]
    rename_i fs
    cases hi : fs.get? i <;> simp [Val.get]
  | .deref :: p, .field j :: q, v, a, _, _ => by
    cases v <;> simp [put, Val.get]
  | .deref :: p, .deref :: q, v, a, h1, h2 => by
    cases v <;> simp [put, Val.get]
    exact get_put_apart (fun h => h1 (List.cons_prefix_cons.2 ⟨rfl, h⟩)) (fun h => h2 (List.cons_prefix_cons.2 ⟨rfl, h⟩))

theorem put_comm : ∀ {p q : List Step} {v a b : Val}, ¬ p <+: q → ¬ q <+: p → put p a (put q b v) = put q b (put p a v)
  | [], q, v, a, b, h, _ => absurd List.nil_prefix h
  | s :: p, [], v, a, b, _, h => absurd List.nil_prefix h
  | .field i :: p, .field j :: q, v, a, b, h1, h2 => by
    cases v <;> simp [put]
    rename_i fs
    by_cases e : i = j
    · subst e
      cases hi : fs.get? i with
      | none => simp [put, hi]
      | some x =>
        obtain ⟨g, u0⟩ := x
        simp only [put, get?_set, hi, Option.map_some, if_true, set_set_same]
        rw [put_comm (fun h => h1 (List.cons_prefix_cons.2 ⟨rfl, h⟩)) (fun h => h2 (List.cons_prefix_cons.2 ⟨rfl, h⟩))]
    · cases hi : fs.get? i with
      | none =>
        cases hj : fs.get? j with
        | none => simp [put, hi, hj]
        | some y => simp [put, get?_set, hi, hj, e]
      | some x =>
        cases hj : fs.get? j with
        | none => simp [put, get?_set, hi, hj, Ne.symm e]
        | some y =>
          simp only [put, get?_set, hi, hj, e, Ne.symm e, if_false]
          rw [set_set_comm _ _ _ _ _ (Ne.symm e)]
  | .field i :: p, .deref :: q, v, a, b, _, _ => by
    cases v <;> simp [put]
    rename_i fs
    cases hi : fs.get? i <;> simp [put]
  | .deref :: p, .field j :: q, v, a, b, _, _ => by
    cases v <;> simp [put]
    rename_i fs
    cases hi : fs.get? j <;> simp [put]
  | .deref :: p, .deref :: q, v, a, b, h1, h2 => by
    cases v <;> simp [put]
    exact put_comm (fun h => h1 (List.cons_prefix_cons.2 ⟨rfl, h⟩)) (fun h => h2 (List.cons_prefix_cons.2 ⟨rfl, h⟩))

/-- Two decoders one after the other at the same location. -/
theorem modify_bind {f g : Val → Dec} {p : List Step} {v : Val} :
    Dec.bind (modify f p v) (modify g p) = modify (fun w => Dec.bind (f w) g) p v := by
  cases hv : v.get p with
  | none => rw [modify_none hv, modify_none hv]; rfl
  | some w =>
    rw [modify_eq hv, modify_eq hv]
    cases hf : f w with
    | done w' e =>
      simp only [Dec.map, Dec.bind]
      rw [modify_eq (get_put hv)]
      cases hg : g w' <;> simp [Dec.map, Dec.orErr, put_put]
    | _ => rfl

/-! ## Lemmas: the fields stay the same -/

theorem infosF_set (L : Lib) : ∀ (fs : Fields) (i0 j : Nat) (f : FieldInfo) (w w' : Val), fs.get? j = some (f, w) →
    (f.yaml.inl = true → infosV L w' = infosV L w) → infosF L i0 (Fields.set fs j w') = infosF L i0 fs
  | .nil, i0, j, f, w, w', h, _ => by simp [Fields.get?] at h
  | .cons g v fs, i0, 0, f, w, w', h, hi => by
    simp [Fields.get?] at h
    obtain ⟨rfl, rfl⟩ := h
    simp only [Fields.set, infosF]
    by_cases hh : g.yaml.inl = true
    · rw [hi hh]
    · simp [hh]
  | .cons g v fs, i0, j + 1, f, w, w', h, hi => by
    simp only [Fields.get?] at h
    simp only [Fields.set, infosF, infosF_set L fs (i0 + 1) j f w w' h hi]

theorem infosV_put (L : Lib) : ∀ (q : List Step) (v : Val) (l : List Info), infosV L v = .ok l → ∀ a ∈ l, a.path = q → ∀ u,
    infosV L (put q u v) = .ok l
  | [], v, l, h, a, ha, hq, u => by
    exfalso
    cases v <;> simp only [infosV] at h <;> try contradiction
    · obtain ⟨l', h3, rfl⟩ := under_ok h
      obtain ⟨a', ha', rfl⟩ := List.mem_map.1 ha
      simp at hq
    · obtain ⟨j, p, -, h3⟩ := infosF_field L h a ha
      rw [h3] at hq; simp at hq
  | s :: q, v, l, h, a, ha, hq, u => by
    cases v <;> simp only [infosV] at h <;> try contradiction
    · rename_i w0
      obtain ⟨l', h3, rfl⟩ := under_ok h
      obtain ⟨a', ha', rfl⟩ := List.mem_map.1 ha
      simp at hq
      obtain ⟨rfl, rfl⟩ := hq
      simp only [put, infosV, infosV_put L _ w0 l' h3 a' ha' rfl u, Infos.under]
    · rename_i fs
      obtain ⟨j, f, w0, h1, h2, h3⟩ := (infosF_spec L _ _ _ h).1 a ha
      rcases h3 with ⟨hi, rfl⟩ | ⟨hi, l', h3, a', ha', rfl⟩
      · simp at hq
        obtain ⟨rfl, rfl⟩ := hq
        simp only [put, h1, infosV]
        rw [infosF_set L fs 0 j f w0 _ h1 (fun hh => by simp [hi] at hh)]
        exact h
      · simp at hq
        obtain ⟨rfl, rfl⟩ := hq
        simp only [put, h1, infosV]
        rw [infosF_set L fs 0 j f w0 _ h1 (fun _ => by rw [infosV_put L _ w0 l' h3 a' ha' rfl u, h3])]
        exact h

/-- A struct with these fields. -/
def With (L : Lib) (l : List Info) (v : Val) : Prop := (∃ fs, v = .struct fs) ∧ infos L v = .ok l

theorem with_put {L : Lib} {l : List Info} {v : Val} (h : With L l v) {a : Info} (ha : a ∈ l) (u : Val) : With L l (put a.path u v) := by
  obtain ⟨⟨fs, rfl⟩, h2⟩ := h
  obtain ⟨h3, h4⟩ := infos_ok h2
  refine ⟨?_, ?_⟩
  · obtain ⟨j, p, -, h5⟩ := infosF_field L (fs := fs) (i0 := 0) (by simpa [infosV] using h3) a ha
    rw [h5]
    simp only [put]
    cases fs.get? j <;> simp
  · unfold infos
    rw [infosV_put L _ _ l h3 a ha rfl u]
    simp [h4]

theorem with_get {L : Lib} {l : List Info} {v : Val} (h : With L l v) {a : Info} (ha : a ∈ l) : ∃ w, v.get a.path = some w :=
  (effect_info L .nil _ _ l (infos_ok h.2).1 a ha rfl).1

theorem find_mem {l : List Info} {s : Bytes} {i : Info} (h : l.find? (·.key = s) = some i) : i ∈ l ∧ i.key = s := by
  refine ⟨List.mem_of_find?_eq_some h, ?_⟩
  simpa using List.find?_some h

theorem modify_with {L : Lib} {l : List Info} {v v' : Val} {e : Bool} {f : Val → Dec} (h : With L l v) {a : Info} (ha : a ∈ l)
    (hm : modify f a.path v = .done v' e) : With L l v' := by
  obtain ⟨w, hw⟩ := with_get h ha
  rw [modify_eq hw] at hm
  obtain ⟨w', -, rfl⟩ := map_done hm
  exact with_put h ha w'

theorem entries_with {L : Lib} {env : Nat → Ty} {fuel : Nat} {l : List Info} : ∀ {es : Entries} {v v' : Val} {e : Bool}, With L l v →
    decodeEntries L env fuel es l v = .done v' e → With L l v'
  | .nil, v, v', e, h, hd => by simp [decodeEntries] at hd; exact hd.1 ▸ h
  | .cons k n es, v, v', e, h, hd => by
    simp only [decodeEntries] at hd
    split at hd
    · exact entries_with h hd
    · obtain ⟨e', h1, -⟩ := orErr_done hd
      exact entries_with h h1
    · split at hd
      · exact entries_with h hd
      · rename_i i hi
        split at hd
        · rename_i v1 e1 hm
          obtain ⟨e', h1, -⟩ := orErr_done hd
          exact entries_with (modify_with h (find_mem hi).1 hm) h1
        · rename_i x hx; exact absurd hd (hx _ _)

/-! ## Lemmas: pointers -/

/-- What `decode` does at the end of the pointers. -/
def mapBody (L : Lib) (env : Nat → Ty) (fuel : Nat) (es : Entries) : Val → Dec := fun w =>
  match w with
  | .other x => ofOther L (.map es) x
  | .struct fs =>
    if es.dup then .done (.struct fs) true
    else
      match infos L (.struct fs) with
      | .panic => .panic
      | .unknown => .unknown
      | .ok l => decodeEntries L env fuel es l (.struct fs)
  | w => .done w true

theorem decode_map (L : Lib) (env : Nat → Ty) (fuel : Nat) (es : Entries) (v : Val) :
    decode L env fuel (.map es) v = into env fuel (mapBody L env fuel es) v := by
  rw [decode]; rfl

theorem body_leaf {L : Lib} {env : Nat → Ty} {fuel : Nat} {es : Entries} {w w' : Val} {e : Bool} (hl : Leaf w)
    (h : mapBody L env fuel es w = .done w' e) : Leaf w' := by
  cases w with
  | ptr => exact hl.elim
  | nil => exact hl.elim
  | basic k nm x => simp [mapBody] at h; rw [← h.1]; trivial
  | other x =>
    simp only [mapBody, ofOther] at h
    split at h <;> · simp at h; rw [← h.1]; trivial
  | struct fs =>
    simp only [mapBody] at h
    split at h
    · simp at h; rw [← h.1]; trivial
    split at h
    · simp at h
    · simp at h
    · rename_i l hl
      obtain ⟨⟨fs', rfl⟩, -⟩ := entries_with (v := .struct fs) ⟨⟨fs, rfl⟩, hl⟩ h
      trivial

theorem into_leaf {env : Nat → Ty} {fuel : Nat} {f : Val → Dec} {w : Val} (h : Leaf w) : into env fuel f w = f w := by
  cases w <;> first | rfl | exact h.elim

theorem intoNil_congr {env : Nat → Ty} {f g : Val → Dec} (h : ∀ w, Leaf w → f w = g w) : ∀ (fuel n : Nat),
    intoNil env f fuel n = intoNil env g fuel n
  | 0, n => rfl
  | fuel + 1, n => by
    simp only [intoNil]
    have hz := zero_not_ptr (env n)
    cases hv : zero (env n) with
    | nil m => simp only [intoNil_congr h fuel m]
    | ptr w => exact absurd hv (hz w)
    | basic k nm x => simp only [h _ (show Leaf (.basic k nm x) from trivial)]
    | other x => simp only [h _ (show Leaf (.other x) from trivial)]
    | struct fs => simp only [h _ (show Leaf (.struct fs) from trivial)]

theorem into_congr {env : Nat → Ty} {fuel : Nat} {f g : Val → Dec} (h : ∀ w, Leaf w → f w = g w) : ∀ v, into env fuel f v = into env fuel g v
  | .ptr w => by simp only [into, into_congr h w]
  | .nil n => by simp only [into, intoNil_congr h fuel n]
  | .basic .. => h _ trivial
  | .other .. => h _ trivial
  | .struct .. => h _ trivial

theorem bind_ptr {env : Nat → Ty} {fuel : Nat} {g : Val → Dec} (d : Dec) :
    Dec.bind (d.map .ptr) (into env fuel g) = (Dec.bind d (into env fuel g)).map .ptr := by
  cases d with
  | done v e =>
    simp only [Dec.map, Dec.bind, into]
    cases into env fuel g v <;> rfl
  | _ => rfl

theorem bind_leaf {env : Nat → Ty} {fuel : Nat} {g : Val → Dec} {d : Dec} (h : ∀ w' e, d = .done w' e → Leaf w') :
    Dec.bind d (into env fuel g) = Dec.bind d g := by
  cases d with
  | done v e => simp only [Dec.bind, into_leaf (h v e rfl)]
  | _ => rfl

theorem intoNil_bind {env : Nat → Ty} {fuel : Nat} {f g : Val → Dec} (h : ∀ w w' e, Leaf w → f w = .done w' e → Leaf w') : ∀ (c n : Nat),
    Dec.bind (intoNil env f c n) (into env fuel g) = intoNil env (fun w => Dec.bind (f w) g) c n
  | 0, n => rfl
  | c + 1, n => by
    simp only [intoNil]
    have hz := zero_not_ptr (env n)
    cases hv : zero (env n) with
    | nil m => simp only [bind_ptr, intoNil_bind h c m]
    | ptr w => exact absurd hv (hz w)
    | basic k nm x => simp only [bind_ptr]; rw [bind_leaf (fun w' e => h (.basic k nm x) w' e trivial)]
    | other x => simp only [bind_ptr]; rw [bind_leaf (fun w' e => h (.other x) w' e trivial)]
    | struct fs => simp only [bind_ptr]; rw [bind_leaf (fun w' e => h (.struct fs) w' e trivial)]

theorem into_bind {env : Nat → Ty} {fuel : Nat} {f g : Val → Dec} (h : ∀ w w' e, Leaf w → f w = .done w' e → Leaf w') : ∀ v,
    Dec.bind (into env fuel f v) (into env fuel g) = into env fuel (fun w => Dec.bind (f w) g) v
  | .ptr w => by simp only [into, bind_ptr, into_bind h w]
  | .nil n => by simp only [into, intoNil_bind h fuel n]
  | .basic .. => bind_leaf (fun w' e => h _ w' e trivial)
  | .other .. => bind_leaf (fun w' e => h _ w' e trivial)
  | .struct .. => bind_leaf (fun w' e => h _ w' e trivial)

def AllMap (ls : List Node) : Prop := ∀ n ∈ ls, ∃ es, n = .map es

theorem into_applyAll (L : Lib) (env : Nat → Ty) (fuel : Nat) : ∀ (ms : List Node), AllMap ms → ms ≠ [] → ∀ v,
    applyAll L env fuel ms v = into env fuel (applyAll L env fuel ms) v
  | [], _, h, v => absurd rfl h
  | m :: ms, h, _, v => by
    obtain ⟨es, rfl⟩ := h m (by simp)
    have h1 : ∀ w, Leaf w → Dec.bind (mapBody L env fuel es w) (applyAll L env fuel ms) = applyAll L env fuel (.map es :: ms) w := by
      intro w hw
      simp only [applyAll, decode_map, into_leaf hw]
    rw [← into_congr h1]
    simp only [applyAll, decode_map]
    cases ms with
    | nil =>
      have h2 : applyAll L env fuel [] = fun v => .done v false := by funext v; rfl
      rw [h2]
      simp only [bind_done]
    | cons m' ms =>
      have ih := into_applyAll L env fuel (m' :: ms) (fun n hn => h n (List.mem_cons_of_mem _ hn)) (by simp)
      rw [← into_bind (fun w w' e hl hw => body_leaf hl hw)]
      congr 1
      funext u
      exact ih u

theorem applyAll_with {L : Lib} {env : Nat → Ty} {fuel : Nat} {l : List Info} : ∀ {ms : List Node} {v v' : Val} {e : Bool}, AllMap ms → With L l v →
    applyAll L env fuel ms v = .done v' e → With L l v'
  | [], v, v', e, _, h, hd => by simp [applyAll] at hd; exact hd.1 ▸ h
  | m :: ms, v, v', e, hm, h, hd => by
    obtain ⟨es, rfl⟩ := hm m (by simp)
    obtain ⟨v1, e1, e2, h1, h2, -⟩ := bind_eq_done hd
    refine applyAll_with (fun n hn => hm n (List.mem_cons_of_mem _ hn)) ?_ h2
    obtain ⟨⟨fs, rfl⟩, hi⟩ := h
    rw [decode_map, into_leaf (show Leaf (.struct fs) from trivial)] at h1
    simp only [mapBody, hi] at h1
    split at h1
    · simp at h1; rw [← h1.1]; exact ⟨⟨fs, rfl⟩, hi⟩
    · exact entries_with ⟨⟨fs, rfl⟩, hi⟩ h1

/-- A single entry, decoded several times. -/
theorem applyAll_entry {L : Lib} {env : Nat → Ty} {fuel : Nat} {l : List Info} (k : Key) : ∀ (ns : List Node) {v : Val}, With L l v →
    applyAll L env fuel (ns.map fun m => .map (.cons k m .nil)) v =
      match keyText L k with
      | .skip => .done v false
      | .bad => .done v (!ns.isEmpty)
      | .name s =>
        match l.find? (·.key = s) with
        | none => .done v false
        | some i => if i.ro then applyAll L env fuel (ns.map fun m => .map (.cons k m .nil)) v else modify (applyAll L env fuel ns) i.path v
  | [], v, h => by
    cases hk : keyText L k with
    | skip => rfl
    | bad => rfl
    | name s =>
      cases hf : l.find? (·.key = s) with
      | none => simp only [hf]; rfl
      | some i =>
        simp only [List.map_nil, hf]
        split
        · rfl
        · obtain ⟨w, hw⟩ := with_get h (find_mem hf).1
          rw [modify_eq hw]
          simp [applyAll, Dec.map, put_get hw]
  | n :: ns, v, h => by
    have ih := fun u (hu : With L l u) => applyAll_entry (env := env) (fuel := fuel) k ns hu
    have h1 : decode L env fuel (.map (.cons k n .nil)) v = decodeEntries L env fuel (.cons k n .nil) l v := by
      obtain ⟨⟨fs, rfl⟩, hi⟩ := h
      rw [decode_map, into_leaf (show Leaf (.struct fs) from trivial)]
      simp [mapBody, hi, Entries.dup, Entries.has]
    have h2 : applyAll L env fuel ((n :: ns).map fun m => .map (.cons k m .nil)) v =
        Dec.bind (decodeEntries L env fuel (.cons k n .nil) l v) (applyAll L env fuel (ns.map fun m => .map (.cons k m .nil))) := by
      rw [← h1]; rfl
    cases hk : keyText L k with
    | skip =>
      rw [h2]
      have := ih v h
      simp only [hk] at this
      simp [decodeEntries, hk, Dec.bind, Dec.orErr, this]
    | bad =>
      rw [h2]
      have := ih v h
      simp only [hk] at this
      simp [decodeEntries, hk, Dec.bind, Dec.orErr, this]
    | name s =>
      cases hf : l.find? (·.key = s) with
      | none =>
        rw [h2]
        have := ih v h
        simp only [hk, hf] at this
        simp [decodeEntries, hk, hf, Dec.bind, Dec.orErr, this]
      | some i =>
        simp only [hf]
        split
        · rfl
        rename_i hr
        rw [h2]
        have h3 : decodeEntries L env fuel (.cons k n .nil) l v = modify (decode L env fuel n) i.path v := by
          simp only [decodeEntries, hk, hf, if_neg hr]
          cases modify (decode L env fuel n) i.path v <;> simp [Dec.orErr]
        rw [h3]
        have h4 : Dec.bind (modify (decode L env fuel n) i.path v) (applyAll L env fuel (ns.map fun m => .map (.cons k m .nil))) =
            Dec.bind (modify (decode L env fuel n) i.path v) (modify (applyAll L env fuel ns) i.path) := by
          cases hm : modify (decode L env fuel n) i.path v with
          | done v1 e1 =>
            have := ih v1 (modify_with h (find_mem hf).1 hm)
            simp only [hk, hf, if_neg hr] at this
            simp only [Dec.bind, this]
          | _ => rfl
        rw [h4, modify_bind]
        rfl

/-! ## Lemmas: the files that a file stands for -/

theorem both_some {a b : Option (List Node)} {ls : List Node} (h : both a b = some ls) : ∃ x y, a = some x ∧ b = some y ∧ ls = x ++ y := by
  unfold both at h
  split at h
  · simp at h; exact ⟨_, _, rfl, rfl, h.symm⟩
  · simp at h

theorem layE_merge {tgt : Nat → XNode} {get : Nat → Option (List Node)} {k : Key} {n : XNode} {es : XEntries} {ls : List Node}
    (hk : isMerge k = true) (h : layE tgt get (.cons k n es) = some ls) :
    ∃ a b, layV tgt get n = some a ∧ layE tgt get es = some b ∧ ls = a ++ b := by
  simp only [layE, hk, if_true] at h
  exact both_some h

theorem layE_cons {tgt : Nat → XNode} {get : Nat → Option (List Node)} {k : Key} {n : XNode} {es : XEntries} {ls : List Node}
    (hk : isMerge k = false) (h : layE tgt get (.cons k n es) = some ls) :
    ∃ a b, lay tgt get n = some a ∧ layE tgt get es = some b ∧ ls = a.map (fun m => .map (.cons k m .nil)) ++ b := by
  simp only [layE, hk, Bool.false_eq_true, if_false] at h
  obtain ⟨x, b, h1, h2, rfl⟩ := both_some h
  simp at h1
  obtain ⟨a, h3, rfl⟩ := h1
  exact ⟨a, b, h3, h2, rfl⟩

theorem layM_cons {tgt : Nat → XNode} {get : Nat → Option (List Node)} {n : XNode} {ns : XNodes} {ls : List Node}
    (h : layM tgt get (.cons n ns) = some ls) :
    ∃ a b, mergeable tgt n = true ∧ lay tgt get n = some a ∧ layM tgt get ns = some b ∧ ls = b ++ a := by
  simp only [layM] at h
  obtain ⟨b, a, h2, h1, rfl⟩ := both_some h
  split at h1
  · exact ⟨a, b, by assumption, h1, h2, rfl⟩
  · simp at h1

theorem layV_cases {tgt : Nat → XNode} {get : Nat → Option (List Node)} {n : XNode} {ls : List Node} (h : layV tgt get n = some ls) :
    (∃ ns, n = .seq ns ∧ layM tgt get ns = some ls) ∨ mergeable tgt n = true ∧ lay tgt get n = some ls := by
  cases n with
  | seq ns => exact .inl ⟨_, rfl, by simpa [layV] using h⟩
  | scalar str s => simp [layV] at h
  | map es => exact .inr ⟨rfl, by simpa [layV, lay] using h⟩
  | ref id =>
    simp only [layV] at h
    split at h
    · exact .inr ⟨by simpa [mergeable], by simpa [lay] using h⟩
    · simp at h

theorem layV_of {tgt : Nat → XNode} {get : Nat → Option (List Node)} {n : XNode} (h : mergeable tgt n = true) :
    layV tgt get n = lay tgt get n := by
  cases n with
  | seq ns => simp [mergeable] at h
  | scalar str s => simp [mergeable] at h
  | map es => simp [layV, lay]
  | ref id => simp only [mergeable] at h; simp [layV, lay, h]

theorem xmerge_of {L : Lib} {env : Nat → Ty} {fuel : Nat} {tgt : Nat → XNode} {fol : List Nat → Nat → Val → XDec} {act : List Nat} {n : XNode}
    (h : mergeable tgt n = true) (v : Val) : xmerge L env fuel tgt fol act n v = xdec L env fuel tgt fol act n v := by
  cases n with
  | seq ns => simp [mergeable] at h
  | scalar str s => simp [mergeable] at h
  | map es => simp [xmerge, xdec]
  | ref id => simp only [mergeable] at h; simp [xmerge, xdec, h]

theorem lay_map {tgt : Nat → XNode} {get : Nat → Option (List Node)} {es : XEntries} {ls : List Node}
    (h : lay tgt get (.map es) = some ls) :
    es.dup = true ∧ ls = [.map (bare es)] ∨ es.dup = false ∧ ∃ a, layE tgt get es = some a ∧ ls = .map .nil :: a := by
  simp only [lay, layMap] at h
  split at h
  · rename_i hd
    simp at h
    exact .inl ⟨hd, h.symm⟩
  · rename_i hd
    simp at h
    obtain ⟨a, h1, rfl⟩ := h
    exact .inr ⟨by simpa using hd, a, h1, rfl⟩

theorem lay_ne {tgt : Nat → XNode} {get : Nat → Option (List Node)} (hg : ∀ id ls, get id = some ls → ls ≠ []) :
    ∀ (x : XNode) (ls : List Node), lay tgt get x = some ls → ls ≠ []
  | .scalar .., ls, h => by simp [lay] at h; subst h; simp
  | .seq .., ls, h => by simp [lay] at h; subst h; simp
  | .ref id, ls, h => hg id ls (by simpa [lay] using h)
  | .map es, ls, h => by
    rcases lay_map h with ⟨-, rfl⟩ | ⟨-, a, -, rfl⟩ <;> simp

theorem allMap_append {a b : List Node} (ha : AllMap a) (hb : AllMap b) : AllMap (a ++ b) := fun n hn =>
  (List.mem_append.1 hn).elim (ha n) (hb n)

mutual
theorem lay_all {tgt : Nat → XNode} {get : Nat → Option (List Node)} (hg : ∀ id ls, (tgt id).isMap = true → get id = some ls → AllMap ls) :
    ∀ (x : XNode) (ls : List Node), mergeable tgt x = true → lay tgt get x = some ls → AllMap ls
  | .scalar .., ls, h, _ => by simp [mergeable] at h
  | .seq .., ls, h, _ => by simp [mergeable] at h
  | .ref id, ls, h, hl => hg id ls (by simpa [mergeable] using h) (by simpa [lay] using hl)
  | .map es, ls, _, h => by
    rcases lay_map h with ⟨-, rfl⟩ | ⟨-, a, h1, rfl⟩
    · intro n hn; simp at hn; exact ⟨_, hn⟩
    · intro n hn
      rcases List.mem_cons.1 hn with rfl | hn
      · exact ⟨_, rfl⟩
      · exact layE_all hg es a h1 n hn

theorem layE_all {tgt : Nat → XNode} {get : Nat → Option (List Node)} (hg : ∀ id ls, (tgt id).isMap = true → get id = some ls → AllMap ls) :
    ∀ (es : XEntries) (ls : List Node), layE tgt get es = some ls → AllMap ls
  | .nil, ls, h => by simp [layE] at h; subst h; intro n hn; simp at hn
  | .cons k n es, ls, h => by
    cases hk : isMerge k with
    | true =>
      obtain ⟨a, b, h1, h2, rfl⟩ := layE_merge hk h
      refine allMap_append ?_ (layE_all hg es b h2)
      rcases layV_cases h1 with ⟨ns, rfl, h3⟩ | ⟨h3, h4⟩
      · exact layM_all hg ns a h3
      · exact lay_all hg n a h3 h4
    | false =>
      obtain ⟨a, b, h1, h2, rfl⟩ := layE_cons hk h
      refine allMap_append ?_ (layE_all hg es b h2)
      intro m hm
      obtain ⟨m', -, rfl⟩ := List.mem_map.1 hm
      exact ⟨_, rfl⟩

theorem layM_all {tgt : Nat → XNode} {get : Nat → Option (List Node)} (hg : ∀ id ls, (tgt id).isMap = true → get id = some ls → AllMap ls) :
    ∀ (ns : XNodes) (ls : List Node), layM tgt get ns = some ls → AllMap ls
  | .nil, ls, h => by simp [layM] at h; subst h; intro n hn; simp at hn
  | .cons n ns, ls, h => by
    obtain ⟨a, b, h1, h2, h3, rfl⟩ := layM_cons h
    exact allMap_append (layM_all hg ns b h3) (lay_all hg n a h1 h2)
end

mutual
theorem lay_mono {tgt : Nat → XNode} {get get' : Nat → Option (List Node)} (hg : ∀ id ls, get id = some ls → get' id = some ls) :
    ∀ (x : XNode) (ls : List Node), lay tgt get x = some ls → lay tgt get' x = some ls
  | .scalar .., ls, h => by simpa [lay] using h
  | .seq .., ls, h => by simpa [lay] using h
  | .ref id, ls, h => by simpa [lay] using hg id ls (by simpa [lay] using h)
  | .map es, ls, h => by
    rcases lay_map h with ⟨hd, rfl⟩ | ⟨hd, a, h1, rfl⟩
    · simp [lay, layMap, hd]
    · simp [lay, layMap, hd, layE_mono hg es a h1]

theorem layE_mono {tgt : Nat → XNode} {get get' : Nat → Option (List Node)} (hg : ∀ id ls, get id = some ls → get' id = some ls) :
    ∀ (es : XEntries) (ls : List Node), layE tgt get es = some ls → layE tgt get' es = some ls
  | .nil, ls, h => by simpa [layE] using h
  | .cons k n es, ls, h => by
    cases hk : isMerge k with
    | true =>
      obtain ⟨a, b, h1, h2, rfl⟩ := layE_merge hk h
      have h5 : layV tgt get' n = some a := by
        rcases layV_cases h1 with ⟨ns, rfl, h3⟩ | ⟨h3, h4⟩
        · simpa [layV] using layM_mono hg ns a h3
        · rw [layV_of h3]; exact lay_mono hg n a h4
      simp only [layE, hk, if_true]
      rw [h5, layE_mono hg es b h2]
      rfl
    | false =>
      obtain ⟨a, b, h1, h2, rfl⟩ := layE_cons hk h
      simp only [layE, hk, Bool.false_eq_true, if_false, lay_mono hg n a h1, layE_mono hg es b h2, Option.map_some, both]

theorem layM_mono {tgt : Nat → XNode} {get get' : Nat → Option (List Node)} (hg : ∀ id ls, get id = some ls → get' id = some ls) :
    ∀ (ns : XNodes) (ls : List Node), layM tgt get ns = some ls → layM tgt get' ns = some ls
  | .nil, ls, h => by simpa [layM] using h
  | .cons n ns, ls, h => by
    obtain ⟨a, b, h1, h2, h3, rfl⟩ := layM_cons h
    simp only [layM, if_pos h1, lay_mono hg n a h2, layM_mono hg ns b h3, both]
end

theorem layN_succ {tgt : Nat → XNode} : ∀ (d id : Nat) (ls : List Node), layN tgt d id = some ls → layN tgt (d + 1) id = some ls
  | 0, id, ls, h => by simp [layN] at h
  | d + 1, id, ls, h => by
    rw [layN] at h ⊢
    exact lay_mono (layN_succ d) _ _ h

theorem layN_mono {tgt : Nat → XNode} {d d' id : Nat} {ls : List Node} (hd : d ≤ d') (h : layN tgt d id = some ls) : layN tgt d' id = some ls := by
  induction hd with
  | refl => exact h
  | step _ ih => exact layN_succ _ _ _ ih

/-- The least depth that suffices. -/
theorem least {tgt : Nat → XNode} {id : Nat} {ls : List Node} : ∀ {c : Nat}, layN tgt c id = some ls →
    ∃ d1, d1 + 1 ≤ c ∧ layN tgt (d1 + 1) id = some ls ∧ ∀ d, d ≤ d1 → layN tgt d id = none
  | 0, hc => by simp [layN] at hc
  | c + 1, hl => by
    cases hc' : layN tgt c id with
    | none =>
      refine ⟨c, Nat.le_refl _, hl, fun d hd => ?_⟩
      cases hdd : layN tgt d id with
      | none => rfl
      | some ls' => rw [layN_mono hd hdd] at hc'; simp at hc'
    | some ls' =>
      have := layN_succ _ _ _ hc'
      rw [hl] at this
      simp at this; subst this
      obtain ⟨d1, h1, h2, h3⟩ := least hc'
      exact ⟨d1, by omega, h2, h3⟩

theorem layN_ne {tgt : Nat → XNode} : ∀ (d id : Nat) (ls : List Node), layN tgt d id = some ls → ls ≠ []
  | 0, id, ls, h => by simp [layN] at h
  | d + 1, id, ls, h => lay_ne (layN_ne d) _ _ (by simpa [layN] using h)

theorem layN_all {tgt : Nat → XNode} : ∀ (d id : Nat) (ls : List Node), (tgt id).isMap = true → layN tgt d id = some ls → AllMap ls
  | 0, id, ls, _, h => by simp [layN] at h
  | d + 1, id, ls, hm, h => by
    refine lay_all (layN_all d) (tgt id) ls ?_ (by simpa [layN] using h)
    cases ht : tgt id <;> simp [ht, XNode.isMap] at hm
    rfl

theorem has_bare (k : Key) : ∀ es : XEntries, (bare es).has k = es.has k
  | .nil => rfl
  | .cons k' n es => by simp [bare, Entries.has, XEntries.has, has_bare k es]

theorem dup_bare : ∀ es : XEntries, (bare es).dup = es.dup
  | .nil => rfl
  | .cons k n es => by simp [bare, Entries.dup, XEntries.dup, has_bare, dup_bare es]

/-! ## Decoding is the decoding of these files -/

section
variable {L : Lib} {env : Nat → Ty} {fuel : Nat} {tgt : Nat → XNode} {get : Nat → Option (List Node)}
  {fol : List Nat → Nat → Val → XDec} {act : List Nat}

theorem applyAll_basic {k : Kind} {nm : Bool} {x : Int} : ∀ (ls : List Node), AllMap ls →
    ∃ e, applyAll L env fuel ls (.basic k nm x) = .done (.basic k nm x) e
  | [], _ => ⟨false, rfl⟩
  | m :: ls, h => by
    obtain ⟨es, rfl⟩ := h m (by simp)
    obtain ⟨e, he⟩ := applyAll_basic (k := k) (nm := nm) (x := x) ls (fun n hn => h n (List.mem_cons_of_mem _ hn))
    refine ⟨true, ?_⟩
    simp [applyAll, decode_map, into, mapBody, Dec.bind, he, Dec.orErr]

mutual
theorem lay_le (hne : ∀ id ls, get id = some ls → ls ≠ []) (hall : ∀ id ls, (tgt id).isMap = true → get id = some ls → AllMap ls)
    (hf : ∀ id ls, get id = some ls → id ∉ act ∧ ∀ v, Le (fol (id :: act) id v) (applyAll L env fuel ls v)) :
    ∀ (x : XNode) (ls : List Node), lay tgt get x = some ls → ∀ v, Le (xdec L env fuel tgt fol act x v) (applyAll L env fuel ls v)
  | .scalar str s, ls, h, v => by
    simp [lay] at h; subst h
    right
    simp only [xdec, applyAll, bind_done]
  | .seq ns, ls, h, v => by
    simp [lay] at h; subst h
    simp only [xdec, applyAll, bind_done, decode]
    refine le_into (fun w hw => ?_) v
    cases w with
    | other x => exact .inl rfl
    | _ => exact .inr rfl
  | .ref id, ls, h, v => by
    obtain ⟨h1, h2⟩ := hf id ls (by simpa [lay] using h)
    simp only [xdec, if_neg h1]
    exact h2 v
  | .map es, ls, h, v => by
    have ham : AllMap ls := lay_all hall (.map es) ls rfl h
    have hn0 : ls ≠ [] := lay_ne hne _ _ h
    rw [into_applyAll L env fuel ls ham hn0 v]
    simp only [xdec]
    refine le_into (fun w hw => ?_) v
    cases w with
    | other x => exact .inl rfl
    | ptr u => exact hw.elim
    | nil u => exact hw.elim
    | basic k nm x =>
      right
      rcases lay_map h with ⟨hd, rfl⟩ | ⟨hd, a, h1, rfl⟩
      · simp [xmapping, applyAll, decode_map, into, mapBody, Dec.bind, Dec.orErr, ofDec]
      · obtain ⟨e, he⟩ := applyAll_basic (L := L) (env := env) (fuel := fuel) (k := k) (nm := nm) (x := x) a
          (fun n hn => ham n (List.mem_cons_of_mem _ hn))
        simp [xmapping, applyAll, decode_map, into, mapBody, Dec.bind, Dec.orErr, he, ofDec]
    | struct fs =>
      simp only [xmapping]
      rcases lay_map h with ⟨hd, rfl⟩ | ⟨hd, a, h1, rfl⟩
      · right
        simp [hd, applyAll, decode_map, into, mapBody, Dec.bind, Dec.orErr, dup_bare, ofDec]
      · simp only [hd, Bool.false_eq_true, if_false, applyAll]
        cases hi : infos L (.struct fs) with
        | panic =>
          right
          simp [decode_map, into, mapBody, Dec.bind, Entries.dup, hi, ofDec]
        | unknown => exact .inl rfl
        | ok l =>
          have : decode L env fuel (.map .nil) (.struct fs) = .done (.struct fs) false := by
            simp [decode_map, into, mapBody, Entries.dup, hi, decodeEntries]
          rw [this]
          simp only [Dec.bind, orErr_false]
          exact layE_le hne hall hf es a h1 l _ ⟨⟨fs, rfl⟩, hi⟩

theorem layE_le (hne : ∀ id ls, get id = some ls → ls ≠ []) (hall : ∀ id ls, (tgt id).isMap = true → get id = some ls → AllMap ls)
    (hf : ∀ id ls, get id = some ls → id ∉ act ∧ ∀ v, Le (fol (id :: act) id v) (applyAll L env fuel ls v)) :
    ∀ (es : XEntries) (ls : List Node), layE tgt get es = some ls → ∀ l v, With L l v →
      Le (xentries L env fuel tgt fol act es l v) (applyAll L env fuel ls v)
  | .nil, ls, h, l, v, _ => by simp [layE] at h; subst h; right; simp [xentries, applyAll, ofDec]
  | .cons k n es, ls, h, l, v, hw => by
    cases hk : isMerge k with
    | true =>
      obtain ⟨a, b, h1, h2, rfl⟩ := layE_merge hk h
      rw [applyAll_append]
      simp only [xentries, hk, if_true]
      have ham : AllMap a := by
        rcases layV_cases h1 with ⟨ns, rfl, h3⟩ | ⟨h3, h4⟩
        · exact layM_all hall ns a h3
        · exact lay_all hall n a h3 h4
      refine le_bind ?_ (fun v' e hv => layE_le hne hall hf es b h2 l v' (applyAll_with ham hw hv))
      rcases layV_cases h1 with ⟨ns, rfl, h3⟩ | ⟨h3, h4⟩
      · simp only [xmerge]
        exact layM_le hne hall hf ns a h3 l v hw
      · rw [xmerge_of h3]
        exact lay_le hne hall hf n a h4 v
    | false =>
      obtain ⟨a, b, h1, h2, rfl⟩ := layE_cons hk h
      rw [applyAll_append, applyAll_entry k a hw]
      simp only [xentries, hk, Bool.false_eq_true, if_false]
      have ih := layE_le hne hall hf es b h2 l v hw
      cases hkt : keyText L k with
      | skip => simpa [Dec.bind, orErr_false] using ih
      | bad =>
        have : a.isEmpty = false := by
          have := lay_ne hne n a h1
          cases a <;> simp_all
        simp only [Dec.bind, this]
        exact le_orErr true ih
      | name s =>
        cases hfi : l.find? (·.key = s) with
        | none => simpa [hfi, Dec.bind, orErr_false] using ih
        | some i =>
          simp only [hfi]
          split
          · exact .inl rfl
          · exact le_bind (le_modify (fun w => lay_le hne hall hf n a h1 w) _ _)
              (fun v' e hv => layE_le hne hall hf es b h2 l v' (modify_with hw (find_mem hfi).1 hv))

theorem layM_le (hne : ∀ id ls, get id = some ls → ls ≠ []) (hall : ∀ id ls, (tgt id).isMap = true → get id = some ls → AllMap ls)
    (hf : ∀ id ls, get id = some ls → id ∉ act ∧ ∀ v, Le (fol (id :: act) id v) (applyAll L env fuel ls v)) :
    ∀ (ns : XNodes) (ls : List Node), layM tgt get ns = some ls → ∀ l v, With L l v →
      Le (xmergeAll L env fuel tgt fol act ns v) (applyAll L env fuel ls v)
  | .nil, ls, h, l, v, _ => by simp [layM] at h; subst h; right; simp [xmergeAll, applyAll, ofDec]
  | .cons n ns, ls, h, l, v, hw => by
    obtain ⟨a, b, h1, h2, h3, rfl⟩ := layM_cons h
    rw [applyAll_append]
    simp only [xmergeAll]
    refine le_bind (layM_le hne hall hf ns b h3 l v hw) (fun v' e _ => ?_)
    rw [if_pos h1]
    exact lay_le hne hall hf n a h2 v'
end

end

theorem follow_le (L : Lib) (env : Nat → Ty) (fuel : Nat) (tgt : Nat → XNode) : ∀ (D F : Nat), D ≤ F → ∀ act : List Nat,
    (∀ id ∈ act, ∀ d, d ≤ D → layN tgt d id = none) → ∀ id ls, layN tgt D id = some ls →
    id ∉ act ∧ ∀ v, Le (follow L env fuel tgt F (id :: act) id v) (applyAll L env fuel ls v) := by
  intro D
  induction D using Nat.strongRecOn with
  | ind D ih =>
    intro F hF act hact id ls h
    refine ⟨fun hi => by rw [hact id hi D (Nat.le_refl _)] at h; simp at h, fun v => ?_⟩
    obtain ⟨d1, hd1, hl, hnone⟩ := least h
    obtain ⟨F', rfl⟩ : ∃ F', F = F' + 1 := ⟨F - 1, by omega⟩
    simp only [follow]
    refine lay_le (get := layN tgt d1) (layN_ne d1) (layN_all d1) (fun id' ls' h' => ?_) (tgt id) ls (by simpa [layN] using hl) v
    refine ih d1 (by omega) F' (by omega) (id :: act) (fun a ha d hd => ?_) id' ls' h'
    rcases List.mem_cons.1 ha with rfl | ha
    · exact hnone d hd
    · exact hact a ha d (by omega)

/-- **C156**: a file with aliases and merge keys that does not contain itself does to the struct what the files `ls`, which have none, do
one after the other: one file for every entry, in the order of the file, those of merged mappings where `<<` is (the later of several
mappings first).  So of several values for a field the last one counts, and mappings for the same key are joined. -/
theorem C156_order (L : Lib) (env : Nat → Ty) (fuel : Nat) (tgt : Nat → XNode) (D F : Nat) (hF : D ≤ F) (x : XNode) (ls : List Node)
    (h : lay tgt (layN tgt D) x = some ls) (v : Val) :
    xunmarshal L env fuel tgt F x v = .unknown ∨ xunmarshal L env fuel tgt F x v = ofDec (applyAll L env fuel ls v) :=
  lay_le (layN_ne D) (layN_all D) (fun id ls' h' => follow_le L env fuel tgt D F hF [] (by simp) id ls' h') x ls h v

/-! ## Aliases -/

mutual
/-- Node `n` is node `x`, which has no merge keys, with the aliases written out. -/
inductive Copy (tgt : Nat → XNode) : XNode → Node → Prop where
  | scalar {str s} : Copy tgt (.scalar str s) (.scalar str s)
  | seq {ns} : Copy tgt (.seq ns) (.seq ns.length)
  | ref {id n} : Copy tgt (tgt id) n → Copy tgt (.ref id) n
  | map {es es'} : CopyE tgt es es' → Copy tgt (.map es) (.map es')

inductive CopyE (tgt : Nat → XNode) : XEntries → Entries → Prop where
  | nil : CopyE tgt .nil .nil
  | cons {k n n' es es'} : isMerge k = false → Copy tgt n n' → CopyE tgt es es' → CopyE tgt (.cons k n es) (.cons k n' es')
end

theorem copy_lay {tgt : Nat → XNode} {x : XNode} {n : Node} (h : Copy tgt x n) : ∃ D ls, lay tgt (layN tgt D) x = some ls := by
  refine Copy.rec (motive_1 := fun x _ _ => ∃ D ls, lay tgt (layN tgt D) x = some ls)
    (motive_2 := fun es _ _ => ∃ D ls, layE tgt (layN tgt D) es = some ls) ?_ ?_ ?_ ?_ ?_ ?_ h
  · intro str s; exact ⟨0, [.scalar str s], by simp [lay]⟩
  · intro ns; exact ⟨0, [.seq ns.length], by simp [lay]⟩
  · rintro id n - ⟨D, ls, h2⟩; exact ⟨D + 1, ls, by simpa [lay, layN] using h2⟩
  · rintro es es' - ⟨D, ls, h2⟩
    cases hd : es.dup with
    | true => exact ⟨D, [.map (bare es)], by simp [lay, layMap, hd]⟩
    | false => exact ⟨D, .map .nil :: ls, by simp [lay, layMap, hd, h2]⟩
  · exact ⟨0, [], by simp [layE]⟩
  · rintro k n n' es es' hk - - ⟨D, a, h3⟩ ⟨D', b, h4⟩
    refine ⟨max D D', (a.map fun m => .map (.cons k m .nil)) ++ b, ?_⟩
    simp only [layE, hk, Bool.false_eq_true, if_false]
    rw [lay_mono (fun id ls => layN_mono (Nat.le_max_left D D')) _ _ h3, layE_mono (fun id ls => layN_mono (Nat.le_max_right D D')) _ _ h4]
    rfl

theorem copyE_has {tgt : Nat → XNode} (k : Key) : ∀ {es : XEntries} {es' : Entries}, CopyE tgt es es' → es'.has k = es.has k
  | .nil, _, h => by cases h; rfl
  | .cons k' n es, _, h => by
    cases h with
    | cons hk h1 h2 => simp [Entries.has, XEntries.has, copyE_has k h2]

theorem copyE_dup {tgt : Nat → XNode} : ∀ {es : XEntries} {es' : Entries}, CopyE tgt es es' → es'.dup = es.dup
  | .nil, _, h => by cases h; rfl
  | .cons k' n es, _, h => by
    cases h with
    | cons hk h1 h2 => simp [Entries.dup, XEntries.dup, copyE_has _ h2, copyE_dup h2]

section
variable {L : Lib} {env : Nat → Ty} {fuel : Nat} {tgt : Nat → XNode} {get : Nat → Option (List Node)}
  {fol : List Nat → Nat → Val → XDec} {act : List Nat}

mutual
theorem copy_le (hf : ∀ id ls n, get id = some ls → Copy tgt (tgt id) n → id ∉ act ∧ ∀ v, Le (fol (id :: act) id v) (decode L env fuel n v)) :
    ∀ (x : XNode) (n : Node) (ls : List Node), Copy tgt x n → lay tgt get x = some ls → ∀ v,
      Le (xdec L env fuel tgt fol act x v) (decode L env fuel n v)
  | .scalar str s, n, ls, hc, h, v => by
    cases hc
    exact .inr (by simp only [xdec])
  | .seq ns, n, ls, hc, h, v => by
    cases hc
    simp only [xdec, decode]
    refine le_into (fun w hw => ?_) v
    cases w with
    | other x => exact .inl rfl
    | _ => exact .inr rfl
  | .ref id, n, ls, hc, h, v => by
    cases hc with
    | ref hc =>
      obtain ⟨h1, h2⟩ := hf id ls n (by simpa [lay] using h) hc
      simp only [xdec, if_neg h1]
      exact h2 v
  | .map es, n, ls, hc, h, v => by
    cases hc with
    | @map _ es' hc =>
      rw [decode_map]
      simp only [xdec]
      refine le_into (fun w hw => ?_) v
      cases w with
      | other x => exact .inl rfl
      | ptr u => exact hw.elim
      | nil u => exact hw.elim
      | basic k nm x => exact .inr rfl
      | struct fs =>
        simp only [xmapping, mapBody, copyE_dup hc]
        rcases lay_map h with ⟨hd, -⟩ | ⟨hd, a, h1, -⟩
        · rw [if_pos hd, if_pos hd]; exact .inr rfl
        · simp only [hd, Bool.false_eq_true, if_false]
          cases hi : infos L (.struct fs) with
          | panic => exact .inr rfl
          | unknown => exact .inr rfl
          | ok l => exact copyE_le hf es es' a hc h1 l _

theorem copyE_le (hf : ∀ id ls n, get id = some ls → Copy tgt (tgt id) n → id ∉ act ∧ ∀ v, Le (fol (id :: act) id v) (decode L env fuel n v)) :
    ∀ (es : XEntries) (es' : Entries) (ls : List Node), CopyE tgt es es' → layE tgt get es = some ls → ∀ l v,
      Le (xentries L env fuel tgt fol act es l v) (decodeEntries L env fuel es' l v)
  | .nil, es', ls, hc, h, l, v => by cases hc; right; simp [xentries, decodeEntries, ofDec]
  | .cons k n es, _, ls, hc, h, l, v => by
    cases hc with
    | @cons _ _ n' _ es' hk h1 h2 =>
      obtain ⟨a, b, h3, h4, -⟩ := layE_cons hk h
      have ih := copyE_le hf es es' b h2 h4 l
      simp only [xentries, hk, Bool.false_eq_true, if_false, decodeEntries]
      cases hkt : keyText L k with
      | skip => exact ih v
      | bad => exact le_orErr true (ih v)
      | name s =>
        cases hfi : l.find? (·.key = s) with
        | none => simpa only [hfi] using ih v
        | some i =>
          simp only [hfi]
          split
          · exact .inl rfl
          rename_i hr
          have h5 := le_bind (f := xentries L env fuel tgt fol act es l) (g := decodeEntries L env fuel es' l)
            (le_modify (fun w => copy_le hf n n' a h1 h3 w) i.path v) (fun v' e _ => ih v')
          have h6 : Dec.bind (modify (decode L env fuel n') i.path v) (decodeEntries L env fuel es' l) =
              (match modify (decode L env fuel n') i.path v with
              | .done v' e => (decodeEntries L env fuel es' l v').orErr e
              | x => x) := by
            cases modify (decode L env fuel n') i.path v <;> rfl
          rw [h6] at h5
          exact h5
end
end

theorem copy_follow (L : Lib) (env : Nat → Ty) (fuel : Nat) (tgt : Nat → XNode) : ∀ (D F : Nat), D ≤ F → ∀ act : List Nat,
    (∀ id ∈ act, ∀ d, d ≤ D → layN tgt d id = none) → ∀ id ls n, layN tgt D id = some ls → Copy tgt (tgt id) n →
    id ∉ act ∧ ∀ v, Le (follow L env fuel tgt F (id :: act) id v) (decode L env fuel n v) := by
  intro D
  induction D using Nat.strongRecOn with
  | ind D ih =>
    intro F hF act hact id ls n h hc
    refine ⟨fun hi => by rw [hact id hi D (Nat.le_refl _)] at h; simp at h, fun v => ?_⟩
    obtain ⟨d1, hd1, hl, hnone⟩ := least h
    obtain ⟨F', rfl⟩ : ∃ F', F = F' + 1 := ⟨F - 1, by omega⟩
    simp only [follow]
    refine copy_le (get := layN tgt d1) (fun id' ls' n' h' hc' => ?_) (tgt id) n ls hc (by simpa [layN] using hl) v
    refine ih d1 (by omega) F' (by omega) (id :: act) (fun a ha d hd => ?_) id' ls' n' h' hc'
    rcases List.mem_cons.1 ha with rfl | ha
    · exact hnone d hd
    · exact hact a ha d (by omega)

/-- **C156**: a file without merge keys does the same, whatever that is, as the file with the aliases written out. -/
theorem C156_aliases (L : Lib) (env : Nat → Ty) (fuel : Nat) (tgt : Nat → XNode) (x : XNode) (n : Node) (h : Copy tgt x n) :
    ∃ D, ∀ F, D ≤ F → ∀ v, xunmarshal L env fuel tgt F x v = .unknown ∨ xunmarshal L env fuel tgt F x v = ofDec (decode L env fuel n v) := by
  obtain ⟨D, ls, hl⟩ := copy_lay h
  exact ⟨D, fun F hF v => copy_le (fun id ls' n' h' hc => copy_follow L env fuel tgt D F hF [] (by simp) id ls' n' h' hc) x n ls h hl v⟩

end Gears.Conf.Yaml.Merge
