import Verif.Conf.Values

/-
Model of /repo/conf/yaml.go: `yaml.Unmarshal` (gopkg.in/yaml.v3, decode.go, resolve.go, yaml.go; version of go.mod) into a
struct.

* The text of the file is not modelled: its parse is a tree of nodes (`Node`).  Explicit tags (`!!int`) are not modelled;
  anchors, aliases and merge keys (`<<`) are in `Merge.lean`.
* A scalar is its text and whether it is marked as a string (quoted, or a block scalar; `Node.indicatedString`).
* Types with methods `UnmarshalYAML` or `UnmarshalText`, and the type `time.Time`, are not modelled.
* `err` says that errors were noted (`d.terrors`): the decoder goes on after an error, and `Unmarshal` returns one at the
  end (yaml.go:34-37).
* The option `inline` is modelled for structs and pointers to structs that are not nil (`unknown` otherwise).
-/

namespace Gears.Conf.Yaml

open Gears.Str (ascii)

/-! ## Nodes -/

/-- The keys of a mapping. -/
inductive Key where
  | scalar (str : Bool) (value : Bytes)
  | map
  | seq
deriving Repr, DecidableEq

mutual
inductive Node where
  | scalar (str : Bool) (value : Bytes)
  | seq (n : Nat)
  | map (es : Entries)

inductive Entries where
  | nil
  | cons (k : Key) (n : Node) (es : Entries)
end

/-- What is not modelled: the coding of strings and floats (as in `goPv`), conversions between integers and floats, the
details of timestamps, names that are not ASCII, fields of other types. -/
structure Lib where
  str    : Bytes → Int
  /-- `strconv.ParseFloat(s, 64)` -/
  flt    : Bytes → Option Int
  /-- `float64(i)` -/
  ofInt  : Int → Int
  /-- `int64(f)`, `uint64(f)`, if `f` is not too large -/
  toInt  : Int → Option Int
  toUint : Int → Option Int
  /-- `parseTimestamp`, for texts that begin with four digits and `-` -/
  stamp  : Bytes → Bool
  /-- `strings.ToLower` of other texts -/
  lower  : Bytes → Bytes
  /-- decoding into a value of an unsupported type -/
  oth    : Node → Int → Option Int

/-! ## Plain scalars (resolve.go) -/

/-- What a scalar stands for (`time`: a timestamp). -/
inductive Res where
  | null
  | bool (b : Bool)
  | int (i : Int)
  | float (x : Int)
  | time
  | str
deriving Repr, DecidableEq

def isDig (b : UInt8) : Bool := 48 ≤ b && b ≤ 57

/-- `yamlStyleFloat`: `^[-+]?(\.[0-9]+|[0-9]+(\.[0-9]*)?)([eE][-+]?[0-9]+)?$` -/
def yamlFloat (s : Bytes) : Bool :=
  let s := match s with | 45 :: s => s | 43 :: s => s | s => s
  let exponent : Bytes → Bool := fun s => match s with
    | [] => true
    | c :: s =>
      (c = 101 || c = 69) &&
      (let s := match s with | 45 :: s => s | 43 :: s => s | s => s
       s ≠ [] && s.all isDig)
  match s.takeWhile isDig, s.dropWhile isDig with
  | [], 46 :: s => s.takeWhile isDig ≠ [] && exponent (s.dropWhile isDig)
  | [], _ => false
  | _, 46 :: s => exponent (s.dropWhile isDig)
  | _, s => exponent s

/-- `resolveTable`: what a text that begins with this byte may be. -/
inductive Hint where
  | none | map | dot | number
deriving DecidableEq

def hintOf : Bytes → Hint
  | [] => .map
  | c :: _ =>
    if c = 43 ∨ c = 45 ∨ isDig c then .number
    else if c ∈ ascii "yYnNtTfFoO~" then .map
    else if c = 46 then .dot
    else .none

/-- `resolveMap` -/
def resolveMap (L : Lib) (s : Bytes) : Option Res :=
  if s ∈ ["true", "True", "TRUE"].map ascii then some (.bool true)
  else if s ∈ ["false", "False", "FALSE"].map ascii then some (.bool false)
  else if s ∈ ["", "~", "null", "Null", "NULL"].map ascii then some .null
  else if s ∈ [".nan", ".NaN", ".NAN"].map ascii then some (.float ((L.flt (ascii "NaN")).getD 0))
  else if s ∈ [".inf", ".Inf", ".INF", "+.inf", "+.Inf", "+.INF"].map ascii then some (.float ((L.flt (ascii "+Inf")).getD 0))
  else if s ∈ ["-.inf", "-.Inf", "-.INF"].map ascii then some (.float ((L.flt (ascii "-Inf")).getD 0))
  else none

/-- `strconv.ParseUint(s, base, 64)` for texts without `_` -/
def parseUintB (base : Nat) (s : Bytes) : Option Nat := if s = [] then none else (uintLoop base 0 false s).map (·.1)

/-- `strconv.ParseInt(s, base, 64)` -/
def parseIntB (base : Nat) : Bytes → Option Int
  | 43 :: s => (parseUintB base s).bind fun n => if n ≥ 2 ^ 63 then none else some n
  | 45 :: s => (parseUintB base s).bind fun n => if n > 2 ^ 63 then none else some (-n)
  | s => (parseUintB base s).bind fun n => if n ≥ 2 ^ 63 then none else some n

/-- The branches for the prefixes `0b` and `0o`, with and without sign. -/
def resolveBased (plain : Bytes) : Option Int :=
  let both : Nat → Bytes → Option Int := fun base s => (parseIntB base s).or ((parseUintB base s).map Int.ofNat)
  match plain with
  | 48 :: 98 :: s => both 2 s
  | 45 :: 48 :: 98 :: s => parseIntB 2 (45 :: s)
  | 48 :: 111 :: s => both 8 s
  | 45 :: 48 :: 111 :: s => parseIntB 8 (45 :: s)
  | _ => none

/-- The beginning of `parseTimestamp`. -/
def stampLike (s : Bytes) : Bool := (s.takeWhile isDig).length = 4 && (s.dropWhile isDig).head? = some 45

/-- `resolve("", s)` -/
def resolve (L : Lib) (s : Bytes) : Res :=
  match hintOf s with
  | .none => .str
  | h =>
    match resolveMap L s with
    | some r => r
    | none =>
      match h with
      | .dot => match L.flt s with | some x => .float x | none => .str
      | .number =>
        if stampLike s && L.stamp s then .time
        else
          let plain := s.filter (· ≠ 95)
          match parseInt0 plain with
          | some i => .int i
          | none =>
            match parseUint plain with
            | some n => .int n
            | none =>
              match (if yamlFloat plain then L.flt plain else none) with
              | some x => .float x
              | none =>
                match resolveBased plain with
                | some i => .int i
                | none => .str
      | _ => .str

/-- The beginning of `decoder.scalar`. -/
def scalarRes (L : Lib) (str : Bool) (s : Bytes) : Res := if str then .str else resolve L s

/-- The end of `decoder.scalar`: `out` is a variable of kind `k`; `none`: type error -/
def conv (L : Lib) (k : Kind) (r : Res) (s : Bytes) : Option Int :=
  match k with
  | .string => some (L.str s)
  | .bool =>
    match r with
    | .bool b => some (if b then 1 else 0)
    | .str =>
      if s ∈ ["y", "Y", "yes", "on"].map ascii then some 1
      else if s ∈ ["n", "N", "no", "off"].map ascii then some 0
      else none
    | _ => none
  | .int | .int64 =>
    match r with
    | .int i => if i < 2 ^ 63 then some i else none
    | .float x => L.toInt x
    | _ => none
  | .uint | .uint64 =>
    match r with
    | .int i => if 0 ≤ i then some i else none
    | .float x => L.toUint x
    | _ => none
  | .float64 =>
    match r with
    | .int i => some (L.ofInt i)
    | .float x => some x
    | _ => none
  | .duration =>
    match r with
    | .str => Duration.parse s
    | _ => none

/-! ## Names of fields (yaml.go, getStructInfo) -/

/-- `strings.ToLower` -/
def toLower (L : Lib) (s : Bytes) : Bytes := if s.all (· < 128) then s.map lowerASCII else L.lower s

/-- The key of a field. -/
def keyOf (L : Lib) (f : FieldInfo) : Bytes := if f.yaml.key ≠ [] then f.yaml.key else toLower L f.name

/-- `fieldInfo`: the key, the way to the field, and whether the field itself is not exported (but embedded). -/
structure Info where
  key  : Bytes
  path : List Step
  ro   : Bool

inductive Infos where
  | panic
  | unknown
  | ok (l : List Info)

def Infos.under (s : Step) : Infos → Infos
  | .ok l => .ok (l.map fun i => { i with path := s :: i.path })
  | x => x

def Infos.append : Infos → Infos → Infos
  | .ok l, .ok l' => .ok (l ++ l')
  | .ok _, x => x
  | x, _ => x

mutual
/-- The fields of an inlined value (`getStructInfo(ftype)`). -/
def infosV (L : Lib) : Val → Infos
  | .struct fs => infosF L 0 fs
  | .ptr w => (infosV L w).under .deref
  | .basic .. => .panic
  | .nil _ => .unknown
  | .other _ => .unknown

/-- The loop of `getStructInfo`. -/
def infosF (L : Lib) (i : Nat) : Fields → Infos
  | .nil => .ok []
  | .cons f v fs =>
    (if !f.exported && !f.anon then .ok []
      else if f.yaml.skip then .ok []
      else if f.yaml.inl then (infosV L v).under (.field i)
      else .ok [⟨keyOf L f, [.field i], !f.exported⟩]).append (infosF L (i + 1) fs)
end

/-- `getStructInfo`: keys that occur twice are an error, which `mappingStruct` makes a panic. -/
def infos (L : Lib) (v : Val) : Infos :=
  match infosV L v with
  | .ok l => if (l.map (·.key)).Nodup then .ok l else .panic
  | x => x

/-! ## Decoding (decode.go) -/

inductive Dec where
  | panic
  | unknown
  | done (v : Val) (err : Bool)

def Dec.map (f : Val → Val) : Dec → Dec
  | .done v e => .done (f v) e
  | x => x

/-- An error was noted before. -/
def Dec.orErr (e : Bool) : Dec → Dec
  | .done v e' => .done v (e || e')
  | x => x

/-- The loop of `prepare` at a nil pointer to type `n`: pointers are allocated, and `f` decodes into what is pointed to. -/
def intoNil (env : Nat → Ty) (f : Val → Dec) : Nat → Nat → Dec
  | 0, _ => .unknown
  | fuel + 1, n =>
    match zero (env n) with
    | .nil m => (intoNil env f fuel m).map .ptr
    | v => (f v).map .ptr

/-- The loop of `prepare`. -/
def into (env : Nat → Ty) (fuel : Nat) (f : Val → Dec) : Val → Dec
  | .ptr w => (into env fuel f w).map .ptr
  | .nil n => intoNil env f fuel n
  | v => f v

def ofOther (L : Lib) (n : Node) (x : Int) : Dec :=
  match L.oth n x with
  | some y => .done (.other y) false
  | none => .done (.other x) true

/-- `decoder.null`; the type of a pointer that was set to nil is not kept. -/
def nullTo (L : Lib) (n : Node) : Val → Dec
  | .ptr _ => .done (.nil 0) false
  | .other x => ofOther L n x
  | v => .done v false

/-- `decoder.scalar` -/
def setScalar (L : Lib) (str : Bool) (s : Bytes) : Val → Dec
  | .basic k nm x =>
    match conv L k (scalarRes L str s) s with
    | some y => .done (.basic k nm y) false
    | none => .done (.basic k nm x) true
  | .other x => ofOther L (.scalar str s) x
  | v => .done v true

/-- `decoder.sequence` -/
def setSeq (L : Lib) (n : Nat) : Val → Dec
  | .other x => ofOther L (.seq n) x
  | v => .done v true

def Fields.set : Fields → Nat → Val → Fields
  | .nil, _, _ => .nil
  | .cons f _ fs, 0, v => .cons f v fs
  | .cons f w fs, i + 1, v => .cons f w (Fields.set fs i v)

/-- `f` at a location (`fieldByIndex`). -/
def modify (f : Val → Dec) : List Step → Val → Dec
  | [], v => f v
  | .field i :: p, .struct fs =>
    match fs.get? i with
    | some (_, w) => (modify f p w).map fun w' => .struct (Fields.set fs i w')
    | none => .unknown
  | .deref :: p, .ptr w => (modify f p w).map .ptr
  | _ :: _, _ => .unknown

/-- The text of a key: `d.unmarshal(ni, name)`. -/
inductive KeyText where
  | skip
  | bad
  | name (s : Bytes)

def keyText (L : Lib) : Key → KeyText
  | .scalar str s => if scalarRes L str s = .null then .skip else .name s
  | _ => .bad

/-- Keys of one kind with one text. -/
def sameKey : Key → Key → Bool
  | .scalar _ s, .scalar _ s' => s = s'
  | .map, .map => true
  | .seq, .seq => true
  | _, _ => false

def Entries.has (k : Key) : Entries → Bool
  | .nil => false
  | .cons k' _ es => sameKey k k' || es.has k

/-- `uniqueKeys` -/
def Entries.dup : Entries → Bool
  | .nil => false
  | .cons k _ es => es.has k || es.dup

def Node.isNull (L : Lib) : Node → Bool
  | .scalar str s => scalarRes L str s = .null
  | _ => false

/-- Decoding into an embedded field that is not exported: `prepare` calls `Interface`, `null` calls `Set`, which panic. -/
def readOnly (L : Lib) (n : Node) (v : Val) : Dec :=
  if n.isNull L then
    match v with
    | .basic k nm x => .done (.basic k nm x) false
    | .struct fs => .done (.struct fs) false
    | _ => .panic
  else .panic

mutual
/-- `decoder.unmarshal` -/
def decode (L : Lib) (env : Nat → Ty) (fuel : Nat) : Node → Val → Dec
  | .scalar str s, v =>
    if scalarRes L str s = .null then nullTo L (.scalar str s) v
    else into env fuel (setScalar L str s) v
  | .seq n, v => into env fuel (setSeq L n) v
  | .map es, v =>
    into env fuel (fun w =>
      match w with
      | .other x => ofOther L (.map es) x
      | .struct fs =>
        if es.dup then .done (.struct fs) true
        else
          match infos L (.struct fs) with
          | .panic => .panic
          | .unknown => .unknown
          | .ok l => decodeEntries L env fuel es l (.struct fs)
      | w => .done w true) v

/-- The loop of `decoder.mappingStruct`. -/
def decodeEntries (L : Lib) (env : Nat → Ty) (fuel : Nat) : Entries → List Info → Val → Dec
  | .nil, _, v => .done v false
  | .cons k n es, l, v =>
    match keyText L k with
    | .skip => decodeEntries L env fuel es l v
    | .bad => (decodeEntries L env fuel es l v).orErr true
    | .name s =>
      match l.find? (·.key = s) with
      | none => decodeEntries L env fuel es l v
      | some i =>
        match modify (if i.ro then readOnly L n else decode L env fuel n) i.path v with
        | .done v' e => (decodeEntries L env fuel es l v').orErr e
        | x => x
end

/-- `yaml.Unmarshal` of a file with the given contents into a struct (`none`: no document). -/
def unmarshal (L : Lib) (env : Nat → Ty) (fuel : Nat) : Option Node → Val → Dec
  | none, v => .done v false
  | some n, v => decode L env fuel n v

end Gears.Conf.Yaml
