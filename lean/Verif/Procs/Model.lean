/-
Model of the value processors of /repo/confstore/procs.go, with the part of package strconv they use.

Go strings are byte strings here.  `validate` gives the error text, `none` if ok.  Integers are unbounded, and what Go
computes in int and uint64 is reduced with `wrap` and `% 2^64`.
-/

namespace Gears.Procs

abbrev Bytes := List UInt8

/-- The value of an int64 computation. -/
def wrap (x : Int) : Int := (x + 2 ^ 63) % 2 ^ 64 - 2 ^ 63

/-! ## strconv -/

/-- The loop of the fast path of `strconv.Atoi`. -/
def atoiFast (n : Int) : Bytes → Option Int
  | [] => some n
  | c :: l =>
    let ch := c - 48
    if ch > 9 then none else atoiFast (wrap (n * 10 + ch.toNat)) l

/-- The loop of `strconv.ParseUint(s, 10, 64)`, in uint64; `none`: syntax or range error. -/
def parseUintLoop (n : Nat) : Bytes → Option Nat
  | [] => some n
  | c :: l =>
    if 48 ≤ c ∧ c ≤ 57 then
      if (2 ^ 64 - 1) / 10 + 1 ≤ n then none
      else
        let m := n * 10 % 2 ^ 64
        let m1 := (m + (c - 48).toNat) % 2 ^ 64
        if m1 < m then none else parseUintLoop m1 l
    else none

def parseUint (s : Bytes) : Option Nat := if s = [] then none else parseUintLoop 0 s

/-- The sign that `Atoi` and `ParseInt` take off: '-' or '+'. -/
def takeSign : Bytes → Bool × Bytes
  | 45 :: l => (true, l)
  | 43 :: l => (false, l)
  | l => (false, l)

/-- `strconv.ParseInt(s, 10, 64)` -/
def parseInt (s : Bytes) : Option Int :=
  if s = [] then none
  else
    match parseUint (takeSign s).2 with
    | none => none
    | some un =>
      if !(takeSign s).1 ∧ 2 ^ 63 ≤ un then none
      else if (takeSign s).1 ∧ 2 ^ 63 < un then none
      else
        let n := wrap un
        some (if (takeSign s).1 then wrap (-n) else n)

/-- `strconv.Atoi` where int has 64 bits -/
def atoi (s : Bytes) : Option Int :=
  if 0 < s.length ∧ s.length < 19 then
    if (takeSign s).2.length < 1 then none
    else (atoiFast 0 (takeSign s).2).map fun n => if (takeSign s).1 then wrap (-n) else n
  else parseInt s

def ascii (s : String) : Bytes := s.toList.map (fun c => UInt8.ofNat c.toNat)

/-- `strconv.ParseBool`; `none`: error -/
def parseBool (s : Bytes) : Option Bool :=
  if s ∈ ["1", "t", "T", "true", "TRUE", "True"].map ascii then some true
  else if s ∈ ["0", "f", "F", "false", "FALSE", "False"].map ascii then some false
  else none

/-! ## The processors -/

/-- `stringProcessor.Validate` (procs.go:39-45); `Convert` (47-49) is the identity. -/
def stringValidate (minLength maxLength : Int) (v : Bytes) : Option String :=
  if minLength ≤ v.length ∧ (v.length : Int) ≤ maxLength then none
  else some s!"len(value) not >= {minLength} or <= {maxLength}"

def stringConvert (v : Bytes) : Bytes := v

/-- `boolProcessor.Validate` (53-58) -/
def boolValidate (v : Bytes) : Option String :=
  if v ≠ ascii "true" ∧ v ≠ ascii "false" then some "not bool value" else none

/-- `boolProcessor.Convert` (60-63): the error is ignored, the value is then false -/
def boolConvert (v : Bytes) : Bool := (parseBool v).getD false

/-- `intProcessor` (69-74) -/
structure IntProc where
  min : Int
  minInclude : Bool
  max : Int
  maxInclude : Bool

/-- `intProcessor.Validate` (76-100) -/
def IntProc.validate (i : IntProc) (value : Bytes) : Option String :=
  match atoi value with
  | none => some "not int value"
  | some v =>
    if i.minInclude ∧ v < i.min then some s!"not >= {i.min}"
    else if !i.minInclude ∧ v ≤ i.min then some s!"not > {i.min}"
    else if i.maxInclude ∧ v > i.max then some s!"not <= {i.max}"
    else if !i.maxInclude ∧ v ≥ i.max then some s!"not < {i.max}"
    else none

/-- `intProcessor.Convert` (102-105); the default stands for what `Atoi` returns with an error. -/
def IntProc.convert (value : Bytes) : Int := (atoi value).getD 0

/-- `Int`, `IntGtZero`, `IntGtEqZero` (18-20) -/
def intProc : IntProc := ⟨-2 ^ 31, true, 2 ^ 31 - 1, true⟩
def intGtZero : IntProc := ⟨0, false, 2 ^ 31 - 1, true⟩
def intGtEqZero : IntProc := ⟨0, true, 2 ^ 31 - 1, true⟩

/-- `EnumProcessor` (231-237): the map, as the predicate of its keys -/
def enumMap (enums : List Bytes) : Bytes → Bool := enums.foldl (fun m e => fun x => if x = e then true else m x) fun _ => false

/-- `enumProcessor.Validate` (239-250); the keys in the text come in any order -/
def enumValidate (m : Bytes → Bool) (v : Bytes) : Option String := if m v then none else some "only allowed value: …"

def isHex (c : UInt8) : Bool := (97 ≤ c && c ≤ 102) || (65 ≤ c && c ≤ 70) || (48 ≤ c && c ≤ 57)

/-- The regular expression `#[a-fA-F0-9]{6}` matches at the start. -/
def hexHere : Bytes → Bool
  | c :: l => c = 35 && decide (6 ≤ l.length) && (l.take 6).all isHex
  | [] => false

/-- `regexp.MatchString`: it matches anywhere. -/
def hexAnywhere : Bytes → Bool
  | [] => hexHere []
  | c :: l => hexHere (c :: l) || hexAnywhere l

/-- `cssColorHex.Validate` (161-174); the expression has no syntax error. -/
def cssValidate (v : Bytes) : Option String :=
  if v = [] then none
  else if hexAnywhere v then none
  else some "not css color hex value"

/-- The shape of the processors for durations, URLs and keys: a parser decides (108-158, 180-226).  The empty string is
accepted by some of them, and converted to nil (`none`). -/
structure ParseProc (T : Type) where
  parse   : Bytes → Except String T
  emptyOk : Bool

def ParseProc.validate {T : Type} (p : ParseProc T) (v : Bytes) : Option String :=
  if p.emptyOk ∧ v = [] then none
  else match p.parse v with
    | .error e => some e
    | .ok _ => none

def ParseProc.convert {T : Type} (p : ParseProc T) (v : Bytes) : Option T :=
  if p.emptyOk ∧ v = [] then none
  else match p.parse v with
    | .error _ => none
    | .ok x => some x

end Gears.Procs
