import Verif.Common.Utf8

/-
Model of /repo/dto/m.go: `MarshalM` and `UnmarshalM`, with encoding/json of Go 1.17 as far as these use it.

Go values are trees of the kinds below (no structs, pointers, byte slices, Marshalers).  A map is the list of its entries in increasing
order of the keys, so that equal maps are equal lists (`Canon`); the order in which Go iterates over it is a parameter.
`fmt` and `pf` are the float64 parts of encoding/json: the text of a float (none: NaN, infinities), and `strconv.ParseFloat`
(none: out of range).
The decoder is modelled as lexer and automaton: the step functions of scanner.go on tokens, with the parse state stack, and the values being
built beside it.  `unmarshalM` fails if the scan fails or a number is out of range (`saveError`).
-/

namespace Gears.Dto

open Gears.Str Gears.Utf8

inductive G (F : Type) where
  /-- nil of interface type -/
  | nil
  | bool (b : Bool)
  | int (n : Int)
  | num (x : F)
  | str (s : Bytes)
  | nilSlice
  | slice (l : List (G F))
  | nilMap
  | map (m : List (Bytes × G F))

variable {F : Type}

/-- Comparison of Go strings. -/
def lt : Bytes → Bytes → Bool
  | [], [] => false
  | [], _ :: _ => true
  | _ :: _, [] => false
  | a :: s, b :: t => a < b || a == b && lt s t

/-- `m[k] = v` for entries in order; also one step of sorting entries with distinct keys (encode.go, mapEncoder.encode). -/
def ins {α : Type} (k : Bytes) (v : α) : List (Bytes × α) → List (Bytes × α)
  | [] => [(k, v)]
  | (k', v') :: r => if k = k' then (k, v) :: r else if lt k k' then (k, v) :: (k', v') :: r else (k', v') :: ins k v r

def sortEntries {α : Type} (l : List (Bytes × α)) : List (Bytes × α) := l.foldr (fun e r => ins e.1 e.2 r) []

/-! ## Encoding -/

/-- Lower case hexadecimal digit (encode.go, `hex`). -/
def hexDigit (n : Nat) : UInt8 := if n < 10 then UInt8.ofNat (48 + n) else UInt8.ofNat (87 + n)

/-- How `encodeState.string` writes a character (with escapeHTML). -/
def escRune (r : Nat) : Bytes :=
  if r < 0x80 then
    if r = 92 ∨ r = 34 then [92, UInt8.ofNat r]
    else if r = 10 then [92, 110]
    else if r = 13 then [92, 114]
    else if r = 9 then [92, 116]
    else if r < 32 ∨ r = 60 ∨ r = 62 ∨ r = 38 then [92, 117, 48, 48, hexDigit (r / 16), hexDigit (r % 16)]
    else [UInt8.ofNat r]
  else if r = 0x2028 ∨ r = 0x2029 then [92, 117, 50, 48, 50, hexDigit (r % 16)]
  else encodeRune r

/-- The loop of `encodeState.string`: the text between the quotes; n is at least the length. -/
def quoteBody : Nat → Bytes → Bytes
  | 0, _ => []
  | _, [] => []
  | n + 1, s =>
    let r := decodeRune s
    (if r = (0xFFFD, 1) then [92, 117, 102, 102, 102, 100] else escRune r.1) ++ quoteBody n (s.drop r.2)

def quote (s : Bytes) : Bytes := 34 :: quoteBody s.length s ++ [34]

mutual
/-- `json.Marshal` of a value; `ord` is the order of iteration over a map (on the entries already encoded). -/
def enc (fmt : F → Option Bytes) (ord : List (Bytes × Bytes) → List (Bytes × Bytes)) : G F → Option Bytes
  | .nil => some (ascii "null")
  | .bool b => some (if b then ascii "true" else ascii "false")
  | .int n => some (itoa n)
  | .num x => fmt x
  | .str s => some (quote s)
  | .nilSlice => some (ascii "null")
  | .slice l => (encList fmt ord l).map fun ts => 91 :: join 44 ts ++ [93]
  | .nilMap => some (ascii "null")
  | .map m => (encMap fmt ord m).map fun es => 123 :: join 44 ((sortEntries (ord es)).map fun e => quote e.1 ++ 58 :: e.2) ++ [125]

def encList (fmt : F → Option Bytes) (ord : List (Bytes × Bytes) → List (Bytes × Bytes)) : List (G F) → Option (List Bytes)
  | [] => some []
  | v :: l =>
    match enc fmt ord v, encList fmt ord l with
    | some t, some ts => some (t :: ts)
    | _, _ => none

def encMap (fmt : F → Option Bytes) (ord : List (Bytes × Bytes) → List (Bytes × Bytes)) : List (Bytes × G F) → Option (List (Bytes × Bytes))
  | [] => some []
  | (k, v) :: l =>
    match enc fmt ord v, encMap fmt ord l with
    | some t, some ts => some ((k, t) :: ts)
    | _, _ => none
end

/-- `MarshalM` (m.go:16-18); none: the nil map; none as result: an error. -/
def marshalM (fmt : F → Option Bytes) (ord : List (Bytes × Bytes) → List (Bytes × Bytes)) : Option (List (Bytes × G F)) → Option Bytes
  | none => enc fmt ord (.nilMap : G F)
  | some m => enc fmt ord (.map m)

/-! ## Scanning -/

inductive Tok where
  | lbrace | rbrace | lbrack | rbrack | colon | comma | null | true | false
  | str (s : Bytes)
  | num (t : Bytes)
deriving DecidableEq, Repr

def isDigit (c : UInt8) : Bool := 48 ≤ c && c ≤ 57

/-- `state1`, `state0`, `stateDot` … of scanner.go: a number and what follows it. -/
def lexDigits (s : Bytes) : Bytes × Bytes := (s.takeWhile isDigit, s.dropWhile isDigit)

def lexInt : Bytes → Option (Bytes × Bytes)
  | 48 :: r => some ([48], r)
  | c :: r => if isDigit c then some (c :: (lexDigits r).1, (lexDigits r).2) else none
  | [] => none

def lexFrac : Bytes → Option (Bytes × Bytes)
  | 46 :: r => if (lexDigits r).1 = [] then none else some (46 :: (lexDigits r).1, (lexDigits r).2)
  | r => some ([], r)

def lexExpDigits (p : Bytes) (r : Bytes) : Option (Bytes × Bytes) :=
  if (lexDigits r).1 = [] then none else some (p ++ (lexDigits r).1, (lexDigits r).2)

def lexExp : Bytes → Option (Bytes × Bytes)
  | c :: r =>
    if c = 101 ∨ c = 69 then
      match r with
      | [] => none
      | d :: r' => if d = 43 ∨ d = 45 then lexExpDigits [c, d] r' else lexExpDigits [c] r
    else some ([], c :: r)
  | [] => some ([], [])

def lexUnsigned (s : Bytes) : Option (Bytes × Bytes) :=
  match lexInt s with
  | none => none
  | some (i, s1) =>
    match lexFrac s1 with
    | none => none
    | some (f, s2) =>
      match lexExp s2 with
      | none => none
      | some (e, s3) => some (i ++ f ++ e, s3)

def lexNum : Bytes → Option (Bytes × Bytes)
  | 45 :: r => (lexUnsigned r).map fun p => (45 :: p.1, p.2)
  | s => lexUnsigned s

def hexVal (c : UInt8) : Nat := (unhex c).toNat

/-- `getu4` (decode.go). -/
def hex4 (a b c d : UInt8) : Nat := ((hexVal a * 16 + hexVal b) * 16 + hexVal c) * 16 + hexVal d

/-- `\uXXXX` and what follows. -/
def getu4 : Bytes → Option (Nat × Bytes)
  | 92 :: 117 :: a :: b :: c :: d :: r => if isHex a && isHex b && isHex c && isHex d then some (hex4 a b c d, r) else none
  | _ => none

/-- `utf16.IsSurrogate`, and the pairs that `utf16.DecodeRune` accepts. -/
def isSurr (r : Nat) : Bool := 0xD800 ≤ r && r < 0xE000
def isPair (a b : Nat) : Bool := (0xD800 ≤ a && a < 0xDC00) && (0xDC00 ≤ b && b < 0xE000)
def pairRune (a b : Nat) : Nat := (a - 0xD800) * 1024 + (b - 0xDC00) + 0x10000

/-- The escapes of one character. -/
def simpleEsc (c : UInt8) : Option UInt8 :=
  if c = 34 ∨ c = 92 ∨ c = 47 then some c
  else if c = 98 then some 8
  else if c = 102 then some 12
  else if c = 110 then some 10
  else if c = 114 then some 13
  else if c = 116 then some 9
  else none

/-- One turn of the loop of `unquoteBytes` (and `stateInString`, `stateInStringEsc` … of the scanner): what is written, and the rest. -/
def strStep : Bytes → Option (Bytes × Bytes)
  | [] => none
  | 92 :: r =>
    match r with
    | [] => none
    | e :: r2 =>
      match simpleEsc e with
      | some b => some ([b], r2)
      | none =>
        match getu4 (92 :: r) with
        | none => none
        | some (u, r3) =>
          if isSurr u then
            match getu4 r3 with
            | some (u2, r4) => if isPair u u2 then some (encodeRune (pairRune u u2), r4) else some (encodeRune 0xFFFD, r3)
            | none => some (encodeRune 0xFFFD, r3)
          else some (encodeRune u, r3)
  | c :: r =>
    if c < 32 then none
    else if c < 128 then some ([c], r)
    else some (encodeRune (decodeRune (c :: r)).1, (c :: r).drop (decodeRune (c :: r)).2)

/-- A string after the opening quote; n is more than the length. -/
def lexStr : Nat → Bytes → Option (Bytes × Bytes)
  | 0, _ => none
  | _, [] => none
  | n + 1, c :: s =>
    if c = 34 then some ([], s)
    else
      match strStep (c :: s) with
      | none => none
      | some (p, r) => (lexStr n r).map fun q => (p ++ q.1, q.2)

/-- A literal name. -/
def lexWord (w : Bytes) (t : Tok) (s : Bytes) : Option (Tok × Bytes) := if isPrefix w s then some (t, s.drop w.length) else none

def lexTok : Bytes → Option (Tok × Bytes)
  | [] => none
  | c :: r =>
    if c = 123 then some (.lbrace, r)
    else if c = 125 then some (.rbrace, r)
    else if c = 91 then some (.lbrack, r)
    else if c = 93 then some (.rbrack, r)
    else if c = 58 then some (.colon, r)
    else if c = 44 then some (.comma, r)
    else if c = 34 then (lexStr (r.length + 1) r).map fun p => (.str p.1, p.2)
    else if c = 110 then lexWord (ascii "null") .null (c :: r)
    else if c = 116 then lexWord (ascii "true") .true (c :: r)
    else if c = 102 then lexWord (ascii "false") .false (c :: r)
    else (lexNum (c :: r)).map fun p => (.num p.1, p.2)

/-- `isSpace` (scanner.go). -/
def isSpace (c : UInt8) : Bool := c == 32 || c == 9 || c == 13 || c == 10

def lex : Nat → Bytes → Option (List Tok)
  | 0, _ => none
  | n + 1, s =>
    let s := s.dropWhile isSpace
    if s = [] then some []
    else
      match lexTok s with
      | none => none
      | some (t, r) => (lex n r).map fun ts => t :: ts

/-! ## Parsing -/

/-- An array or object being read: what was read of it, and the key of the value being read. -/
inductive Frame (F : Type) where
  | arr (acc : List (G F))
  | obj (acc : List (Bytes × G F))
  | objVal (acc : List (Bytes × G F)) (k : Bytes)

/-- `stateBeginValue`, `stateBeginValueOrEmpty`, `stateBeginString`, `stateBeginStringOrEmpty`, before the colon, `stateEndValue`. -/
inductive Mode (F : Type) where
  | val
  | valOrEnd
  | key
  | keyOrEnd
  | colon
  | done (v : G F)

abbrev St (F : Type) := Mode F × List (Frame F)

/-- `maxNestingDepth` (scanner.go). -/
def maxDepth : Nat := 10000

/-- `stateBeginValue`; `pushParseState` checks the depth. -/
def beginVal (pf : Bytes → Option F) (st : List (Frame F)) : Tok → Option (St F)
  | .null => some (.done .nil, st)
  | .true => some (.done (.bool true), st)
  | .false => some (.done (.bool false), st)
  | .str s => some (.done (.str s), st)
  | .num t => (pf t).map fun x => (.done (.num x), st)
  | .lbrack => if st.length < maxDepth then some (.valOrEnd, .arr [] :: st) else none
  | .lbrace => if st.length < maxDepth then some (.keyOrEnd, .obj [] :: st) else none
  | _ => none

def step (pf : Bytes → Option F) : St F → Tok → Option (St F)
  | (.val, st), t => beginVal pf st t
  | (.valOrEnd, .arr acc :: st), .rbrack => some (.done (.slice acc), st)
  | (.valOrEnd, st), t => beginVal pf st t
  | (.key, .obj acc :: st), .str k => some (.colon, .objVal acc k :: st)
  | (.keyOrEnd, .obj acc :: st), .str k => some (.colon, .objVal acc k :: st)
  | (.keyOrEnd, .obj acc :: st), .rbrace => some (.done (.map acc), st)
  | (.colon, st), .colon => some (.val, st)
  | (.done v, .arr acc :: st), .comma => some (.val, .arr (acc ++ [v]) :: st)
  | (.done v, .arr acc :: st), .rbrack => some (.done (.slice (acc ++ [v])), st)
  | (.done v, .objVal acc k :: st), .comma => some (.key, .obj (ins k v acc) :: st)
  | (.done v, .objVal acc k :: st), .rbrace => some (.done (.map (ins k v acc)), st)
  | _, _ => none

def run (pf : Bytes → Option F) : St F → List Tok → Option (St F)
  | s, [] => some s
  | s, t :: ts =>
    match step pf s t with
    | some s' => run pf s' ts
    | none => none

/-- `UnmarshalM` (m.go:8-14): none for an error; `some none` for a nil map without error (`null`: literalStore sets the map to nil). -/
def unmarshalM (pf : Bytes → Option F) (b : Bytes) : Option (Option (List (Bytes × G F))) :=
  match lex (b.length + 1) b with
  | none => none
  | some ts =>
    match run pf (.val, []) ts with
    | some (.done (.map m), []) => some (some m)
    | some (.done .nil, []) => some none
    | _ => none

end Gears.Dto
