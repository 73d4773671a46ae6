import Verif.Dto.Model

/-
What JSON texts are and mean (RFC 8259, with what Go does where the RFC leaves it open): unpaired surrogates and bytes that are not
UTF-8 become U+FFFD, of equal names the last one counts, 10000 levels of nesting.
-/

namespace Gears.Dto

open Gears.Str Gears.Utf8

variable {F : Type}

def Digit (c : UInt8) : Prop := 48 ≤ c ∧ c ≤ 57

/-- [ minus ] int [ frac ] [ exp ] -/
def NumText (t : Bytes) : Prop := ∃ sign int frac exp : Bytes, t = sign ++ int ++ frac ++ exp ∧
  (sign = [] ∨ sign = [45]) ∧
  (int = [48] ∨ ∃ c ds, int = c :: ds ∧ 49 ≤ c ∧ c ≤ 57 ∧ ∀ d ∈ ds, Digit d) ∧
  (frac = [] ∨ ∃ ds, frac = 46 :: ds ∧ ds ≠ [] ∧ ∀ d ∈ ds, Digit d) ∧
  (exp = [] ∨ ∃ e s ds, exp = e :: s ++ ds ∧ (e = 101 ∨ e = 69) ∧ (s = [] ∨ s = [43] ∨ s = [45]) ∧ ds ≠ [] ∧ ∀ d ∈ ds, Digit d)

/-- The value of a hexadecimal digit. -/
def HexDigit (c : UInt8) (v : Nat) : Prop :=
  48 ≤ c ∧ c ≤ 57 ∧ v = c.toNat - 48 ∨ 97 ≤ c ∧ c ≤ 102 ∧ v = c.toNat - 87 ∨ 65 ≤ c ∧ c ≤ 70 ∧ v = c.toNat - 55

/-- `\uXXXX` -/
def U4 (x : Bytes) (v : Nat) : Prop := ∃ a b c d va vb vc vd, x = [92, 117, a, b, c, d] ∧ HexDigit a va ∧ HexDigit b vb ∧ HexDigit c vc ∧
  HexDigit d vd ∧ v = va * 4096 + vb * 256 + vc * 16 + vd

/-- The escaped characters: quote, backslash, slash, b, f, n, r, t. -/
def escapes : List (UInt8 × UInt8) := [(34, 34), (92, 92), (47, 47), (98, 8), (102, 12), (110, 10), (114, 13), (116, 9)]

def High (v : Nat) : Prop := 0xD800 ≤ v ∧ v < 0xDC00
def Low (v : Nat) : Prop := 0xDC00 ≤ v ∧ v < 0xE000

/-- The text between quotes, and the string it stands for. -/
inductive Chars : Bytes → Bytes → Prop where
  | nil : Chars [] []
  | plain {r t s} : Scalar r → 32 ≤ r → r ≠ 34 → r ≠ 92 → Chars t s → Chars (encodeRune r ++ t) (encodeRune r ++ s)
  | esc {e b t s} : (e, b) ∈ escapes → Chars t s → Chars (92 :: e :: t) (b :: s)
  | uni {x v t s} : U4 x v → ¬ High v → ¬ Low v → Chars t s → Chars (x ++ t) (encodeRune v ++ s)
  | pair {x y v w t s} : U4 x v → U4 y w → High v → Low w → Chars t s →
      Chars (x ++ y ++ t) (encodeRune (0x10000 + (v - 0xD800) * 1024 + (w - 0xDC00)) ++ s)
  | lone {x v t s} : U4 x v → (High v ∧ (∀ y w t', U4 y w → Low w → t ≠ y ++ t') ∨ Low v) → Chars t s → Chars (x ++ t) (encodeRune 0xFFFD ++ s)
  | bad {b t s} : 128 ≤ b → (∀ r t', Scalar r → b :: t ≠ encodeRune r ++ t') → Chars t s → Chars (b :: t) (encodeRune 0xFFFD ++ s)

def Ws (w : Bytes) : Prop := ∀ c ∈ w, c = 32 ∨ c = 9 ∨ c = 10 ∨ c = 13

def TokText (x : Bytes) : Tok → Prop
  | .lbrace => x = ascii "{"
  | .rbrace => x = ascii "}"
  | .lbrack => x = ascii "["
  | .rbrack => x = ascii "]"
  | .colon => x = ascii ":"
  | .comma => x = ascii ","
  | .null => x = ascii "null"
  | .true => x = ascii "true"
  | .false => x = ascii "false"
  | .str s => ∃ b, x = 34 :: b ++ [34] ∧ Chars b s
  | .num t => x = t ∧ NumText t

/-- Tokens with white space around them. -/
inductive Spells : List Tok → Bytes → Prop where
  | nil {w} : Ws w → Spells [] w
  | cons {w x t ts r} : Ws w → TokText x t → Spells ts r → Spells (t :: ts) (w ++ x ++ r)

/-- Strict order of Go strings: a proper prefix, or the first different byte is less. -/
def Less (s t : Bytes) : Prop := (∃ x, x ≠ [] ∧ t = s ++ x) ∨ ∃ p a b x y, s = p ++ a :: x ∧ t = p ++ b :: y ∧ a < b

/-- The last value given for k. -/
def Last (k : Bytes) (l : List (Bytes × G F)) (v : G F) : Prop := ∃ a b, l = a ++ (k, v) :: b ∧ ∀ e ∈ b, e.1 ≠ k

/-- m is the map that results from the assignments l: ordered, and each key has the value assigned last. -/
def IsMap (m l : List (Bytes × G F)) : Prop := m.Pairwise (fun a b => Less a.1 b.1) ∧ ∀ k v, (k, v) ∈ m ↔ Last k l v

/-- Lists of tokens with commas between them. -/
def commas : List (List Tok) → List Tok
  | [] => []
  | [t] => t
  | t :: u :: l => t ++ .comma :: commas (u :: l)

/-- The value that the tokens stand for, nested at most d levels. -/
inductive Means (pf : Bytes → Option F) : Nat → G F → List Tok → Prop where
  | null {d} : Means pf d .nil [.null]
  | true {d} : Means pf d (.bool true) [.true]
  | false {d} : Means pf d (.bool false) [.false]
  | str {d s} : Means pf d (.str s) [.str s]
  | num {d t x} : pf t = some x → Means pf d (.num x) [.num t]
  | arr {d} (es : List (G F × List Tok)) : (∀ e ∈ es, Means pf d e.1 e.2) →
      Means pf (d + 1) (.slice (es.map (·.1))) (.lbrack :: commas (es.map (·.2)) ++ [.rbrack])
  | obj {d m} (es : List (Bytes × G F × List Tok)) : (∀ e ∈ es, Means pf d e.2.1 e.2.2) → IsMap m (es.map fun e => (e.1, e.2.1)) →
      Means pf (d + 1) (.map m) (.lbrace :: commas (es.map fun e => .str e.1 :: .colon :: e.2.2) ++ [.rbrace])

/-- The JSON text b stands for v. -/
def Json (pf : Bytes → Option F) (b : Bytes) (v : G F) : Prop := ∃ ts, Spells ts b ∧ Means pf 10000 v ts

/-! The shapes of Go values -/

mutual
def depth : G F → Nat
  | .slice l => depthL l + 1
  | .map m => depthM m + 1
  | _ => 0
def depthL : List (G F) → Nat
  | [] => 0
  | v :: l => max (depth v) (depthL l)
def depthM : List (Bytes × G F) → Nat
  | [] => 0
  | (_, v) :: l => max (depth v) (depthM l)
end

mutual
/-- Only values of the types that UnmarshalM makes, strings and keys in UTF-8. -/
def Plain : G F → Prop
  | .nil => True
  | .bool _ => True
  | .int _ => False
  | .num _ => True
  | .str s => Valid s
  | .nilSlice => False
  | .slice l => PlainL l
  | .nilMap => False
  | .map m => PlainM m
def PlainL : List (G F) → Prop
  | [] => True
  | v :: l => Plain v ∧ PlainL l
def PlainM : List (Bytes × G F) → Prop
  | [] => True
  | (k, v) :: l => Valid k ∧ Plain v ∧ PlainM l
end

mutual
/-- Values that exist in Go: integers of 64 bits; maps are ordered by their keys (which says that the keys are distinct). -/
def Canon : G F → Prop
  | .int n => -2 ^ 63 ≤ n ∧ n < 2 ^ 64
  | .slice l => CanonL l
  | .map m => m.Pairwise (fun a b => Less a.1 b.1) ∧ CanonM m
  | _ => True
def CanonL : List (G F) → Prop
  | [] => True
  | v :: l => Canon v ∧ CanonL l
def CanonM : List (Bytes × G F) → Prop
  | [] => True
  | (_, v) :: l => Canon v ∧ CanonM l
end

mutual
/-- Only floats that have a text. -/
def Finite (fmt : F → Option Bytes) : G F → Prop
  | .num x => fmt x ≠ none
  | .slice l => FiniteL fmt l
  | .map m => FiniteM fmt m
  | _ => True
def FiniteL (fmt : F → Option Bytes) : List (G F) → Prop
  | [] => True
  | v :: l => Finite fmt v ∧ FiniteL fmt l
def FiniteM (fmt : F → Option Bytes) : List (Bytes × G F) → Prop
  | [] => True
  | (_, v) :: l => Finite fmt v ∧ FiniteM fmt l
end

/-- What is left of a string: bytes that are not UTF-8 become U+FFFD. -/
inductive Clean : Bytes → Bytes → Prop where
  | nil : Clean [] []
  | char {r t s} : Scalar r → Clean t s → Clean (encodeRune r ++ t) (encodeRune r ++ s)
  | bad {b t s} : (∀ r t', Scalar r → b :: t ≠ encodeRune r ++ t') → Clean t s → Clean (b :: t) (encodeRune 0xFFFD ++ s)

mutual
/-- What a value becomes on its way through JSON. -/
def Seen (ofInt : Int → F) : G F → G F → Prop
  | .nil, w => w = .nil
  | .bool b, w => w = .bool b
  | .int n, w => w = .num (ofInt n)
  | .num x, w => w = .num x
  | .str s, w => ∃ s', Clean s s' ∧ w = .str s'
  | .nilSlice, w => w = .nil
  | .slice l, w => ∃ l', SeenL ofInt l l' ∧ w = .slice l'
  | .nilMap, w => w = .nil
  | .map m, w => ∃ l' m', SeenM ofInt m l' ∧ IsMap m' l' ∧ w = .map m'
def SeenL (ofInt : Int → F) : List (G F) → List (G F) → Prop
  | [], r => r = []
  | v :: l, r => ∃ v' r', Seen ofInt v v' ∧ SeenL ofInt l r' ∧ r = v' :: r'
def SeenM (ofInt : Int → F) : List (Bytes × G F) → List (Bytes × G F) → Prop
  | [], r => r = []
  | (k, v) :: l, r => ∃ k' v' r', Clean k k' ∧ Seen ofInt v v' ∧ SeenM ofInt l r' ∧ r = (k', v') :: r'
end

/-- strconv on float64: the texts of floats are JSON numbers and read back exactly; the decimal digits of an integer read as the float
nearest to it (`ofInt`); what is read is finite. -/
structure FloatLaws (fmt : F → Option Bytes) (pf : Bytes → Option F) (ofInt : Int → F) : Prop where
  num : ∀ x t, fmt x = some t → NumText t ∧ pf t = some x
  int : ∀ n : Int, -2 ^ 63 ≤ n → n < 2 ^ 64 → pf (itoa n) = some (ofInt n)
  fin : ∀ t x, pf t = some x → fmt x ≠ none

/-- An order of iteration: any permutation. -/
def Order (ord : List (Bytes × Bytes) → List (Bytes × Bytes)) : Prop := ∀ l, (ord l).Perm l

end Gears.Dto
