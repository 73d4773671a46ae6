import Verif.Conf.YamlProps
import Verif.Common.Bytes

/-
Model of the text of yaml files (/repo/conf/yaml.go:29-41, `yaml.Unmarshal` of gopkg.in/yaml.v3, scanner and parser), for files
in the style of /repo/conf/doc.go:53-62: every line is empty, a comment, `key:`, or `key: value`, and mappings are nested by
indentation.  `parse` gives the tree that `Yaml.lean` decodes; `none` says that the text is not of this form (block
sequences, flow collections, tags, anchors, escapes, text over several lines, bytes that are not ASCII), where nothing is said.

* Values are plain, or quoted without escapes.
* Lines end with `\n` or `\r\n`.
* At most 10000 levels (`max_indents`), keys of at most 1000 bytes (simple keys are limited to 1024).
-/

namespace Gears.Conf.Yaml.Text

open Gears.Conf.Yaml
open Gears.Str (ascii split join)

/-! ## Lines -/

def printable (b : UInt8) : Bool := 32 ≤ b && b ≤ 126

def alnum (b : UInt8) : Bool := (48 ≤ b && b ≤ 57) || (65 ≤ b && b ≤ 90) || (97 ≤ b && b ≤ 122)

/-- Letters, digits, `_`, `-`, `.` -/
def keyByte (b : UInt8) : Bool := alnum b || b = 95 || b = 45 || b = 46

def safeKey (s : Bytes) : Bool := s.all keyByte && (match s with | c :: _ => alnum c || c = 95 | [] => false) && s.length ≤ 1000

/-- An entry of a mapping: `val` is `none` for `key:`, otherwise whether the value is quoted, and its text. -/
structure Item where
  indent : Nat
  key    : Bytes
  val    : Option (Bool × Bytes)
deriving Repr, DecidableEq

/-- The text before a comment: `#` begins one after a space. -/
def uncomment : Bytes → Bytes
  | [] => []
  | [c] => [c]
  | c :: d :: t => if c = 32 ∧ d = 35 then [] else c :: uncomment (d :: t)

/-- Without spaces at the end. -/
def trimRight (s : Bytes) : Bytes := (s.reverse.dropWhile (· = 32)).reverse

/-- How a plain scalar begins. -/
def begins : Bytes → Bool
  | [] => false
  | c :: t =>
    if c = 45 ∨ c = 63 ∨ c = 58 then (match t with | d :: _ => d ≠ 32 | [] => false)
    else !(c ∈ ascii ",[]{}#&*!|>'\"%@`") && c ≠ 32

/-- No `:` before a space or at the end. -/
def noColon : Bytes → Bool
  | [] => true
  | [c] => c ≠ 58
  | c :: d :: t => !(c = 58 && d = 32) && noColon (d :: t)

/-- What may follow a value: spaces and a comment. -/
def ends (t : Bytes) : Bool :=
  match t with
  | [] => true
  | c :: _ => c = 32 && (match t.dropWhile (· = 32) with | [] => true | d :: _ => d = 35)

/-- A quoted value: the text up to the next quote. -/
def quoted (q : UInt8) (s : Bytes) : Option Bytes :=
  match s.dropWhile fun c => c ≠ q with
  | [] => none
  | _ :: e => if ends e then some (s.takeWhile fun c => c ≠ q) else none

/-- A value, quoted (without escapes) or plain. -/
def readScalar (s : Bytes) : Option (Bool × Bytes) :=
  if s.head? = some 34 then (quoted 34 s.tail).bind fun v => if 92 ∈ v then none else some (true, v)
  else if s.head? = some 39 then (quoted 39 s.tail).map fun v => (true, v)
  else if begins (trimRight (uncomment s)) && noColon (trimRight (uncomment s)) then some (false, trimRight (uncomment s))
  else none

/-- The text after `key:` -/
def readValue (t : Bytes) : Option (Option (Bool × Bytes)) :=
  if ends t then some none
  else if t.head? = some 32 then (readScalar (t.dropWhile (· = 32))).map some
  else none

/-- A line that begins with a key, after its indentation. -/
def readEntry (n : Nat) (t : Bytes) : Option Item :=
  match t.dropWhile keyByte with
  | [] => none
  | c :: e => if c = 58 ∧ safeKey (t.takeWhile keyByte) = true then (readValue e).map fun v => ⟨n, t.takeWhile keyByte, v⟩ else none

def readPlain (l : Bytes) : Option (Option Item) :=
  if l.dropWhile (· = 32) = [] ∨ (l.dropWhile (· = 32)).head? = some 35 then some none
  else (readEntry (l.takeWhile (· = 32)).length (l.dropWhile (· = 32))).map some

/-- A line ends with `\n` or `\r\n`. -/
def unCR (l : Bytes) : Bytes := if l.getLast? = some 13 then l.dropLast else l

/-- A line: `none`, not of this form; `some none`, empty or a comment. -/
def readLine (l : Bytes) : Option (Option Item) := if (unCR l).all printable then readPlain (unCR l) else none

/-! ## Nesting -/

def nextIndent : List Item → Nat
  | [] => 0
  | it :: _ => it.indent

/-- The entries that are indented by `k`, and what comes after them. -/
def block : Nat → Nat → List Item → Option (Entries × List Item)
  | 0, _, _ => none
  | fuel + 1, k, items =>
    match items with
    | [] => some (.nil, [])
    | it :: is =>
      if it.indent < k then some (.nil, it :: is)
      else if k < it.indent then none
      else
        match it.val with
        | some (q, s) => (block fuel k is).map fun r => (.cons (.scalar false it.key) (.scalar q s) r.1, r.2)
        | none =>
          if k < nextIndent is then
            (block fuel (nextIndent is) is).bind fun b => (block fuel k b.2).map fun r => (.cons (.scalar false it.key) (.map b.1) r.1, r.2)
          else (block fuel k is).map fun r => (.cons (.scalar false it.key) (.scalar false []) r.1, r.2)

mutual
/-- The number of levels. -/
def depthN : Node → Nat
  | .map es => depth es + 1
  | _ => 0

def depth : Entries → Nat
  | .nil => 0
  | .cons _ n es => max (depthN n) (depth es)
end

/-- The document of a text (`some none`: there is none). -/
def parse (text : Bytes) : Option (Option Node) :=
  match (split 10 text).mapM readLine with
  | none => none
  | some ls =>
    match ls.filterMap id with
    | [] => some none
    | it :: is =>
      match block (is.length + 2) it.indent (it :: is) with
      | some (es, []) => if depthN (.map es) ≤ 10000 then some (some (.map es)) else none
      | _ => none

/-- The file of /repo/conf/doc.go:53-62, with a comment and quotes. -/
def docText : Bytes :=
  ascii "mysql:\n  host: localhost\n  port: 3306\n  database: test\nredis:\n  host: localhost # same\n\n  port: 6379\n  password: \"te#t\"\n"

/-- Test: its lines. -/
example : (split 10 docText).mapM readLine =
    some [some ⟨0, ascii "mysql", none⟩, some ⟨2, ascii "host", some (false, ascii "localhost")⟩, some ⟨2, ascii "port", some (false, ascii "3306")⟩,
      some ⟨2, ascii "database", some (false, ascii "test")⟩, some ⟨0, ascii "redis", none⟩, some ⟨2, ascii "host", some (false, ascii "localhost")⟩, none,
      some ⟨2, ascii "port", some (false, ascii "6379")⟩, some ⟨2, ascii "password", some (true, ascii "te#t")⟩, none] := by
  decide +kernel

end Gears.Conf.Yaml.Text
