import Verif.Confs.Model
import Verif.Procs.Url
import Verif.Common.Utf8

/-
C122: how the driver github.com/lib/pq v1.10.9 (/repo/go.mod:18) reads the DSN of `NewPostgresqlDb` (/repo/confs/postgresql.go:68-101).

`NewConnector` (connector.go of lib/pq) starts from defaults and the environment, turns the URL into a connection string
`k='v' k='v' …` (`ParseURL`), reads this again (`parseOpts`), and checks some settings.  The environment variables PG… and
the name of the operating system's user are inputs.
-/

namespace Gears.Pq

open Gears.Str Gears.Utf8 Gears.Confs

/-- `[]rune(s)`, with fuel for the number of runes -/
def runesN : Nat → Bytes → List Nat
  | 0, _ => []
  | _, [] => []
  | n + 1, b :: l => (decodeRune (b :: l)).1 :: runesN n ((b :: l).drop (decodeRune (b :: l)).2)

/-- `[]rune(s)` -/
def runes (s : Bytes) : List Nat := runesN s.length s

/-- `net/url.Parse`, for text that begins with a scheme: `parse(u, false)` differs from `parse(u, true)` only for other text.  The
fragment is cut off; it is only checked. -/
def urlParse (raw : Bytes) : Option Url.URL :=
  match Url.parseRequestURI (cut 35 raw).1, unescape false ((cut 35 raw).2.getD []) with
  | some u, some _ => some u
  | _, _ => none

/-- `net.SplitHostPort`; `none`: error -/
def splitHostPort (s : Bytes) : Option (Bytes × Bytes) :=
  match cutLast 58 s with
  | none => none
  | some (a, port) =>
    if s.head? = some 91 then
      match cut 93 s with
      | (_, none) => none
      | (x, some _) =>
        -- the first ']' must be just before the last ':'
        if x ++ [93] = a then
          if (s.drop 1).contains 91 || port.contains 93 then none else some (x.drop 1, port)
        else none
    else if a.contains 58 || s.contains 91 || s.contains 93 then none
    else some (a, port)

/-- One item of the query; items that are not well-formed are left out (`URL.Query` ignores the error of `ParseQuery`). -/
def queryItem (item : Bytes) : Option (Bytes × Bytes) :=
  if item.contains 59 || item = [] then none
  else
    match queryUnescape (cut 61 item).1, queryUnescape ((cut 61 item).2.getD []) with
    | some k, some v => some (k, v)
    | _, _ => none

/-- `URL.Query`: all values in their order -/
def query (q : Bytes) : List (Bytes × Bytes) := (split 38 q).filterMap queryItem

/-- The first value of every key (`Values.Get`). -/
def firsts : List (Bytes × Bytes) → List (Bytes × Bytes)
  | [] => []
  | (k, v) :: l => (k, v) :: (firsts l).filter (·.1 ≠ k)

/-- `strings.NewReplacer` with `'` → `\'` and `\` → `\\` -/
def esc : Bytes → Bytes
  | [] => []
  | c :: l => if c = 39 || c = 92 then 92 :: c :: esc l else c :: esc l

/-- `k='v'` -/
def kv (x : Bytes × Bytes) : Bytes := x.1 ++ 61 :: 39 :: esc x.2 ++ [39]

/-- `a ≤ b` for strings -/
def le : Bytes → Bytes → Bool
  | [], _ => true
  | _ :: _, [] => false
  | a :: s, b :: t => a < b || (a = b && le s t)

def insert (x : Bytes) : List Bytes → List Bytes
  | [] => [x]
  | y :: l => if le x y then x :: y :: l else y :: insert x l

/-- `sort.Strings` -/
def sort (l : List Bytes) : List Bytes := l.foldr insert []

/-- What `ParseURL` collects, before values that are empty are left out. -/
def collect (u : Url.URL) : List (Bytes × Bytes) :=
  (match u.user with
    | none => []
    | some (n, p) => [(ascii "user", n), (ascii "password", p.getD [])]) ++
  (match splitHostPort u.host with
    | none => [(ascii "host", u.host)]
    | some (h, p) => [(ascii "host", h), (ascii "port", p)]) ++
  (if u.path = [] then [] else [(ascii "dbname", u.path.drop 1)]) ++ firsts (query u.rawQuery)

/-- `ParseURL`: the connection string -/
def parseURL (raw : Bytes) : Option Bytes :=
  match urlParse raw with
  | none => none
  | some u =>
    if u.scheme ≠ ascii "postgres" ∧ u.scheme ≠ ascii "postgresql" then none
    else some (join 32 (sort (((collect u).filter (·.2 ≠ [])).map kv)))

/-- `unicode.IsSpace` -/
def isSpace (r : Nat) : Bool :=
  if r ≤ 0xFF then (9 ≤ r && r ≤ 13) || r = 32 || r = 0x85 || r = 0xA0
  else r = 0x1680 || (0x2000 ≤ r && r ≤ 0x200a) || r = 0x2028 || r = 0x2029 || r = 0x202f || r = 0x205f || r = 0x3000

/-- Where the scanner of `parseOpts` is; key and value so far are reversed. -/
inductive Mode where
  /-- before a key -/
  | start
  /-- in a key -/
  | key (k : List Nat)
  /-- after a key, before the equals sign -/
  | eq (k : List Nat)
  /-- after the equals sign -/
  | val (k : List Nat)
  /-- in a value without quotes -/
  | bare (k v : List Nat)
  /-- after a backslash in it -/
  | bareEsc (k v : List Nat)
  /-- in a value with quotes -/
  | quoted (k v : List Nat)
  /-- after a backslash in it -/
  | quotedEsc (k v : List Nat)

/-- The pair (`string(keyRunes)`, `string(valRunes)`). -/
def pair (k v : List Nat) : Bytes × Bytes := (utf8 k.reverse, utf8 v.reverse)

/-- `parseOpts`: the settings in their order; `none`: error -/
def parseOpts : Mode → List Nat → Option (List (Bytes × Bytes))
  | .start, [] => some []
  | .start, r :: l => if isSpace r then parseOpts .start l else if r = 61 then parseOpts (.val []) l else parseOpts (.key [r]) l
  | .key _, [] => none
  | .key k, r :: l => if isSpace r then parseOpts (.eq k) l else if r = 61 then parseOpts (.val k) l else parseOpts (.key (r :: k)) l
  | .eq _, [] => none
  | .eq k, r :: l => if isSpace r then parseOpts (.eq k) l else if r = 61 then parseOpts (.val k) l else none
  | .val k, [] => some [pair k []]
  | .val k, r :: l =>
    if isSpace r then parseOpts (.val k) l
    else if r = 39 then parseOpts (.quoted k []) l
    else if r = 92 then parseOpts (.bareEsc k []) l
    else parseOpts (.bare k [r]) l
  | .bare k v, [] => some [pair k v]
  | .bare k v, r :: l =>
    if isSpace r then (parseOpts .start l).map (pair k v :: ·)
    else if r = 92 then parseOpts (.bareEsc k v) l
    else parseOpts (.bare k (r :: v)) l
  | .bareEsc _ _, [] => none
  | .bareEsc k v, r :: l => parseOpts (.bare k (r :: v)) l
  | .quoted _ _, [] => none
  | .quoted k v, r :: l =>
    if r = 39 then (parseOpts .start l).map (pair k v :: ·)
    else if r = 92 then parseOpts (.quotedEsc k v) l
    else parseOpts (.quoted k (r :: v)) l
  | .quotedEsc _ _, [] => none
  | .quotedEsc k v, r :: l => parseOpts (.quoted k (r :: v)) l

/-- What the driver starts with: the defaults overridden by the environment variables PG…, and the operating system's user. -/
structure Env where
  base : Map
  user : Option Bytes

/-- `isUTF8` (conn.go): letters and digits are "utf8" or "unicode" -/
def isUTF8 (name : Bytes) : Bool :=
  let s := (name.map fun c => if 65 ≤ c && c ≤ 90 then c + 32 else c).filter fun c => (97 ≤ c && c ≤ 122) || (48 ≤ c && c ≤ 57)
  s = ascii "utf8" || s = ascii "unicode"

/-- The name used if there is none. -/
def withName (o : Map) : Map :=
  match o (ascii "fallback_application_name"), o (ascii "application_name") with
  | some f, none => o.set (ascii "application_name") f
  | _, _ => o

/-- The end of `NewConnector`: checks and settings that are always made. -/
def finish (env : Env) (o : Map) : Option Map :=
  let o := withName o
  if (o (ascii "client_encoding")).any (!isUTF8 ·) then none
  else
    let o := o.set (ascii "client_encoding") (ascii "UTF8")
    if (o (ascii "datestyle")).any (· ≠ ascii "ISO, MDY") then none
    else
      let o := if (o (ascii "datestyle")).isSome then o else o.set (ascii "datestyle") (ascii "ISO, MDY")
      let withUser := if (o (ascii "user")).isSome then some o else env.user.map fun u => o.set (ascii "user") u
      withUser.map fun o =>
        -- a path is a UNIX domain socket
        if (o (ascii "host")).any (·.head? = some 47) then o.set (ascii "sslmode") (ascii "disable") else o

/-- `NewConnector`, for a DSN that begins with `postgres://`: the settings of the connection; `none`: error, and `NewPostgresqlDb` ends
the program (postgresql.go:73-85). -/
def connect (env : Env) (dsn : Bytes) : Option Map :=
  match parseURL dsn with
  | none => none
  | some s =>
    match parseOpts .start (runes s) with
    | none => none
    | some l => finish env (l.foldl (fun o x => o.set x.1 x.2) env.base)

end Gears.Pq
