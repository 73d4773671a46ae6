import Verif.Common.Bytes

/-
Model of `net/url.ParseRequestURI` (Go 1.17), which the processors for URLs use (procs.go:122-159), and of these.

`RawPath`, which records how a path was written, is left out.
-/

namespace Gears.Url

open Gears.Str

structure URL where
  scheme     : Bytes := []
  opaquePart : Bytes := []
  /-- user and password -/
  user       : Option (Bytes × Option Bytes) := none
  host       : Bytes := []
  path       : Bytes := []
  forceQuery : Bool := false
  rawQuery   : Bytes := []
deriving DecidableEq, Repr

def isCtl (c : UInt8) : Bool := c < 32 || c = 127
def isAlpha (c : UInt8) : Bool := (97 ≤ c && c ≤ 122) || (65 ≤ c && c ≤ 90)
def isDig (c : UInt8) : Bool := 48 ≤ c && c ≤ 57
def lower (c : UInt8) : UInt8 := if 65 ≤ c && c ≤ 90 then c + 32 else c

/-- The loop of `getScheme`: `i` bytes were read, `l` is left; `none`: error. -/
def schemeLoop (raw : Bytes) : Nat → Bytes → Option (Bytes × Bytes)
  | _, [] => some ([], raw)
  | i, c :: l =>
    if isAlpha c then schemeLoop raw (i + 1) l
    else if isDig c || c = 43 || c = 45 || c = 46 then
      if i = 0 then some ([], raw) else schemeLoop raw (i + 1) l
    else if c = 58 then
      if i = 0 then none else some (raw.take i, l)
    else some ([], raw)

/-- `getScheme` -/
def getScheme (raw : Bytes) : Option (Bytes × Bytes) := schemeLoop raw 0 raw

/-- `!shouldEscape(c, encodeHost)` -/
def hostOk (c : UInt8) : Bool := unreserved c || (ascii "!$&'()*+,;=:[]<>\"").contains c

/-- `unescape` with `encodeHost`, and `encodeZone` -/
def unescapeHost (zone : Bool) : Bytes → Option Bytes
  | [] => some []
  | 37 :: a :: b :: l =>
    if !(isHex a && isHex b) then none
    else
      let v := unhex a * 16 + unhex b
      let is25 := a = 50 && b = 53
      if !zone && unhex a < 8 && !is25 then none
      else if zone && !is25 && v ≠ 32 && !hostOk v then none
      else (unescapeHost zone l).map (v :: ·)
  | c :: l =>
    if c = 37 then none
    else if c < 128 && !hostOk c then none
    else (unescapeHost zone l).map (c :: ·)

/-- `validOptionalPort` -/
def validPort : Bytes → Bool
  | [] => true
  | c :: l => c = 58 && l.all isDig

/-- `strings.Index(s, "%25")`: what is before it, and the rest. -/
def cutZone : Bytes → Option (Bytes × Bytes)
  | [] => none
  | c :: l =>
    if isPrefix (ascii "%25") (c :: l) then some ([], c :: l)
    else (cutZone l).map fun x => (c :: x.1, x.2)

/-- `parseHost` -/
def parseHost (host : Bytes) : Option Bytes :=
  if host.head? = some 91 then
    match cutLast 93 host with
    | none => none
    | some (a, port) =>
      if !validPort port then none
      else
        match cutZone a with
        | some (h1, h2) =>
          match unescapeHost false h1, unescapeHost true h2, unescapeHost false (93 :: port) with
          | some x, some y, some z => some (x ++ y ++ z)
          | _, _, _ => none
        | none => unescapeHost false host
  else
    match cutLast 58 host with
    | some (_, port) => if validPort (58 :: port) then unescapeHost false host else none
    | none => unescapeHost false host

/-- `validUserinfo` -/
def userinfoByte (c : UInt8) : Bool := isAlpha c || isDig c || (ascii "-._:~!$&'()*+,;=%@").contains c

/-- `parseAuthority` -/
def parseAuthority (authority : Bytes) : Option (Option (Bytes × Option Bytes) × Bytes) :=
  match cutLast 64 authority with
  | none => (parseHost authority).map fun h => (none, h)
  | some (userinfo, hp) =>
    match parseHost hp with
    | none => none
    | some h =>
      if !userinfo.all userinfoByte then none
      else
        match cut 58 userinfo with
        | (_, none) => (unescape false userinfo).map fun u => (some (u, none), h)
        | (u, some p) =>
          match unescape false u, unescape false p with
          | some u, some p => some (some (u, some p), h)
          | _, _ => none

/-- The query is split off: what is before it, `ForceQuery` and `RawQuery`. -/
def splitQuery (rest : Bytes) : Bytes × Bool × Bytes :=
  if rest.getLast? = some 63 && rest.count 63 = 1 then (rest.dropLast, true, [])
  else ((cut 63 rest).1, false, (cut 63 rest).2.getD [])

/-- `parse(rawURL, true)`; `none`: error -/
def parseRequestURI (raw : Bytes) : Option URL :=
  if raw.any isCtl then none
  else if raw = [] then none
  else if raw = [42] then some { path := [42] }
  else
    match getScheme raw with
    | none => none
    | some (scheme, rest) =>
      let scheme := scheme.map lower
      let q := splitQuery rest
      let rest := q.1
      if rest.head? ≠ some 47 then
        if scheme ≠ [] then some { scheme := scheme, opaquePart := rest, forceQuery := q.2.1, rawQuery := q.2.2 }
        else none
      else if scheme ≠ [] ∧ isPrefix [47, 47] rest then
        let r := rest.drop 2
        let authority := (cut 47 r).1
        let path := r.drop authority.length
        match parseAuthority authority with
        | none => none
        | some (user, host) =>
          (unescape false path).map fun p =>
            { scheme := scheme, user := user, host := host, path := p, forceQuery := q.2.1, rawQuery := q.2.2 }
      else
        (unescape false rest).map fun p => { scheme := scheme, path := p, forceQuery := q.2.1, rawQuery := q.2.2 }

/-! ## The processors -/

/-- `urlProcessor.Validate` (procs.go:124-133), `urlStringProcessor.Validate` (146-155) -/
def urlValidate (v : Bytes) : Option String :=
  if v = [] then none
  else match parseRequestURI v with
    | none => some "not url value"
    | some _ => none

/-- `urlProcessor.Convert` (135-142); `none`: nil -/
def urlConvert (v : Bytes) : Option URL := if v = [] then none else parseRequestURI v

/-- `urlStringProcessor.Convert` (157-159) -/
def urlStringConvert (v : Bytes) : Bytes := v

end Gears.Url
