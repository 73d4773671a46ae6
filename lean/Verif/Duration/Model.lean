import Verif.Common.Bytes
import Verif.Common.Float64
import Verif.Procs.Model

/-
Texts of durations: time.ParseDuration and Duration.String of the Go library (package time, Go 1.17, format.go and
time.go), which decide about confstore's Duration processor (/repo/confstore/procs.go:107-120), the flags and environment
variables of type time.Duration (/repo/conf/flag.go:53, /repo/conf/env.go:52) and the texts in /repo/confs.

Integers are unbounded, what Go computes in int64 is reduced with `wrap`; float64 values are rationals rounded by `rnd`.
From Go 1.18 on the parser computes in uint64; the one difference in the results is that "-9223372036854775808ns" (and
other texts for -2^63) are accepted.
-/

namespace Gears.Duration

open Gears.Str
open Gears.Procs (wrap)

def isDigit (c : UInt8) : Bool := 48 ≤ c && c ≤ 57

/-! ## Duration.String -/

/-- The loop of `fmtFrac` over `n` digits from the right; the flag `print` of the code is `acc ≠ []`. -/
def fmtFracLoop : Nat → Nat → Bytes → Bytes × Nat
  | 0, v, acc => (acc, v)
  | n + 1, v, acc =>
    if acc ≠ [] ∨ v % 10 ≠ 0 then fmtFracLoop n (v / 10) (UInt8.ofNat (48 + v % 10) :: acc)
    else fmtFracLoop n (v / 10) acc

/-- `fmtFrac`: the fraction of v/10^prec, and v/10^prec without it -/
def fmtFrac (v prec : Nat) : Bytes × Nat :=
  let (acc, v) := fmtFracLoop prec v []
  (if acc ≠ [] then 46 :: acc else [], v)

/-- `fmtInt` -/
def fmtInt (v : Nat) : Bytes := natDigits v

/-- The text of a duration below a second: the number with `prec` decimals, and the unit. -/
def small (u prec : Nat) (unit : Bytes) : Bytes := fmtInt (fmtFrac u prec).2 ++ (fmtFrac u prec).1 ++ unit

/-- `Duration.String` of `u` nanoseconds, without the sign -/
def format (u : Nat) : Bytes :=
  if u < 1000000000 then
    if u = 0 then ascii "0s"
    else if u < 1000 then small u 0 (ascii "ns")
    else if u < 1000000 then small u 3 [0xC2, 0xB5, 115]
    else small u 6 (ascii "ms")
  else
    let s := (fmtFrac u 9).2
    let sec := fmtInt (s % 60) ++ (fmtFrac u 9).1 ++ ascii "s"
    let m := s / 60
    if 0 < m then
      let min := fmtInt (m % 60) ++ ascii "m" ++ sec
      let h := m / 60
      if 0 < h then fmtInt h ++ ascii "h" ++ min else min
    else sec

/-- `Duration.String` -/
def toText (d : Int) : Bytes := if d < 0 then 45 :: format d.natAbs else format d.natAbs

/-! ## ParseDuration -/

/-- The loop of `leadingInt`; `none`: overflow -/
def leadingInt (x : Int) : Bytes → Option (Int × Bytes)
  | [] => some (x, [])
  | c :: l =>
    if isDigit c then
      if (2 ^ 63 - 1) / 10 < x then none
      else
        let y := wrap (x * 10 + (c - 48).toNat)
        if y < 0 then none else leadingInt y l
    else some (x, c :: l)

/-- The loop of `leadingFraction`: digits that do not fit are skipped.  `scale` is a float64, a power of ten up to 10^19,
    all of which are exact. -/
def leadingFraction (x : Int) (scale : Nat) (overflow : Bool) : Bytes → Int × Nat × Bytes
  | [] => (x, scale, [])
  | c :: l =>
    if isDigit c then
      if overflow then leadingFraction x scale overflow l
      else if (2 ^ 63 - 1) / 10 < x then leadingFraction x scale true l
      else
        let y := wrap (x * 10 + (c - 48).toNat)
        if y < 0 then leadingFraction x scale true l
        else leadingFraction y (scale * 10) false l
    else (x, scale, c :: l)

/-- The unit: everything up to the next period or digit -/
def takeUnit : Bytes → Bytes × Bytes
  | [] => ([], [])
  | c :: l => if c = 46 ∨ isDigit c then ([], c :: l) else (c :: (takeUnit l).1, (takeUnit l).2)

/-- `unitMap` -/
def unitMap : List (Bytes × Int) :=
  [(ascii "ns", 1), (ascii "us", 1000), ([0xC2, 0xB5, 115], 1000), ([0xCE, 0xBC, 115], 1000), (ascii "ms", 1000000),
   (ascii "s", 1000000000), (ascii "m", 60000000000), (ascii "h", 3600000000000)]

/-- `int64(float64(f) * (float64(unit) / scale))`; the value is positive and below 2^63 -/
def fraction (f : Int) (unit : Int) (scale : Nat) : Int :=
  ⌊Float64.rnd (Float64.ofInt f * Float64.div (Float64.ofInt unit) (scale : ℚ))⌋

/-- The optional fraction: digits, scale, rest of the text, and whether there were digits. -/
def fractionPart : Bytes → Int × Nat × Bytes × Bool
  | 46 :: s =>
    let r := leadingFraction 0 1 false s
    (r.1, r.2.1, r.2.2, s.length ≠ r.2.2.length)
  | s => (0, 1, s, false)

/-- The number `v + f/scale`, the unit of which is next in the text. -/
def unitPart (v f : Int) (scale : Nat) (s : Bytes) : Option (Int × Bytes) :=
  let u := takeUnit s
  if u.1 = [] then none
  else
    match unitMap.lookup u.1 with
    | none => none
    | some unit =>
      if (2 ^ 63 - 1) / unit < v then none
      else
        let v1 := wrap (v * unit)
        if 0 < f then
          let v2 := wrap (v1 + fraction f unit scale)
          if v2 < 0 then none else some (v2, u.2)
        else some (v1, u.2)

/-- One round of the loop: the nanoseconds of the first number and unit, and the rest of the text. -/
def part (s : Bytes) : Option (Int × Bytes) :=
  match s with
  | [] => none
  | c :: _ =>
    if ¬ (c = 46 ∨ isDigit c) then none
    else
      match leadingInt 0 s with
      | none => none
      | some (v, s1) =>
        let pre := s.length ≠ s1.length
        let fr := fractionPart s1
        if ¬ pre ∧ ¬ fr.2.2.2 then none else unitPart v fr.1 fr.2.1 fr.2.2.1

/-- The loop of `ParseDuration`; every round takes at least one byte, so that `fuel = s.length` is enough. -/
def parts : Nat → Int → Bytes → Option Int
  | _, d, [] => some d
  | 0, _, _ => none
  | fuel + 1, d, s =>
    match part s with
    | none => none
    | some (v, s1) => if wrap (d + v) < 0 then none else parts fuel (wrap (d + v)) s1

def takeSign : Bytes → Bool × Bytes
  | 45 :: l => (true, l)
  | 43 :: l => (false, l)
  | l => (false, l)

/-- `time.ParseDuration` -/
def parse (s : Bytes) : Option Int :=
  let (neg, s) := takeSign s
  if s = ascii "0" then some 0
  else if s = [] then none
  else (parts s.length 0 s).map (fun d => if neg then -d else d)

end Gears.Duration
