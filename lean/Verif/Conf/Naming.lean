/-
Model of /repo/conf/string.go.  Go strings are byte sequences.
-/

namespace Gears.Conf

abbrev Bytes := List UInt8

def dot : UInt8 := 46
def dash : UInt8 := 45
def underscore : UInt8 := 95

/-- string.go 88-90 -/
def isLowerASCII (b : UInt8) : Bool := 97 ≤ b && b ≤ 122

/-- string.go 92-94 -/
def isUpperASCII (b : UInt8) : Bool := 65 ≤ b && b ≤ 90

/-- string.go 74-79 -/
def lowerASCII (b : UInt8) : UInt8 := if isUpperASCII b then b + (97 - 65) else b

/-- string.go 81-86 -/
def upperASCII (b : UInt8) : UInt8 := if isLowerASCII b then b - (97 - 65) else b

/-- Body of the loop of `flagStyle` (25-40); the state is `rs` and `prevDot`. -/
def flagStep (st : Bytes × Bool) (b : UInt8) : Bytes × Bool :=
  let (rs, prevDot) := st
  if isUpperASCII b then
    let rs := if !prevDot then rs ++ [dash] else rs
    (rs ++ [lowerASCII b], false)
  else if b = dot then (rs ++ [dash], true)
  else (rs ++ [b], false)

/-- string.go 21-43 -/
def flagStyle (path : Bytes) : Bytes := (path.foldl flagStep ([], true)).1

/-- Body of the loop of `envStyle` (53-68). -/
def envStep (st : Bytes × Bool) (b : UInt8) : Bytes × Bool :=
  let (rs, prevDot) := st
  if isUpperASCII b then
    let rs := if !prevDot then rs ++ [underscore] else rs
    (rs ++ [b], false)
  else if b = dot then (rs ++ [underscore], true)
  else (rs ++ [upperASCII b], false)

/-- string.go 46-72 -/
def envStyle (path : Bytes) : Bytes := (path.foldl envStep ([], true)).1

end Gears.Conf
