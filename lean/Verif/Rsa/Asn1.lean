import Verif.Rsa.Model

/-
What /repo/util/rsa/util.go leaves to the standard library (Go 1.17): `x509.ParsePKCS1PrivateKey` (util.go:43),
`x509.ParsePKIXPublicKey` (util.go:76) and `x509.MarshalPKIXPublicKey` (util.go:120), with the parts of encoding/asn1,
golang.org/x/crypto/cryptobyte and crypto/rsa that they use.  All errors are `none`.  Lengths are natural numbers; they stay below
2^31 + 2^31 in the code.  Elliptic curves are a parameter, given in Curve.lean.
-/

namespace Gears.Rsa

open Gears.Str

/-! ## encoding/asn1, reading -/

/-- `tagAndLength` -/
structure Head where
  cls : Nat
  compound : Bool
  tag : Nat
  length : Nat
deriving DecidableEq, Repr

/-- The loop of `parseBase128Int`; `shifted` bytes have been read. -/
def base128 (shifted acc : Nat) : Bytes → Option (Nat × Bytes)
  | [] => none
  | b :: l =>
    if shifted = 5 then none
    else if shifted = 0 ∧ b = 128 then none
    else
      let acc := acc * 128 + b.toNat % 128
      if b < 128 then if acc > 2147483647 then none else some (acc, l)
      else base128 (shifted + 1) acc l

/-- The loop of `parseTagAndLength` over the bytes of a long length. -/
def lenBytes : Nat → Nat → Bytes → Option (Nat × Bytes)
  | 0, acc, l => some (acc, l)
  | _ + 1, _, [] => none
  | n + 1, acc, b :: l =>
    if acc ≥ 8388608 then none
    else
      let acc := acc * 256 + b.toNat
      if acc = 0 then none else lenBytes n acc l

/-- The second half of `parseTagAndLength`: the length. -/
def parseLength : Bytes → Option (Nat × Bytes)
  | [] => none
  | b :: l =>
    if b < 128 then some (b.toNat, l)
    else if b = 128 then none
    else
      match lenBytes (b.toNat - 128) 0 l with
      | none => none
      | some (n, l) => if n < 128 then none else some (n, l)

/-- `parseTagAndLength` -/
def parseHead : Bytes → Option (Head × Bytes)
  | [] => none
  | b :: l =>
    let cls := b.toNat / 64
    let compound := b.toNat / 32 % 2 = 1
    if b.toNat % 32 = 31 then
      match base128 0 0 l with
      | none => none
      | some (tag, l) => if tag < 31 then none else (parseLength l).map fun r => (⟨cls, compound, tag, r.1⟩, r.2)
    else (parseLength l).map fun r => (⟨cls, compound, b.toNat % 32, r.1⟩, r.2)

/-- `parseField` up to the contents: the contents of the element with this tag, and what follows.  An optional element may be
missing. -/
def element (compound : Bool) (tag : Nat) (optional : Bool) (bs : Bytes) : Option (Option Bytes × Bytes) :=
  if bs = [] then if optional then some (none, bs) else none
  else
    match parseHead bs with
    | none => none
    | some (h, l) =>
      if h.cls ≠ 0 ∨ h.tag ≠ tag ∨ h.compound ≠ compound then if optional then some (none, bs) else none
      else if l.length < h.length then none
      else some (some (l.take h.length), l.drop h.length)

/-- An element that must be there. -/
def must' (compound : Bool) (tag : Nat) (bs : Bytes) : Option (Bytes × Bytes) :=
  match element compound tag false bs with
  | some (some c, l) => some (c, l)
  | _ => none

/-- `asn1.RawValue` as an optional field: all bytes of the element. -/
def rawOptional (bs : Bytes) : Option Bytes :=
  if bs = [] then some []
  else
    match parseHead bs with
    | none => none
    | some (h, l) => if l.length < h.length then none else some (bs.take (bs.length - l.length + h.length))

/-- `checkInteger`, and `checkASN1Integer` of cryptobyte. -/
def checkInteger : Bytes → Bool
  | [] => false
  | [_] => true
  | a :: b :: _ => !(a = 0 && b < 128 || a = 255 && b ≥ 128)

/-- `big.Int.SetBytes` -/
def natVal (bs : Bytes) : Nat := bs.foldl (fun n b => n * 256 + b.toNat) 0

/-- `parseBigInt`, and the integers of cryptobyte. -/
def parseBigInt (bs : Bytes) : Option Int :=
  if !checkInteger bs then none
  else if bs.headD 0 ≥ 128 then some (-((natVal (bs.map fun b => 255 - b) : Int) + 1))
  else some (natVal bs)

/-- `parseInt64`: `ret <<= 8; ret |= b` over at most 8 bytes, then the sign is extended. -/
def parseInt64 (bs : Bytes) : Option Int :=
  if !checkInteger bs then none
  else if bs.length > 8 then none
  else some (Int.bmod (natVal bs * 2 ^ (64 - bs.length * 8)) (2 ^ 64) / 2 ^ (64 - bs.length * 8))

def intField (parse : Bytes → Option Int) (bs : Bytes) : Option (Int × Bytes) :=
  match must' false 2 bs with
  | none => none
  | some (c, l) => (parse c).map fun v => (v, l)

/-- An optional `*big.Int`, whose value is not used. -/
def skipInt (bs : Bytes) : Option Bytes :=
  match element false 2 true bs with
  | none => none
  | some (none, l) => some l
  | some (some c, l) => if (parseBigInt c).isSome then some l else none

/-- The rest of `parseObjectIdentifier` after the first number. -/
def oidRest : Nat → Bytes → Option (List Nat)
  | _, [] => some []
  | 0, _ => none
  | n + 1, l =>
    match base128 0 0 l with
    | none => none
    | some (v, l) => (oidRest n l).map (v :: ·)

/-- `parseObjectIdentifier` -/
def parseOid (bs : Bytes) : Option (List Nat) :=
  match base128 0 0 bs with
  | none => none
  | some (v, l) => (oidRest l.length l).map fun r => if v < 80 then v / 40 :: v % 40 :: r else 2 :: (v - 80) :: r

/-- `parseBitString`, its bytes shifted by `RightAlign`. -/
def parseBits : Bytes → Option Bytes
  | [] => none
  | pad :: bs =>
    if pad > 7 then none
    else if bs = [] then if pad > 0 then none else some []
    else if (bs.getLastD 0).toNat % 2 ^ pad.toNat ≠ 0 then none
    else some (if pad = 0 then bs else (List.range bs.length).map fun i =>
      UInt8.ofNat ((bs.getD i 0).toNat / 2 ^ pad.toNat + (if i = 0 then 0 else (bs.getD (i - 1) 0).toNat * 2 ^ (8 - pad.toNat) % 256)))

/-! ## cryptobyte -/

/-- `String.ReadASN1` -/
def readASN1 (tag : UInt8) : Bytes → Option (Bytes × Bytes)
  | t :: lenByte :: l =>
    if t.toNat % 32 = 31 then none
    else
      let header : Option (Nat × Bytes) :=
        if lenByte < 128 then some (lenByte.toNat, l)
        else
          let lenLen := lenByte.toNat - 128
          if lenLen = 0 ∨ lenLen > 4 ∨ l.length < lenLen then none
          else
            let len32 := natVal (l.take lenLen)
            if len32 < 128 then none
            else if len32 / 256 ^ (lenLen - 1) = 0 then none
            else if 2 + lenLen + len32 ≥ 2 ^ 32 then none
            else some (len32, l.drop lenLen)
      match header with
      | none => none
      | some (n, l) => if l.length < n then none else if t ≠ tag then none else some (l.take n, l.drop n)
  | _ => none

/-- `ReadASN1Integer` into a `*big.Int`. -/
def readBigInt (bs : Bytes) : Option (Int × Bytes) :=
  match readASN1 2 bs with
  | none => none
  | some (c, l) => (parseBigInt c).map fun v => (v, l)

/-- `ReadASN1Integer` into an `int`. -/
def readInt (bs : Bytes) : Option (Int × Bytes) :=
  match readASN1 2 bs with
  | none => none
  | some (c, l) => (parseInt64 c).map fun v => (v, l)

/-! ## crypto/x509 and crypto/rsa -/

/-- `rsa.PublicKey` -/
structure RsaPub where
  n : Int
  e : Int
deriving DecidableEq, Repr

/-- `rsa.PrivateKey`, without the values that are computed from these. -/
structure RsaPriv where
  n : Int
  e : Int
  d : Int
  primes : List Int
deriving DecidableEq, Repr

def RsaPriv.pub (k : RsaPriv) : RsaPub := ⟨k.n, k.e⟩

/-- `pkcs1AdditionalRSAPrime`: the prime. -/
def additionalPrime (c : Bytes) : Option Int :=
  match intField parseBigInt c with
  | none => none
  | some (p, l) =>
    match intField parseBigInt l with
    | none => none
    | some (_, l) => (intField parseBigInt l).map fun _ => p

/-- `parseSequenceOf` for these, at most `n`. -/
def additionalPrimes : Nat → Bytes → Option (List Int)
  | _, [] => some []
  | 0, _ => none
  | n + 1, l =>
    match must' true 16 l with
    | none => none
    | some (c, l) =>
      match additionalPrime c with
      | none => none
      | some p => (additionalPrimes n l).map (p :: ·)

/-- The optional field `AdditionalPrimes`. -/
def primesField (bs : Bytes) : Option (List Int) :=
  match element true 16 true bs with
  | none => none
  | some (none, _) => some []
  | some (some c, _) => additionalPrimes c.length c

/-- `asn1.Unmarshal` into a `pkcs1PrivateKey`: the version and the key. -/
def parsePkcs1 (der : Bytes) : Option (Int × RsaPriv) := do
  let (c, rest) ← must' true 16 der
  guard (rest = [])
  let (version, l) ← intField parseInt64 c
  let (n, l) ← intField parseBigInt l
  let (e, l) ← intField parseInt64 l
  let (d, l) ← intField parseBigInt l
  let (p, l) ← intField parseBigInt l
  let (q, l) ← intField parseBigInt l
  let l ← skipInt l
  let l ← skipInt l
  let l ← skipInt l
  let more ← primesField l
  return (version, ⟨n, e, d, p :: q :: more⟩)

/-- `PrivateKey.Validate` -/
def RsaPriv.validate (k : RsaPriv) : Bool :=
  2 ≤ k.e && k.e ≤ 2147483647 &&
  k.primes.all (fun p => 1 < p) && k.primes.foldl (· * ·) 1 = k.n &&
  k.primes.all (fun p => k.e * k.d % (p - 1) = 1)

/-- `x509.ParsePKCS1PrivateKey` -/
def parsePKCS1PrivateKey (der : Bytes) : Option RsaPriv :=
  match parsePkcs1 der with
  | none => none
  | some (version, k) =>
    if version > 1 then none
    else if k.n ≤ 0 ∨ k.d ≤ 0 ∨ k.primes.any (· ≤ 0) then none
    else if k.validate then some k else none

def oidRsa : List Nat := [1, 2, 840, 113549, 1, 1, 1]
def oidDsa : List Nat := [1, 2, 840, 10040, 4, 1]
def oidEcdsa : List Nat := [1, 2, 840, 10045, 2, 1]
def oidEd25519 : List Nat := [1, 3, 101, 112]

/-- `publicKeyInfo`: the algorithm, its parameters and the key. -/
def parsePkixInfo (der : Bytes) : Option (List Nat × Bytes × Bytes) := do
  let (c, rest) ← must' true 16 der
  guard (rest = [])
  let (alg, l) ← must' true 16 c
  let (o, l') ← must' false 6 alg
  let oid ← parseOid o
  let params ← rawOptional l'
  let (bits, _) ← must' false 3 l
  let key ← parseBits bits
  return (oid, params, key)

/-- An RSA public key. -/
def parseRsaPub (params key : Bytes) : Option RsaPub :=
  if params ≠ [5, 0] then none
  else
    match readASN1 48 key with
    | none => none
    | some (c, _) =>
      match readBigInt c with
      | none => none
      | some (n, l) =>
        match readInt l with
        | none => none
        | some (e, _) => if n ≤ 0 ∨ e ≤ 0 then none else some ⟨n, e⟩

/-- Whether these are a DSA public key. -/
def isDsaPub (params key : Bytes) : Bool :=
  match readBigInt key, readASN1 48 params with
  | some (y, _), some (c, _) =>
    match readBigInt c with
    | some (p, l) =>
      match readBigInt l with
      | some (q, l) =>
        match readBigInt l with
        | some (g, _) => 0 < y && 0 < p && 0 < q && 0 < g
        | none => false
      | none => false
    | none => false
  | _, _ => false

/-- `parsePublicKey` -/
def parsePublicKey (curve : Bytes → Bytes → Bool) (oid : List Nat) (params key : Bytes) : Option (PubKey RsaPub) :=
  if oid = oidRsa then (parseRsaPub params key).map .rsa
  else if oid = oidDsa then if isDsaPub params key then some .other else none
  else if oid = oidEcdsa then if curve params key then some .other else none
  else if oid = oidEd25519 then if params = [] ∧ key.length = 32 then some .other else none
  else none

/-- `x509.ParsePKIXPublicKey`; `curve` says whether parameters and key are a known curve and a point of it. -/
def parsePKIXPublicKey (curve : Bytes → Bytes → Bool) (der : Bytes) : Option (PubKey RsaPub) :=
  match parsePkixInfo der with
  | none => none
  | some (oid, params, key) => parsePublicKey curve oid params key

/-! ## encoding/asn1, writing -/

/-- `appendLength`, the bytes of a number. -/
def natBytes (n : Nat) : Bytes := if _ : n = 0 then [] else natBytes (n / 256) ++ [UInt8.ofNat n]
termination_by n

/-- The length in `appendTagAndLength`. -/
def putLength (n : Nat) : Bytes := if n < 128 then [UInt8.ofNat n] else UInt8.ofNat (128 + (natBytes n).length) :: natBytes n

/-- An element with a tag. -/
def tlv (tag : UInt8) (c : Bytes) : Bytes := tag :: putLength c.length ++ c

/-- `makeBigInt` -/
def putBigInt (v : Int) : Bytes :=
  if v < 0 then
    let bs := (natBytes (-v - 1).toNat).map fun b => 255 - b
    if bs = [] ∨ bs.headD 0 < 128 then 255 :: bs else bs
  else if v = 0 then [0]
  else
    let bs := natBytes v.toNat
    if bs.headD 0 ≥ 128 then 0 :: bs else bs

/-- `int64Encoder`: as many bytes as needed. -/
def putInt64 (v : Int) : Bytes :=
  if _ : -128 ≤ v ∧ v ≤ 127 then [UInt8.ofNat (v % 256).toNat] else putInt64 (v / 256) ++ [UInt8.ofNat (v % 256).toNat]
termination_by v.natAbs
decreasing_by omega

def rsaOidBytes : Bytes := [42, 134, 72, 134, 247, 13, 1, 1, 1]

/-- `x509.MarshalPKIXPublicKey` of an RSA key. -/
def marshalPKIXPublicKey (k : RsaPub) : Bytes :=
  tlv 48 (tlv 48 (tlv 6 rsaOidBytes ++ [5, 0]) ++ tlv 3 (0 :: tlv 48 (tlv 2 (putBigInt k.n) ++ tlv 2 (putInt64 k.e))))

/-! ## util.go with these parsers -/

/-- `ReadPrivateKey` (util.go:21-25, 35-44) -/
def readPrivate (dec : Bytes → Option Block) (pem : Bytes) : Res RsaPriv := readPrivateKey dec parsePKCS1PrivateKey pem

/-- `ReadPublicKey` (util.go:54-58, 68-81) -/
def readPublic (curve : Bytes → Bytes → Bool) (dec : Bytes → Option Block) (pem : Bytes) : Res RsaPub :=
  readPublicKey dec (parsePKIXPublicKey curve) pem

/-- `ExtractPublicKeyPem` (util.go:119-134) -/
def extractPublic (k : RsaPriv) : Option Bytes := extractPublicKeyPem (fun k => some (marshalPKIXPublicKey k.pub)) k

end Gears.Rsa
