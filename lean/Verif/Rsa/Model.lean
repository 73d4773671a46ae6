import Verif.Common.Bytes

/-
Model of /repo/util/rsa/util.go, and of encoding/pem (Go 1.17) on which it is built.  The parsers of crypto/x509 are
parameters.
-/

namespace Gears.Rsa

open Gears.Str

/-! ## encoding/pem -/

/-- `pem.Block`; headers are not looked at. -/
structure Block where
  type : Bytes
  bytes : Bytes
deriving DecidableEq, Repr

def beginMark : Bytes := ascii "-----BEGIN "
def endMark : Bytes := ascii "-----END "
def dashes : Bytes := ascii "-----"

/-- `bytes.TrimRight(s, " \t")` -/
def trimBlank (s : Bytes) : Bytes := (s.reverse.dropWhile fun c => c = 32 || c = 9).reverse

/-- Take off one '\r' at the end. -/
def trimCR (s : Bytes) : Bytes := if s.getLast? = some 13 then s.dropLast else s

/-- `getLine`: the first line, without blanks at its end, and the rest. -/
def getLine (data : Bytes) : Bytes × Bytes :=
  match cut 10 data with
  | (l, none) => (trimBlank l, [])
  | (l, some rest) => (trimBlank (trimCR l), rest)

/-- `bytes.Index` with a pattern: what is before and after the first occurrence. -/
def cutStr (p : Bytes) : Bytes → Option (Bytes × Bytes)
  | [] => if isPrefix p [] then some ([], []) else none
  | c :: l => if isPrefix p (c :: l) then some ([], (c :: l).drop p.length) else (cutStr p l).map fun r => (c :: r.1, r.2)

/-- The loop over the header lines, at most `n` of them: whether there are any, and what follows.  `none`: the text ends. -/
def headers : Nat → Bool → Bytes → Option (Bool × Bytes)
  | 0, _, _ => none
  | n + 1, some?, rest =>
    if rest = [] then none
    else if (getLine rest).1.contains 58 then headers n true (getLine rest).2
    else some (some?, rest)

/-- `removeSpacesAndTabs` -/
def removeBlanks (s : Bytes) : Bytes := s.filter fun c => c ≠ 32 && c ≠ 9

/-- `pem.Decode`, the block.  `again` is what is tried when the first thing that looks like a block is not one
(`decodeError`); it may be anything. -/
def decode (again : Bytes → Option Block) (data : Bytes) : Option Block :=
  let start := if isPrefix beginMark data then some (data.drop beginMark.length)
    else (cutStr (10 :: beginMark) data).map (·.2)
  match start with
  | none => none
  | some rest =>
    let typeLine := (getLine rest).1
    let rest := (getLine rest).2
    if !isPrefix dashes.reverse typeLine.reverse then again data
    else
      let typ := typeLine.take (typeLine.length - dashes.length)
      match headers (rest.length + 1) false rest with
      | none => none
      | some (some?, rest) =>
        let e := if !some? && isPrefix endMark rest then some ([], rest.drop endMark.length) else cutStr (10 :: endMark) rest
        match e with
        | none => again data
        | some (body, trailer) =>
          if !isPrefix (typ ++ dashes) trailer then again data
          else if (getLine (trailer.drop (typ ++ dashes).length)).1 ≠ [] then again data
          else
            match b64decode (removeBlanks body) with
            | none => again data
            | some b => some ⟨typ, b⟩

/-- What the line breaker writes: lines of 64 characters, at most `n`. -/
def lines : Nat → Bytes → Bytes
  | 0, _ => []
  | n + 1, s => if s = [] then [] else s.take 64 ++ 10 :: lines n (s.drop 64)

/-- `pem.Encode` of a block without headers. -/
def encode (b : Block) : Bytes :=
  beginMark ++ b.type ++ dashes ++ 10 :: lines (b64encode b.bytes).length (b64encode b.bytes) ++
  endMark ++ b.type ++ dashes ++ [10]

/-! ## util.go -/

/-- `normalizePem` (util.go:112-117) -/
def normalizePem (pemStr typ : Bytes) : Bytes :=
  if !contains (ascii "-----BEGIN") pemStr || !contains (ascii "-----END") pemStr then
    ascii "-----BEGIN " ++ typ ++ ascii "-----\n" ++ pemStr ++ ascii "\n-----END " ++ typ ++ ascii "-----"
  else pemStr

inductive Res (α : Type) where
  | ok (a : α)
  | err
  | panic
deriving DecidableEq, Repr

/-- `ReadPrivateKeyBytes` (util.go:35-44); `dec` is `pem.Decode`, `parse` is `x509.ParsePKCS1PrivateKey`. -/
def readPrivateKeyBytes {K : Type} (dec : Bytes → Option Block) (parse : Bytes → Option K) (pemBytes : Bytes) : Res K :=
  match dec pemBytes with
  | none => .err
  | some block =>
    if block.type ≠ ascii "RSA PRIVATE KEY" then .err
    else
      match parse block.bytes with
      | none => .err
      | some k => .ok k

/-- What `x509.ParsePKIXPublicKey` finds: an RSA key or a key of another kind (DSA, ECDSA, Ed25519). -/
inductive PubKey (K : Type) where
  | rsa (k : K)
  | other
deriving DecidableEq, Repr

/-- `ReadPublicKeyBytes` (util.go:68-81): the type assertion panics for another kind of key. -/
def readPublicKeyBytes {K : Type} (dec : Bytes → Option Block) (parse : Bytes → Option (PubKey K)) (pemBytes : Bytes) : Res K :=
  match dec pemBytes with
  | none => .err
  | some block =>
    if block.type ≠ ascii "PUBLIC KEY" then .err
    else
      match parse block.bytes with
      | none => .err
      | some (.rsa k) => .ok k
      | some .other => .panic

/-- `ReadX509CertificateBytes` (util.go:97-110) -/
def readX509CertificateBytes {K : Type} (dec : Bytes → Option Block) (parse : Bytes → Option K) (pemBytes : Bytes) : Res K :=
  match dec pemBytes with
  | none => .err
  | some block =>
    if block.type ≠ ascii "CERTIFICATE" then .err
    else
      match parse block.bytes with
      | none => .err
      | some k => .ok k

/-- `ReadPrivateKey` (util.go:21-25) -/
def readPrivateKey {K : Type} (dec : Bytes → Option Block) (parse : Bytes → Option K) (pem : Bytes) : Res K :=
  readPrivateKeyBytes dec parse (normalizePem pem (ascii "RSA PRIVATE KEY"))

/-- `ReadPublicKey` (util.go:54-58) -/
def readPublicKey {K : Type} (dec : Bytes → Option Block) (parse : Bytes → Option (PubKey K)) (pem : Bytes) : Res K :=
  readPublicKeyBytes dec parse (normalizePem pem (ascii "PUBLIC KEY"))

/-- `ReadX509Certificate` (util.go:83-87) -/
def readX509Certificate {K : Type} (dec : Bytes → Option Block) (parse : Bytes → Option K) (pem : Bytes) : Res K :=
  readX509CertificateBytes dec parse (normalizePem pem (ascii "CERTIFICATE"))

/-- The `Must…` functions (util.go:13-19, 27-33, 46-52, 60-66, 89-95). -/
def must {K : Type} : Res K → Res K
  | .err => .panic
  | r => r

/-- `ExtractPublicKeyPem` (util.go:119-134); `marshal` is `x509.MarshalPKIXPublicKey` of the public part. -/
def extractPublicKeyPem {K : Type} (marshal : K → Option Bytes) (k : K) : Option Bytes :=
  match marshal k with
  | none => none
  | some bs => some (encode ⟨ascii "PUBLIC KEY", bs⟩)

end Gears.Rsa
