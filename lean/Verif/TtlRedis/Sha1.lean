import Verif.TtlRedis.Lua

/-
SHA-1 (FIPS 180-4), with which redis names scripts.
-/

namespace Gears.TtlRedis.Sha1

/-- The number `n` evaluated before `f` gets it. -/
def force {α : Type} (n : Nat) (f : Nat → α) : α :=
  match n with
  | 0 => f 0
  | k + 1 => f (k + 1)

theorem force_eq {α : Type} (n : Nat) (f : Nat → α) : force n f = f n := by cases n <;> rfl

def m32 : Nat := 4294967296

def rotl (k x : Nat) : Nat := ((x <<< k) ||| (x >>> (32 - k))) % m32

structure Hash where
  a : Nat
  b : Nat
  c : Nat
  d : Nat
  e : Nat
deriving DecidableEq

def Hash.init : Hash := ⟨0x67452301, 0xEFCDAB89, 0x98BADCFE, 0x10325476, 0xC3D2E1F0⟩

/-- The functions of the rounds. -/
def fn (i b c d : Nat) : Nat :=
  if i < 20 then (b &&& c) ||| ((b ^^^ (m32 - 1)) &&& d)
  else if i < 40 then b ^^^ c ^^^ d
  else if i < 60 then (b &&& c) ||| (b &&& d) ||| (c &&& d)
  else b ^^^ c ^^^ d

def const (i : Nat) : Nat :=
  if i < 20 then 0x5A827999 else if i < 40 then 0x6ED9EBA1 else if i < 60 then 0x8F1BBCDC else 0xCA62C1D6

/-- The rounds from `i` on (`n` of them), with the next 16 words of the message schedule. -/
def rounds : Nat → Nat → List Nat → Hash → Hash
  | 0, _, _, h => h
  | n + 1, i, w, h =>
    force ((rotl 5 h.a + fn i h.b h.c h.d + h.e + const i + w.headD 0) % m32) fun t =>
    force (rotl 30 h.b) fun b =>
    force (rotl 1 (w.getD 13 0 ^^^ w.getD 8 0 ^^^ w.getD 2 0 ^^^ w.getD 0 0)) fun x =>
    rounds n (i + 1) (w.drop 1 ++ [x]) ⟨t, h.a, b, h.c, h.d⟩

/-- One block of 16 words. -/
def block (w : List Nat) (h : Hash) : Hash :=
  let r := rounds 80 0 w h
  force ((h.a + r.a) % m32) fun a => force ((h.b + r.b) % m32) fun b => force ((h.c + r.c) % m32) fun c =>
  force ((h.d + r.d) % m32) fun d => force ((h.e + r.e) % m32) fun e => ⟨a, b, c, d, e⟩

/-- All blocks of 16 words; the number bounds the number of steps. -/
def blocks : Nat → List Nat → Hash → Hash
  | 0, _, h => h
  | n + 1, w, h => if w.isEmpty then h else blocks n (w.drop 16) (block (w.take 16) h)

/-- Big-endian words of four bytes. -/
def words : List Nat → List Nat
  | a :: b :: c :: d :: l => force (a * 16777216 + b * 65536 + c * 256 + d) fun x => x :: words l
  | _ => []

/-- The padded message. -/
def pad (m : List Nat) : List Nat :=
  m ++ 128 :: List.replicate ((119 - m.length % 64) % 64) 0 ++ (List.range 8).map fun i => ((8 * m.length) >>> (8 * (7 - i))) % 256

def sum (m : List Nat) : Hash :=
  let w := words (pad m)
  blocks w.length w .init

def hexDigit (n : Nat) : Char := if n < 10 then Char.ofNat (48 + n) else Char.ofNat (87 + n)

def hex8 (x : Nat) : List Char := (List.range 8).map fun i => hexDigit ((x >>> (4 * (7 - i))) % 16)

/-- The digest in hexadecimal. -/
def hex (m : List Nat) : List Char :=
  let h := sum m
  hex8 h.a ++ hex8 h.b ++ hex8 h.c ++ hex8 h.d ++ hex8 h.e

/-- The bytes of a text of lines (of ASCII characters). -/
def bytes (lines : List String) : List Nat := lines.flatMap fun l => l.toList.map Char.toNat ++ [10]

example : hex ("abc".toList.map Char.toNat) = "a9993e364706816aba3e25717850c26c9cd0d89d".toList := by decide +kernel

example : hex (List.replicate 100 97) = "7f9000257a4918d7072655ea468540cdcbd42e0c".toList := by decide +kernel

end Gears.TtlRedis.Sha1
