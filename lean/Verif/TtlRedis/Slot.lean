import Verif.TtlRedis.Model

/-
Redis Cluster key slots (redis cluster specification, `keyHashSlot` in cluster.c): CRC16/XMODEM of the hash tag of the
key, modulo 16384.
-/

namespace Gears.TtlRedis

/-- One byte of CRC16/XMODEM (polynomial 0x1021), bit by bit. -/
def crcBits : Nat → Nat → Nat
  | 0, c => c
  | n + 1, c =>
    crcBits n (if c ≥ 0x8000 then ((c * 2) % 0x10000) ^^^ 0x1021 else c * 2)

def crc16 (bs : List Nat) : Nat := bs.foldl (fun c b => crcBits 8 (c ^^^ (b * 256))) 0

/-- The part of a key that is hashed: the text between the first `{` and the first `}` after it, if both exist and the
text is not empty; otherwise the whole key. -/
def hashPart (k : Str) : Str :=
  match (k.dropWhile (· != '{')) with
  | [] => k
  | _ :: rest =>
    if rest.contains '}' then
      let p := rest.takeWhile (· != '}')
      if p = [] then k else p
    else k

/-- The UTF-8 bytes of a string. -/
def bytes (s : Str) : List Nat := s.flatMap (fun c => (String.utf8EncodeChar c).map UInt8.toNat)

/-- The cluster slot of a key. -/
def slot (k : Str) : Nat := crc16 (bytes (hashPart k)) % 16384

end Gears.TtlRedis
