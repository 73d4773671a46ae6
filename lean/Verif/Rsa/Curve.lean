import Verif.Rsa.KeyProps

/-
The keys of elliptic curves in `x509.ParsePKIXPublicKey` (/repo/util/rsa/util.go:76, Go 1.17): `elliptic.Unmarshal` and the curves
P-224, P-256, P-384 and P-521.  With them nothing about public keys is left open: `ReadPublicKey` of util.go:54-81 is `readPub`.
-/

namespace Gears.Rsa

open Gears.Str

/-! ## crypto/elliptic -/

/-- `elliptic.CurveParams`, without the base point. -/
structure Curve where
  bits : Nat
  p : Nat
  b : Nat
deriving DecidableEq, Repr

def p224 : Curve := ⟨224, 2 ^ 224 - 2 ^ 96 + 1, 0xb4050a850c04b3abf54132565044b0b7d7bfd8ba270b39432355ffb4⟩
def p256 : Curve := ⟨256, 2 ^ 256 - 2 ^ 224 + 2 ^ 192 + 2 ^ 96 - 1, 0x5ac635d8aa3a93e7b3ebbd55769886bc651d06b0cc53b0f63bce3c3e27d2604b⟩
def p384 : Curve := ⟨384, 2 ^ 384 - 2 ^ 128 - 2 ^ 96 + 2 ^ 32 - 1,
  0xb3312fa7e23ee7e4988e056be3f82d19181d9c6efe8141120314088f5013875ac656398d8a2ed19d2a85c8edd3ec2aef⟩
def p521 : Curve := ⟨521, 2 ^ 521 - 1,
  0x051953eb9618e1c9a1f929a21a0b68540eea2da725b99b315f3b8b489918ef109e156193951ec7e937b1652c0bd3bb1bf073573df883d2c34f1ef451fd46b503f00⟩

/-- The bytes of a coordinate. -/
def Curve.byteLen (c : Curve) : Nat := (c.bits + 7) / 8

/-- `CurveParams.IsOnCurve`: y² = x³ - 3x + b modulo p. -/
def Curve.isOnCurve (c : Curve) (x y : Nat) : Bool := ((y : Int) * y) % c.p = ((x : Int) * x * x - 3 * x + c.b) % c.p

/-- `elliptic.Unmarshal` -/
def Curve.unmarshal (c : Curve) (data : Bytes) : Option (Nat × Nat) :=
  if data.length ≠ 1 + 2 * c.byteLen then none
  else if data.headD 0 ≠ 4 then none
  else
    let x := natVal ((data.drop 1).take c.byteLen)
    let y := natVal (data.drop (1 + c.byteLen))
    if x ≥ c.p ∨ y ≥ c.p then none
    else if !c.isOnCurve x y then none
    else some (x, y)

/-! ## cryptobyte -/

/-- `readBase128Int` -/
def cbBase128 (i acc : Nat) : Bytes → Option (Nat × Bytes)
  | [] => none
  | b :: l =>
    if i = 4 then none
    else if b < 128 then some (acc * 128 + b.toNat % 128, l)
    else cbBase128 (i + 1) (acc * 128 + b.toNat % 128) l

/-- The loop of `ReadASN1ObjectIdentifier`, at most `n` numbers. -/
def cbOidRest : Nat → Bytes → Option (List Nat)
  | _, [] => some []
  | 0, _ => none
  | n + 1, l =>
    match cbBase128 0 0 l with
    | none => none
    | some (v, l) => (cbOidRest n l).map (v :: ·)

/-- `ReadASN1ObjectIdentifier` -/
def readOid (bs : Bytes) : Option (List Nat) :=
  match readASN1 6 bs with
  | none => none
  | some (c, _) =>
    match cbBase128 0 0 c with
    | none => none
    | some (v, l) => (cbOidRest l.length l).map fun r => if v < 80 then v / 40 :: v % 40 :: r else 2 :: (v - 80) :: r

/-! ## crypto/x509 -/

/-- `namedCurveFromOID` -/
def namedCurve (oid : List Nat) : Option Curve :=
  if oid = [1, 3, 132, 0, 33] then some p224
  else if oid = [1, 2, 840, 10045, 3, 1, 7] then some p256
  else if oid = [1, 3, 132, 0, 34] then some p384
  else if oid = [1, 3, 132, 0, 35] then some p521
  else none

/-- The case ECDSA of `parsePublicKey`: whether it finds a key. -/
def curvePoint (params key : Bytes) : Bool :=
  match readOid params with
  | none => false
  | some oid =>
    match namedCurve oid with
    | none => false
    | some c => (c.unmarshal key).isSome

/-- `ReadPublicKey` (util.go:54-58, 68-81) -/
def readPub (dec : Bytes → Option Block) (pem : Bytes) : Res RsaPub := readPublic curvePoint dec pem

/-! ## Specification -/

/-- A number in `n` bytes, the greatest first. -/
def fixedBytes : Nat → Nat → Bytes
  | 0, _ => []
  | n + 1, v => fixedBytes n (v / 256) ++ [UInt8.ofNat v]

/-- (x, y) is a point of the curve y² = x³ - 3x + b over the integers modulo p. -/
def Curve.Point (c : Curve) (x y : Nat) : Prop := x < c.p ∧ y < c.p ∧ (c.p : Int) ∣ (y : Int) ^ 2 - ((x : Int) ^ 3 - 3 * x + c.b)

/-- SEC 1, 2.3.3: the uncompressed form of a point. -/
def Curve.text (c : Curve) (x y : Nat) : Bytes := 4 :: (fixedBytes c.byteLen x ++ fixedBytes c.byteLen y)

/-- The object identifiers of the curves (RFC 5480, 2.1.1.1), in DER. -/
def curveOids : List (Curve × Bytes) :=
  [(p224, [43, 129, 4, 0, 33]), (p256, [42, 134, 72, 206, 61, 3, 1, 7]), (p384, [43, 129, 4, 0, 34]), (p521, [43, 129, 4, 0, 35])]

/-- RFC 5480: SubjectPublicKeyInfo of a point. -/
def putPoint (oid point : Bytes) : Bytes := tlv 48 (tlv 48 (tlv 6 [42, 134, 72, 206, 61, 2, 1] ++ tlv 6 oid) ++ tlv 3 (0 :: point))

/-! ## Proofs -/

theorem fixedBytes_length (n : Nat) : ∀ v, (fixedBytes n v).length = n := by
  induction n with
  | zero => intro v; rfl
  | succ n ih => intro v; simp [fixedBytes, ih]

theorem natVal_fixedBytes (n : Nat) : ∀ v, v < 256 ^ n → natVal (fixedBytes n v) = v := by
  induction n with
  | zero => intro v h; simp at h; simp [fixedBytes, natVal, h]
  | succ n ih =>
    intro v h
    rw [fixedBytes, natVal_snoc, ih _ (by rw [Nat.pow_succ] at h; omega), UInt8.toNat_ofNat']
    omega

theorem fixedBytes_natVal (l : Bytes) : fixedBytes l.length (natVal l) = l := by
  induction h : l.length generalizing l with
  | zero => simp at h; simp [h, fixedBytes]
  | succ n ih =>
    have hne : l ≠ [] := by intro e; simp [e] at h
    rw [← List.dropLast_concat_getLast hne, natVal_snoc, fixedBytes]
    have h1 : (natVal l.dropLast * 256 + (l.getLast hne).toNat) / 256 = natVal l.dropLast := by
      have := (l.getLast hne).toNat_lt; omega
    have h2 : UInt8.ofNat (natVal l.dropLast * 256 + (l.getLast hne).toNat) = l.getLast hne := by
      apply UInt8.toNat_inj.1
      rw [UInt8.toNat_ofNat']
      have := (l.getLast hne).toNat_lt; omega
    rw [h1, h2, ih _ (by simp [h])]

theorem point_iff (c : Curve) (x y : Nat) : c.Point x y ↔ x < c.p ∧ y < c.p ∧ c.isOnCurve x y = true := by
  unfold Curve.Point Curve.isOnCurve
  rw [decide_eq_true_iff, Int.emod_eq_emod_iff_emod_sub_eq_zero, ← Int.dvd_iff_emod_eq_zero]
  have : (y : Int) ^ 2 - ((x : Int) ^ 3 - 3 * x + c.b) = (y : Int) * y - ((x : Int) * x * x - 3 * x + c.b) := by
    rw [Int.pow_succ, Int.pow_succ, Int.pow_succ, Int.pow_succ, Int.pow_succ]; simp
  rw [this]

/-- `Unmarshal` finds exactly the points in uncompressed form. -/
theorem unmarshal_iff (c : Curve) (hc : c.p ≤ 256 ^ c.byteLen) (data : Bytes) (x y : Nat) :
    c.unmarshal data = some (x, y) ↔ c.Point x y ∧ data = c.text x y := by
  rw [point_iff]
  constructor
  · intro h
    unfold Curve.unmarshal at h
    split at h
    · simp at h
    rename_i hl
    split at h
    · simp at h
    rename_i h4
    simp only [] at h
    split at h
    · simp at h
    rename_i hlt
    split at h
    · simp at h
    rename_i hon
    simp only [Option.some.injEq, Prod.mk.injEq] at h
    obtain ⟨hx, hy⟩ := h
    rw [hx, hy] at hlt hon
    refine ⟨⟨by omega, by omega, by simpa using hon⟩, ?_⟩
    cases data with
    | nil => simp at hl; omega
    | cons a l =>
      simp only [List.headD_cons, ne_eq, Decidable.not_not] at h4
      simp only [List.length_cons, ne_eq, Decidable.not_not] at hl
      simp only [List.drop_succ_cons, List.drop_zero] at hx
      rw [Nat.add_comm 1, List.drop_succ_cons] at hy
      have e1 := fixedBytes_natVal (l.take c.byteLen)
      have e2 := fixedBytes_natVal (l.drop c.byteLen)
      rw [List.length_take, Nat.min_eq_left (by omega), hx] at e1
      rw [List.length_drop, show l.length - c.byteLen = c.byteLen by omega, hy] at e2
      rw [Curve.text, e1, e2, List.take_append_drop, h4]
  · rintro ⟨⟨h1, h2, h3⟩, rfl⟩
    unfold Curve.unmarshal Curve.text
    have l1 := fixedBytes_length c.byteLen x
    have l2 := fixedBytes_length c.byteLen y
    rw [if_neg (by simp [l1, l2]; omega), if_neg (by simp)]
    have e1 : ((4 :: (fixedBytes c.byteLen x ++ fixedBytes c.byteLen y)).drop 1).take c.byteLen = fixedBytes c.byteLen x := by
      simp [l1]
    have e2 : (4 :: (fixedBytes c.byteLen x ++ fixedBytes c.byteLen y)).drop (1 + c.byteLen) = fixedBytes c.byteLen y := by
      rw [Nat.add_comm 1, List.drop_succ_cons, List.drop_append_of_le_length (by omega)]
      simp [List.drop_eq_nil_of_le, l1]
    rw [e1, e2, natVal_fixedBytes _ _ (by omega), natVal_fixedBytes _ _ (by omega)]
    simp only [h3, Bool.not_true, Bool.false_eq_true, if_false]
    rw [if_neg (by omega)]

theorem curve_small {oid : List Nat} {c : Curve} (h : namedCurve oid = some c) : c.p ≤ 256 ^ c.byteLen := by
  unfold namedCurve at h
  repeat' split at h
  all_goals first | (simp only [Option.some.injEq] at h; subst h; decide +kernel) | simp at h

/-- **C124.**  The keys of curves that are known: exactly the points of the named curve in uncompressed form. -/
theorem C124_point (params key : Bytes) : curvePoint params key = true ↔
    ∃ oid c x y, readOid params = some oid ∧ namedCurve oid = some c ∧ c.Point x y ∧ key = c.text x y := by
  unfold curvePoint
  cases ho : readOid params with
  | none => simp
  | some oid =>
    simp only []
    cases hc : namedCurve oid with
    | none =>
      simp only [Bool.false_eq_true, false_iff]
      rintro ⟨o, c, x, y, h1, h2, -⟩
      simp only [Option.some.injEq] at h1
      subst h1
      rw [hc] at h2; simp at h2
    | some c =>
      simp only [Option.isSome_iff_exists]
      constructor
      · rintro ⟨⟨x, y⟩, h⟩
        rw [unmarshal_iff c (curve_small hc)] at h
        exact ⟨oid, c, x, y, rfl, hc, h⟩
      · rintro ⟨o, c', x, y, h1, h2, h3⟩
        simp only [Option.some.injEq] at h1
        subst h1
        rw [hc] at h2
        simp only [Option.some.injEq] at h2
        subst h2
        exact ⟨(x, y), (unmarshal_iff c (curve_small hc) key x y).2 h3⟩

theorem oid_named {c : Curve} {oid : Bytes} (h : (c, oid) ∈ curveOids) : ∃ o, readOid (tlv 6 oid) = some o ∧ namedCurve o = some c := by
  simp only [curveOids, List.mem_cons, Prod.mk.injEq, List.not_mem_nil, or_false] at h
  rcases h with ⟨rfl, rfl⟩ | ⟨rfl, rfl⟩ | ⟨rfl, rfl⟩ | ⟨rfl, rfl⟩
  · exact ⟨[1, 3, 132, 0, 33], by decide +kernel, by decide +kernel⟩
  · exact ⟨[1, 2, 840, 10045, 3, 1, 7], by decide +kernel, by decide +kernel⟩
  · exact ⟨[1, 3, 132, 0, 34], by decide +kernel, by decide +kernel⟩
  · exact ⟨[1, 3, 132, 0, 35], by decide +kernel, by decide +kernel⟩

theorem oid_raw {c : Curve} {oid : Bytes} (h : (c, oid) ∈ curveOids) : rawOptional (tlv 6 oid) = some (tlv 6 oid) ∧ (tlv 6 oid).length ≤ 10 := by
  simp only [curveOids, List.mem_cons, Prod.mk.injEq, List.not_mem_nil, or_false] at h
  rcases h with ⟨rfl, rfl⟩ | ⟨rfl, rfl⟩ | ⟨rfl, rfl⟩ | ⟨rfl, rfl⟩ <;> decide +kernel

theorem curve_len {c : Curve} {oid : Bytes} (h : (c, oid) ∈ curveOids) : c.byteLen ≤ 66 := by
  simp only [curveOids, List.mem_cons, Prod.mk.injEq, List.not_mem_nil, or_false] at h
  rcases h with ⟨rfl, rfl⟩ | ⟨rfl, rfl⟩ | ⟨rfl, rfl⟩ | ⟨rfl, rfl⟩ <;> decide +kernel

/-- **C77** does not hold: the text of every ECDSA public key for the curves P-224, P-256, P-384 and P-521 makes the reader panic. -/
theorem C77_ecdsa_violated (again : Bytes → Option Block) (c : Curve) (oid : Bytes) (hc : (c, oid) ∈ curveOids) (x y : Nat) (hp : c.Point x y)
    (s : Bytes) (hs : Carries (ascii "PUBLIC KEY") s (putPoint oid (c.text x y))) : readPub (decode again) s = .panic := by
  obtain ⟨o, ho, hn⟩ := oid_named hc
  obtain ⟨hr, hl⟩ := oid_raw hc
  have hb := curve_len hc
  have hk : (c.text x y).length ≤ 133 := by simp [Curve.text, fixedBytes_length]; omega
  have htl : ∀ (t : UInt8) (b : Bytes), b.length < 1000 → (tlv t b).length < b.length + 10 := by
    intro t b hb
    have h1 : (natBytes b.length).length ≤ 4 := natBytes_four _ (by omega)
    simp only [tlv, putLength, List.length_append, List.length_cons]
    split <;> simp <;> omega
  refine (C124_public _ curvePoint s).2.2 ⟨_, [1, 2, 840, 10045, 2, 1], tlv 6 oid, c.text x y, carries_decode again (.inr (.inl rfl)) hs, ?_,
    .inr (.inl ⟨rfl, (C124_point _ _).2 ⟨o, c, x, y, ho, hn, hp, rfl⟩⟩)⟩
  have k1 := htl 3 (0 :: c.text x y) (by simp; omega)
  have k0 : (tlv 6 [42, 134, 72, 206, 61, 2, 1]).length = 9 := by decide +kernel
  have k2 := htl 48 (tlv 6 [42, 134, 72, 206, 61, 2, 1] ++ tlv 6 oid) (by rw [List.length_append]; omega)
  rw [List.length_append] at k2
  rw [List.length_cons] at k1
  have s1 := seq_tlv (tlv 48 (tlv 6 [42, 134, 72, 206, 61, 2, 1] ++ tlv 6 oid) ++ tlv 3 (0 :: c.text x y)) [] (by
    rw [List.length_append]; omega)
  rw [List.append_nil] at s1
  have s2 := seq_tlv (tlv 6 [42, 134, 72, 206, 61, 2, 1] ++ tlv 6 oid) (tlv 3 (0 :: c.text x y)) (by rw [List.length_append]; omega)
  have s3 := must'_tlv false 6 6 (by decide) (by decide) (by decide) (by decide) [42, 134, 72, 206, 61, 2, 1] (tlv 6 oid) (by decide)
  have s4 := must'_tlv false 3 3 (by decide) (by decide) (by decide) (by decide) (0 :: c.text x y) [] (by rw [List.length_cons]; omega)
  rw [List.append_nil] at s4
  have s5 : parseBits (0 :: c.text x y) = some (c.text x y) := by
    simp [parseBits, Curve.text, Nat.mod_one]
  have s6 : parseOid [42, 134, 72, 206, 61, 2, 1] = some [1, 2, 840, 10045, 2, 1] := by decide +kernel
  unfold putPoint parsePkixInfo
  rw [s1]
  simp [s2, s3, s4, s5, s6, hr, guard]

/-! ### Examples -/

/-- The base points are points of the curves. -/
example : p224.Point 0xb70e0cbd6bb4bf7f321390b94a03c1d356c21122343280d6115c1d21 0xbd376388b5f723fb4c22dfe6cd4375a05a07476444d5819985007e34 := by
  rw [point_iff]; decide +kernel
example : p256.Point 0x6b17d1f2e12c4247f8bce6e563a440f277037d812deb33a0f4a13945d898c296
    0x4fe342e2fe1a7f9b8ee7eb4a7c0f9e162bce33576b315ececbb6406837bf51f5 := by
  rw [point_iff]; decide +kernel
example : p384.Point 0xaa87ca22be8b05378eb1c71ef320ad746e1d3b628ba79b9859f741e082542a385502f25dbf55296c3a545e3872760ab7
    0x3617de4a96262c6f5d9e98bf9292dc29f8f41dbd289a147ce9da3113b5f0b8c00a60b1ce1d7e819d7a431d7c90ea0e5f := by
  rw [point_iff]; decide +kernel
example : p521.Point 0xc6858e06b70404e9cd9e3ecb662395b4429c648139053fb521f828af606b4d3dbaa14b5e77efe75928fe1dc127a2ffa8de3348b3c1856a429bf97e7e31c2e5bd66
    0x11839296a789a3bc0045c8a5fb42c7d1bd998f54449579b446817afbd17273e662c97ee72995ef42640c550b9013fad0761353c7086a272c24088be94769fd16650 := by
  rw [point_iff]; decide +kernel

/-- A point that is not on the curve is refused, and so is the compressed form. -/
example : curvePoint (tlv 6 [42, 134, 72, 206, 61, 3, 1, 7]) (p256.text 1 1) = false ∧
    curvePoint (tlv 6 [42, 134, 72, 206, 61, 3, 1, 7]) (3 :: fixedBytes 32 0x6b17d1f2e12c4247f8bce6e563a440f277037d812deb33a0f4a13945d898c296) = false := by
  decide +kernel

end Gears.Rsa
