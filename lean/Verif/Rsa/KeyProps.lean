import Verif.Rsa.Asn1Lemmas
import Verif.Rsa.Props

/-
C124: which RSA keys are read, and that extracted public keys belong to them (/repo/util/rsa/util.go:13-81, 112-134).
-/

namespace Gears.Rsa

open Gears.Str

/-! ### Specification -/

/-- A text that carries these bytes: a PEM block, or bare base64 with blanks and newlines at any places. -/
def Carries (typ s b : Bytes) : Prop :=
  s = encode ⟨typ, b⟩ ∨
  (∀ c ∈ s, bareByte c = true) ∧ s.filter (fun c => c ≠ 32 && c ≠ 9 && c ≠ 10 && c ≠ 13) = b64encode b

/-- RFC 8017, A.1.2: the further primes with their exponents and coefficients. -/
def putOthers (l : List (Int × Int × Int)) : Bytes :=
  l.flatMap fun x => tlv 48 (tlv 2 (putBigInt x.1) ++ tlv 2 (putBigInt x.2.1) ++ tlv 2 (putBigInt x.2.2))

/-- RFC 8017, A.1.2: RSAPrivateKey in DER, with the values for the Chinese remainder theorem. -/
def putPrivate (version : Int) (n e d p q : Int) (crt : Int × Int × Int) (others : List (Int × Int × Int)) : Bytes :=
  tlv 48 (tlv 2 (putInt64 version) ++ tlv 2 (putBigInt n) ++ tlv 2 (putInt64 e) ++ tlv 2 (putBigInt d) ++ tlv 2 (putBigInt p) ++ tlv 2 (putBigInt q) ++
    tlv 2 (putBigInt crt.1) ++ tlv 2 (putBigInt crt.2.1) ++ tlv 2 (putBigInt crt.2.2) ++
    if others = [] then [] else tlv 48 (putOthers others))

/-- A key pair: the modulus is the product of the primes (not checked to be prime), the exponents are inverse modulo each prime
minus 1. -/
structure Valid (k : RsaPriv) : Prop where
  e : 2 ≤ k.e ∧ k.e < 2 ^ 31
  d : 0 < k.d
  primes : ∀ p ∈ k.primes, 2 < p
  n : k.n = k.primes.prod
  inv : ∀ p ∈ k.primes, p - 1 ∣ k.e * k.d - 1

/-! ### Proofs -/

theorem carries_decode (again : Bytes → Option Block) {typ s b : Bytes} (ht : Typ typ) (h : Carries typ s b) :
    decode again (normalizePem s typ) = some ⟨typ, b⟩ := by
  rcases h with rfl | ⟨h1, h2⟩
  · have hplain : 10 ∉ typ ∧ 58 ∉ typ := by rcases ht with rfl | rfl | rfl <;> decide +kernel
    have hb : contains bMark (encode ⟨typ, b⟩) = true := (contains_iff _ _).2 ⟨[], 32 :: (typ ++ dashes ++
      10 :: lines (b64encode b).length (b64encode b) ++ endMark ++ typ ++ dashes ++ [10]), by
        rw [encode, show beginMark = bMark ++ [32] by decide +kernel]; simp⟩
    have he : contains eMark (encode ⟨typ, b⟩) = true := (contains_iff _ _).2 ⟨beginMark ++ typ ++ dashes ++
      10 :: lines (b64encode b).length (b64encode b), 32 :: (typ ++ dashes ++ [10]), by
        rw [encode, show endMark = eMark ++ [32] by decide +kernel]; simp⟩
    rw [normalize_eq, if_pos ⟨(contains_occ _ _).1 hb, (contains_occ _ _).1 he⟩]
    exact decode_encode again _ hplain.1 hplain.2
  · exact decode_bare again ht h1 (C87_insert b s h2)

theorem tlv_le (t : UInt8) (c : Bytes) : c.length ≤ (tlv t c).length := by
  unfold tlv; simp only [List.length_append, List.length_cons]; omega

theorem rawOptional_null : rawOptional [5, 0] = some [5, 0] := by decide +kernel

theorem oid_rsa : parseOid rsaOidBytes = some oidRsa := by decide +kernel

theorem parse_marshal (curve : Bytes → Bytes → Bool) (k : RsaPub) (h1 : -2 ^ 63 ≤ k.e) (h2 : k.e < 2 ^ 63) (hl : (marshalPKIXPublicKey k).length < 2 ^ 31) :
    parsePKIXPublicKey curve (marshalPKIXPublicKey k) = if 0 < k.n ∧ 0 < k.e then some (.rsa k) else none := by
  unfold marshalPKIXPublicKey at hl ⊢
  generalize hA : tlv 2 (putBigInt k.n) ++ tlv 2 (putInt64 k.e) = A at hl ⊢
  have l1 := tlv_le 48 (tlv 48 (tlv 6 rsaOidBytes ++ [5, 0]) ++ tlv 3 (0 :: tlv 48 A))
  have l2 : (tlv 48 (tlv 6 rsaOidBytes ++ [5, 0])).length + (tlv 3 (0 :: tlv 48 A)).length < 2 ^ 31 := by
    rw [← List.length_append]; omega
  have l3 := tlv_le 3 (0 :: tlv 48 A)
  have l4 := tlv_le 48 A
  have l5 := tlv_le 48 (tlv 6 rsaOidBytes ++ [5, 0])
  simp only [List.length_cons] at l3
  have l6 : (tlv 2 (putBigInt k.n)).length + (tlv 2 (putInt64 k.e)).length = A.length := by rw [← hA, List.length_append]
  have l7 := tlv_le 2 (putBigInt k.n)
  have l8 := tlv_le 2 (putInt64 k.e)
  have hinfo : parsePkixInfo (tlv 48 (tlv 48 (tlv 6 rsaOidBytes ++ [5, 0]) ++ tlv 3 (0 :: tlv 48 A))) = some (oidRsa, [5, 0], tlv 48 A) := by
    have s1 := seq_tlv (tlv 48 (tlv 6 rsaOidBytes ++ [5, 0]) ++ tlv 3 (0 :: tlv 48 A)) [] (by rw [List.length_append]; omega)
    rw [List.append_nil] at s1
    have s2 := seq_tlv (tlv 6 rsaOidBytes ++ [5, 0]) (tlv 3 (0 :: tlv 48 A)) (by omega)
    have s3 := must'_tlv false 6 6 (by decide) (by decide) (by decide) (by decide) rsaOidBytes [5, 0] (by decide)
    have s4 := must'_tlv false 3 3 (by decide) (by decide) (by decide) (by decide) (0 :: tlv 48 A) [] (by simp only [List.length_cons]; omega)
    rw [List.append_nil] at s4
    have s5 : parseBits (0 :: tlv 48 A) = some (tlv 48 A) := by
      simp [parseBits, tlv, Nat.mod_one]
    unfold parsePkixInfo
    rw [s1]
    simp [s2, s3, s4, s5, oid_rsa, rawOptional_null, guard]
  unfold parsePKIXPublicKey
  rw [hinfo]
  simp only [parsePublicKey, if_true]
  have r1 := read_tlv 48 (by decide) A [] (by omega)
  rw [List.append_nil] at r1
  have r2 := read_tlv 2 (by decide) (putBigInt k.n) (tlv 2 (putInt64 k.e)) (by omega)
  have r3 := read_tlv 2 (by decide) (putInt64 k.e) [] (by omega)
  rw [List.append_nil] at r3
  simp only [parseRsaPub, r1, readBigInt, readInt]
  rw [← hA, r2]
  simp only [parse_putBigInt, r3, parse_putInt64 k.e h1 h2, Option.map_some, ne_eq, not_true, if_false]
  by_cases hc : 0 < k.n ∧ 0 < k.e
  · rw [if_pos hc, if_neg (by omega)]; rfl
  · rw [if_neg hc, if_pos (by omega)]; rfl

/-- **C124.**  The public key that is extracted from a private key is read again as this key; if its modulus or exponent is not
positive, which no key has that was read, there is an error. -/
theorem C124_extract (again : Bytes → Option Block) (curve : Bytes → Bytes → Bool) (k : RsaPriv) (h1 : -2 ^ 63 ≤ k.e) (h2 : k.e < 2 ^ 63)
    (hl : (marshalPKIXPublicKey ⟨k.n, k.e⟩).length < 2 ^ 31) : ∃ pem, extractPublic k = some pem ∧
    readPublic curve (decode again) pem = if 0 < k.n ∧ 0 < k.e then .ok ⟨k.n, k.e⟩ else .err := by
  refine ⟨_, rfl, ?_⟩
  have hd := carries_decode again (typ := ascii "PUBLIC KEY") (.inr (.inl rfl)) (.inl rfl : Carries (ascii "PUBLIC KEY") _ (marshalPKIXPublicKey ⟨k.n, k.e⟩))
  have hp := parse_marshal curve ⟨k.n, k.e⟩ h1 h2 hl
  simp only [RsaPriv.pub, readPublic, readPublicKey, readPublicKeyBytes]
  rw [hd]
  simp only [ne_eq, not_true, if_false, hp]
  by_cases hc : 0 < k.n ∧ 0 < k.e
  · rw [if_pos hc, if_pos hc]
  · rw [if_neg hc, if_neg hc]

theorem others_parse : ∀ (l : List (Int × Int × Int)) (m : Nat), (putOthers l).length < 2 ^ 31 → l.length ≤ m →
    additionalPrimes m (putOthers l) = some (l.map (·.1))
  | [], m, _, _ => by cases m <;> rfl
  | x :: l, m, h, hm => by
    cases m with
    | zero => simp at hm
    | succ m =>
      have e : putOthers (x :: l) = tlv 48 (tlv 2 (putBigInt x.1) ++ tlv 2 (putBigInt x.2.1) ++ tlv 2 (putBigInt x.2.2)) ++ putOthers l := rfl
      rw [e, List.length_append] at h
      have l1 := tlv_le 48 (tlv 2 (putBigInt x.1) ++ tlv 2 (putBigInt x.2.1) ++ tlv 2 (putBigInt x.2.2))
      simp only [List.length_append] at l1
      have l2 := tlv_le 2 (putBigInt x.1)
      have l3 := tlv_le 2 (putBigInt x.2.1)
      have l4 := tlv_le 2 (putBigInt x.2.2)
      have s1 := seq_tlv (tlv 2 (putBigInt x.1) ++ tlv 2 (putBigInt x.2.1) ++ tlv 2 (putBigInt x.2.2)) (putOthers l)
        (by simp only [List.length_append]; omega)
      have s2 := int_tlv parseBigInt x.1 (putBigInt x.1) (tlv 2 (putBigInt x.2.1) ++ tlv 2 (putBigInt x.2.2)) (parse_putBigInt _) (by omega)
      have s3 := int_tlv parseBigInt x.2.1 (putBigInt x.2.1) (tlv 2 (putBigInt x.2.2)) (parse_putBigInt _) (by omega)
      have s4 := int_tlv parseBigInt x.2.2 (putBigInt x.2.2) [] (parse_putBigInt _) (by omega)
      rw [List.append_nil] at s4
      have hne : putOthers (x :: l) ≠ [] := by rw [e]; simp [tlv]
      have ih := others_parse l m (by omega) (by simp at hm; omega)
      have hstep : additionalPrimes (m + 1) (putOthers (x :: l)) = match must' true 16 (putOthers (x :: l)) with
          | none => none
          | some (c, l) =>
            match additionalPrime c with
            | none => none
            | some p => (additionalPrimes m l).map (p :: ·) := by
        cases hc : putOthers (x :: l) with
        | nil => exact absurd hc hne
        | cons a b => rfl
      have hprime : additionalPrime (tlv 2 (putBigInt x.1) ++ tlv 2 (putBigInt x.2.1) ++ tlv 2 (putBigInt x.2.2)) = some x.1 := by
        unfold additionalPrime
        rw [List.append_assoc, s2]
        simp only [s3, s4, Option.map_some]
      rw [hstep, e, s1]
      simp only [hprime, ih]
      rfl

theorem putOthers_length (l : List (Int × Int × Int)) : l.length ≤ (putOthers l).length := by
  induction l with
  | nil => simp
  | cons x l ih =>
    have e : putOthers (x :: l) = tlv 48 (tlv 2 (putBigInt x.1) ++ tlv 2 (putBigInt x.2.1) ++ tlv 2 (putBigInt x.2.2)) ++ putOthers l := rfl
    rw [e, List.length_append, List.length_cons]
    have : 1 ≤ (tlv 48 (tlv 2 (putBigInt x.1) ++ tlv 2 (putBigInt x.2.1) ++ tlv 2 (putBigInt x.2.2))).length := by simp [tlv]
    omega

theorem parse_private (version n e d p q : Int) (crt : Int × Int × Int) (others : List (Int × Int × Int))
    (hv1 : -2 ^ 63 ≤ version) (hv2 : version < 2 ^ 63) (he1 : -2 ^ 63 ≤ e) (he2 : e < 2 ^ 63)
    (hl : (putPrivate version n e d p q crt others).length < 2 ^ 31) :
    parsePkcs1 (putPrivate version n e d p q crt others) = some (version, ⟨n, e, d, p :: q :: others.map (·.1)⟩) := by
  unfold putPrivate at hl ⊢
  generalize hO : (if others = [] then [] else tlv 48 (putOthers others)) = O at hl ⊢
  simp only [List.append_assoc] at hl ⊢
  generalize hB : tlv 2 (putInt64 version) ++ (tlv 2 (putBigInt n) ++ (tlv 2 (putInt64 e) ++ (tlv 2 (putBigInt d) ++ (tlv 2 (putBigInt p) ++
    (tlv 2 (putBigInt q) ++ (tlv 2 (putBigInt crt.1) ++ (tlv 2 (putBigInt crt.2.1) ++ (tlv 2 (putBigInt crt.2.2) ++ O)))))))) = B at hl ⊢
  have l0 := tlv_le 48 B
  have l1 : (tlv 2 (putInt64 version)).length + ((tlv 2 (putBigInt n)).length + ((tlv 2 (putInt64 e)).length + ((tlv 2 (putBigInt d)).length +
    ((tlv 2 (putBigInt p)).length + ((tlv 2 (putBigInt q)).length + ((tlv 2 (putBigInt crt.1)).length + ((tlv 2 (putBigInt crt.2.1)).length +
    ((tlv 2 (putBigInt crt.2.2)).length + O.length)))))))) = B.length := by rw [← hB]; simp only [List.length_append]
  have m1 := tlv_le 2 (putInt64 version)
  have m2 := tlv_le 2 (putBigInt n)
  have m3 := tlv_le 2 (putInt64 e)
  have m4 := tlv_le 2 (putBigInt d)
  have m5 := tlv_le 2 (putBigInt p)
  have m6 := tlv_le 2 (putBigInt q)
  have m7 := tlv_le 2 (putBigInt crt.1)
  have m8 := tlv_le 2 (putBigInt crt.2.1)
  have m9 := tlv_le 2 (putBigInt crt.2.2)
  have hprimes : primesField O = some (others.map (·.1)) := by
    subst hO
    by_cases ho : others = []
    · subst ho; rfl
    · rw [if_neg ho] at l1 ⊢
      have m10 := tlv_le 48 (putOthers others)
      have := seqOpt_tlv (putOthers others) [] (by omega)
      rw [List.append_nil] at this
      unfold primesField
      rw [this]
      exact others_parse others _ (by omega) (putOthers_length others)
  have s0 := seq_tlv B [] (by omega)
  rw [List.append_nil] at s0
  unfold parsePkcs1
  rw [s0]
  have s1 := fun r => int_tlv parseInt64 version (putInt64 version) r (parse_putInt64 _ hv1 hv2) (by omega)
  have s2 := fun r => int_tlv parseBigInt n (putBigInt n) r (parse_putBigInt _) (by omega)
  have s3 := fun r => int_tlv parseInt64 e (putInt64 e) r (parse_putInt64 _ he1 he2) (by omega)
  have s4 := fun r => int_tlv parseBigInt d (putBigInt d) r (parse_putBigInt _) (by omega)
  have s5 := fun r => int_tlv parseBigInt p (putBigInt p) r (parse_putBigInt _) (by omega)
  have s6 := fun r => int_tlv parseBigInt q (putBigInt q) r (parse_putBigInt _) (by omega)
  have s7 := fun r => skip_tlv crt.1 r (by omega)
  have s8 := fun r => skip_tlv crt.2.1 r (by omega)
  have s9 := fun r => skip_tlv crt.2.2 r (by omega)
  rw [← hB]
  simp [s1, s2, s3, s4, s5, s6, s7, s8, s9, hprimes, guard]

theorem foldl_prod (l : List Int) : ∀ a : Int, l.foldl (· * ·) a = a * l.prod := by
  induction l with
  | nil => intro a; simp
  | cons x l ih => intro a; rw [List.foldl_cons, ih, List.prod_cons, Int.mul_assoc]

theorem validate_iff (k : RsaPriv) (hd : 0 < k.d) : k.validate = true ↔ Valid k := by
  unfold RsaPriv.validate
  simp only [Bool.and_eq_true, decide_eq_true_eq, List.all_eq_true]
  rw [foldl_prod, one_mul]
  have hp : ∀ p : Int, 1 < p → (k.e * k.d % (p - 1) = 1 ↔ 2 < p ∧ p - 1 ∣ k.e * k.d - 1) := by
    intro p h
    constructor
    · intro h1
      have h2 : 2 < p := by
        by_contra hc
        have : p = 2 := by omega
        subst this
        simp at h1
      exact ⟨h2, Int.dvd_self_sub_of_emod_eq h1⟩
    · rintro ⟨h1, h2⟩
      rw [Int.emod_eq_iff (by omega)]
      refine ⟨by omega, by omega, ?_⟩
      rw [show (1 : Int) - k.e * k.d = -(k.e * k.d - 1) by ring]
      exact (Int.dvd_neg).2 h2
  constructor
  · rintro ⟨⟨⟨⟨h1, h2⟩, h3⟩, h4⟩, h5⟩
    exact ⟨⟨h1, by omega⟩, hd, fun p hm => ((hp p (h3 p hm)).1 (h5 p hm)).1, h4.symm, fun p hm => ((hp p (h3 p hm)).1 (h5 p hm)).2⟩
  · rintro ⟨⟨h1, h2⟩, h3, h4, h5, h6⟩
    refine ⟨⟨⟨⟨h1, by omega⟩, fun p hm => by have := h4 p hm; omega⟩, h5.symm⟩, fun p hm => ?_⟩
    exact (hp p (by have := h4 p hm; omega)).2 ⟨h4 p hm, h6 p hm⟩

theorem prod_pos (l : List Int) (h : ∀ p ∈ l, 2 < p) : 0 < l.prod := by
  induction l with
  | nil => simp
  | cons x l ih =>
    rw [List.prod_cons]
    exact Int.mul_pos (by have := h x (by simp); omega) (ih fun p hp => h p (by simp [hp]))

theorem parsePKCS1_iff (der : Bytes) (k : RsaPriv) : parsePKCS1PrivateKey der = some k ↔ ∃ v, v ≤ 1 ∧ parsePkcs1 der = some (v, k) ∧ Valid k := by
  unfold parsePKCS1PrivateKey
  cases h : parsePkcs1 der with
  | none => simp
  | some x =>
    obtain ⟨v, k'⟩ := x
    simp only
    constructor
    · intro hk
      split at hk
      · simp at hk
      · split at hk
        · simp at hk
        · rename_i hv hn
          split at hk
          · rename_i hval
            simp at hk; subst hk
            simp only [not_or] at hn
            exact ⟨v, by omega, rfl, (validate_iff k' (by omega)).1 hval⟩
          · simp at hk
    · rintro ⟨v', hv, he, hval⟩
      simp at he
      obtain ⟨rfl, rfl⟩ := he
      rw [if_neg (by omega), if_neg, if_pos ((validate_iff k' hval.d).2 hval)]
      rintro (h1 | h1 | h1)
      · have := prod_pos _ hval.primes
        rw [hval.n] at h1; omega
      · have := hval.d; omega
      · simp at h1
        obtain ⟨p, hp, hle⟩ := h1
        have := hval.primes p hp
        omega

/-- **C124.**  A private key in the standard form, as a PEM block or as bare base64, is read as this key if it is valid; otherwise
there is an error. -/
theorem C124_private (again : Bytes → Option Block) (s : Bytes) (version n e d p q : Int) (crt : Int × Int × Int) (others : List (Int × Int × Int))
    (hv1 : 0 ≤ version) (hv2 : version ≤ 1) (he1 : -2 ^ 63 ≤ e) (he2 : e < 2 ^ 63) (hl : (putPrivate version n e d p q crt others).length < 2 ^ 31)
    (hs : Carries (ascii "RSA PRIVATE KEY") s (putPrivate version n e d p q crt others)) :
    let k : RsaPriv := ⟨n, e, d, p :: q :: others.map (·.1)⟩
    (Valid k → readPrivate (decode again) s = .ok k) ∧ (¬ Valid k → readPrivate (decode again) s = .err) := by
  intro k
  have hp := parse_private version n e d p q crt others (by omega) (by omega) he1 he2 hl
  have hd := carries_decode again (.inl rfl) hs
  unfold readPrivate readPrivateKey readPrivateKeyBytes
  rw [hd]
  simp only [ne_eq, not_true, if_false]
  constructor
  · intro hk
    rw [(parsePKCS1_iff _ k).2 ⟨version, by omega, hp, hk⟩]
  · intro hk
    cases hc : parsePKCS1PrivateKey (putPrivate version n e d p q crt others) with
    | none => rfl
    | some k' =>
      obtain ⟨v, -, h1, h2⟩ := (parsePKCS1_iff _ k').1 hc
      rw [hp] at h1
      simp at h1
      exact absurd (by rw [show k = k' from h1.2]; exact h2) hk

/-- **C124.**  Whatever text is read as a private key: it is valid. -/
theorem C124_sound (dec : Bytes → Option Block) (s : Bytes) (k : RsaPriv) (h : readPrivate dec s = .ok k) : Valid k := by
  unfold readPrivate readPrivateKey readPrivateKeyBytes at h
  split at h
  · simp at h
  · split at h
    · simp at h
    · split at h
      · simp at h
      · rename_i k' hk
        simp at h; subst h
        exact ((parsePKCS1_iff _ k').1 hk).choose_spec.2.2

/-- **C124.**  From every private key that was read, the public key can be extracted and read. -/
theorem C124_pair (dec again : Bytes → Option Block) (curve : Bytes → Bytes → Bool) (s : Bytes) (k : RsaPriv) (h : readPrivate dec s = .ok k)
    (hl : (marshalPKIXPublicKey ⟨k.n, k.e⟩).length < 2 ^ 31) :
    ∃ pem, extractPublic k = some pem ∧ readPublic curve (decode again) pem = .ok ⟨k.n, k.e⟩ := by
  have hk := C124_sound dec s k h
  obtain ⟨pem, h1, h2⟩ := C124_extract again curve k (by have := hk.e; omega) (by have := hk.e; omega) hl
  refine ⟨pem, h1, ?_⟩
  rw [h2, if_pos]
  have := hk.e
  have := prod_pos _ hk.primes
  rw [hk.n]
  omega

/-! ### Other keys -/

/-- A public key of another kind: DSA, a point of a curve, or Ed25519. -/
def OtherKey (curve : Bytes → Bytes → Bool) (oid : List Nat) (params key : Bytes) : Prop :=
  oid = [1, 2, 840, 10040, 4, 1] ∧ isDsaPub params key = true ∨ oid = [1, 2, 840, 10045, 2, 1] ∧ curve params key = true ∨
  oid = [1, 3, 101, 112] ∧ params = [] ∧ key.length = 32

/-- **C124.**  What `ReadPublicKey` gives for any text: a key with positive modulus and exponent, or an error; it panics exactly for
the keys of another kind. -/
theorem C124_public (dec : Bytes → Option Block) (curve : Bytes → Bytes → Bool) (s : Bytes) :
    (∀ k, readPublic curve dec s = .ok k → 0 < k.n ∧ 0 < k.e) ∧
    (readPublic curve dec s = .panic ↔ ∃ b oid params key, dec (normalizePem s (ascii "PUBLIC KEY")) = some ⟨ascii "PUBLIC KEY", b⟩ ∧
      parsePkixInfo b = some (oid, params, key) ∧ OtherKey curve oid params key) := by
  unfold readPublic readPublicKey readPublicKeyBytes
  cases hd : dec (normalizePem s (ascii "PUBLIC KEY")) with
  | none => simp
  | some b =>
    obtain ⟨t, b⟩ := b
    simp only
    by_cases ht : t = ascii "PUBLIC KEY"
    swap
    · rw [if_pos ht]
      simp [ht]
    · subst ht
      rw [if_neg (by simp)]
      unfold parsePKIXPublicKey
      cases hi : parsePkixInfo b with
      | none => simp [hi]
      | some x =>
        obtain ⟨oid, params, key⟩ := x
        have hpos : ∀ k, parseRsaPub params key = some k → 0 < k.n ∧ 0 < k.e := by
          intro k hk
          unfold parseRsaPub at hk
          split at hk
          · simp at hk
          · split at hk
            · simp at hk
            · split at hk
              · simp at hk
              · split at hk
                · simp at hk
                · split at hk
                  · simp at hk
                  · simp at hk; subst hk
                    simp only
                    omega
        have hex : (∃ b' oid' params' key', some (⟨ascii "PUBLIC KEY", b⟩ : Block) = some ⟨ascii "PUBLIC KEY", b'⟩ ∧
            parsePkixInfo b' = some (oid', params', key') ∧ OtherKey curve oid' params' key') ↔ OtherKey curve oid params key := by
          constructor
          · rintro ⟨b', oid', params', key', h1, h2, h3⟩
            simp at h1; subst h1
            rw [hi] at h2
            simp at h2
            obtain ⟨rfl, rfl, rfl⟩ := h2
            exact h3
          · exact fun h => ⟨b, oid, params, key, rfl, hi, h⟩
        rw [hex]
        simp only [parsePublicKey]
        by_cases h1 : oid = oidRsa
        · rw [if_pos h1]
          subst h1
          have hno : ¬ OtherKey curve oidRsa params key := by
            rintro (⟨h, -⟩ | ⟨h, -⟩ | ⟨h, -⟩) <;> revert h <;> decide
          cases hp : parseRsaPub params key with
          | none => simp [hno]
          | some k => simpa [hno] using hpos k hp
        · rw [if_neg h1]
          by_cases h2 : oid = oidDsa
          · rw [if_pos h2]
            subst h2
            have : OtherKey curve oidDsa params key ↔ isDsaPub params key = true := by
              constructor
              · rintro (⟨-, h⟩ | ⟨h, -⟩ | ⟨h, -⟩)
                · exact h
                · exact absurd h (by decide)
                · exact absurd h (by decide)
              · exact fun h => .inl ⟨rfl, h⟩
            rw [this]
            cases isDsaPub params key <;> simp
          · rw [if_neg h2]
            by_cases h3 : oid = oidEcdsa
            · rw [if_pos h3]
              subst h3
              have : OtherKey curve oidEcdsa params key ↔ curve params key = true := by
                constructor
                · rintro (⟨h, -⟩ | ⟨-, h⟩ | ⟨h, -⟩)
                  · exact absurd h (by decide)
                  · exact h
                  · exact absurd h (by decide)
                · exact fun h => .inr (.inl ⟨rfl, h⟩)
              rw [this]
              cases curve params key <;> simp
            · rw [if_neg h3]
              by_cases h4 : oid = oidEd25519
              · rw [if_pos h4]
                subst h4
                have : OtherKey curve oidEd25519 params key ↔ params = [] ∧ key.length = 32 := by
                  constructor
                  · rintro (⟨h, -⟩ | ⟨h, -⟩ | ⟨-, h⟩)
                    · exact absurd h (by decide)
                    · exact absurd h (by decide)
                    · exact h
                  · exact fun h => .inr (.inr ⟨rfl, h⟩)
                rw [this]
                by_cases hc : params = [] ∧ key.length = 32
                · rw [if_pos hc]; simp [hc]
                · rw [if_neg hc]; simp only [hc]; simp
              · rw [if_neg h4]
                have : ¬ OtherKey curve oid params key := by
                  rintro (⟨h, -⟩ | ⟨h, -⟩ | ⟨h, -⟩)
                  · exact h2 h
                  · exact h3 h
                  · exact h4 h
                simp [this]

/-- **C77** does not hold: the text of every Ed25519 public key makes the reader panic. -/
theorem C77_ed25519_violated (again : Bytes → Option Block) (curve : Bytes → Bytes → Bool) (key s : Bytes) (hk : key.length = 32)
    (hs : Carries (ascii "PUBLIC KEY") s ([48, 42, 48, 5, 6, 3, 43, 101, 112, 3, 33, 0] ++ key)) : readPublic curve (decode again) s = .panic := by
  refine (C124_public _ curve s).2.2 ⟨_, [1, 3, 101, 112], [], key, carries_decode again (.inr (.inl rfl)) hs, ?_, .inr (.inr ⟨rfl, rfl, hk⟩)⟩
  have e1 : [48, 42, 48, 5, 6, 3, 43, 101, 112, 3, 33, 0] ++ key = tlv 48 (tlv 48 (tlv 6 [43, 101, 112]) ++ tlv 3 (0 :: key)) := by
    simp [tlv, putLength, hk]
  have s1 := seq_tlv (tlv 48 (tlv 6 [43, 101, 112]) ++ tlv 3 (0 :: key)) [] (by simp [tlv, putLength, hk])
  rw [List.append_nil] at s1
  have s2 := seq_tlv (tlv 6 [43, 101, 112]) (tlv 3 (0 :: key)) (by decide +kernel)
  have s3 := must'_tlv false 6 6 (by decide) (by decide) (by decide) (by decide) [43, 101, 112] [] (by decide)
  rw [List.append_nil] at s3
  have s4 := must'_tlv false 3 3 (by decide) (by decide) (by decide) (by decide) (0 :: key) [] (by simp [hk])
  rw [List.append_nil] at s4
  have s5 : parseBits (0 :: key) = some key := by
    cases key with
    | nil => simp at hk
    | cons a l => simp [parseBits, Nat.mod_one]
  have s6 : parseOid [43, 101, 112] = some [1, 3, 101, 112] := by decide +kernel
  have s7 : rawOptional [] = some [] := rfl
  rw [e1]
  unfold parsePkixInfo
  rw [s1]
  simp [s2, s3, s4, s5, s6, s7, guard]

/-! ### Examples -/

/-- A small key. -/
def smallKey : RsaPriv := ⟨3233, 17, 413, [61, 53]⟩

example : Valid smallKey := by
  refine ⟨by decide, by decide, by decide, by decide, ?_⟩
  intro p hp
  simp [smallKey] at hp
  rcases hp with rfl | rfl <;> decide

example : readPrivate (decode fun _ => none) (b64encode (putPrivate 0 3233 17 413 61 53 (53, 49, 38) [])) = .ok smallKey := by
  decide +kernel

example : extractPublic smallKey = some (ascii "-----BEGIN PUBLIC KEY-----\nMBswDQYJKoZIhvcNAQEBBQADCgAwBwICDKECARE=\n-----END PUBLIC KEY-----\n") := by
  decide +kernel

end Gears.Rsa
