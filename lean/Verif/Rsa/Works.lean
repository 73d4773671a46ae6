import Verif.Rsa.KeyProps
import Mathlib.FieldTheory.Finite.Basic
import Mathlib.Tactic.NormNum.Prime

/-
C125: the keys that /repo/util/rsa/util.go reads decrypt what was encrypted.
-/

namespace Gears.Rsa

open Gears.Str

/-- The full statement of C125: what is encrypted with the extracted public key is decrypted with the private key, and the
other way round. -/
def C125Claim : Prop := ∀ (dec again : Bytes → Option Block) (curve : Bytes → Bytes → Bool) (s pem : Bytes) (k : RsaPriv) (pub : RsaPub), readPrivate dec s = .ok k →
  extractPublic k = some pem → readPublic curve (decode again) pem = .ok pub → ∀ m : Nat, (m : Int) < pub.n →
  ((m : Int) ^ pub.e.toNat % pub.n) ^ k.d.toNat % k.n = m ∧ ((m : Int) ^ k.d.toNat % k.n) ^ pub.e.toNat % pub.n = m

theorem dvd_prime (p : Nat) (hp : p.Prime) (ed : Nat) (h0 : 0 < ed) (h : (p : Int) - 1 ∣ (ed : Int) - 1) (m : Int) : (p : Int) ∣ m ^ ed - m := by
  by_cases hm : (p : Int) ∣ m
  · exact dvd_sub (dvd_pow hm (by omega)) hm
  · have hc : IsCoprime m (p : Int) := by
      rw [isCoprime_comm]
      exact (Nat.prime_iff_prime_int.1 hp).coprime_iff_not_dvd.2 hm
    have hf := Int.ModEq.pow_card_sub_one_eq_one hp hc
    have hp1 := hp.two_le
    obtain ⟨t, ht⟩ := h
    have ht0 : 0 ≤ t := by
      by_contra hc
      have h1 : t ≤ -1 := by omega
      have : ((p : Int) - 1) * t ≤ ((p : Int) - 1) * (-1) := Int.mul_le_mul_of_nonneg_left h1 (by omega)
      omega
    obtain ⟨t, rfl⟩ := Int.eq_ofNat_of_zero_le ht0
    have he : ed = (p - 1) * t + 1 := by
      have : (ed : Int) = ((p - 1 : Nat) : Int) * t + 1 := by push_cast [Nat.cast_sub (by omega : 1 ≤ p)]; omega
      exact_mod_cast this
    have h2 : m ^ ed ≡ m [ZMOD p] := by
      rw [he, pow_succ, pow_mul]
      have := (hf.pow t).mul_right m
      simpa using this
    exact (Int.modEq_iff_dvd.1 h2.symm)

theorem dvd_product (x : Int) : ∀ (l : List Int), (∀ p ∈ l, ∃ q : Nat, q.Prime ∧ p = q) → l.Nodup → (∀ p ∈ l, p ∣ x) → l.prod ∣ x
  | [], _, _, _ => by simp
  | p :: l, h1, h2, h3 => by
    rw [List.prod_cons]
    rw [List.nodup_cons] at h2
    refine IsCoprime.mul_dvd ?_ (h3 p (by simp)) (dvd_product x l (fun q hq => h1 q (by simp [hq])) h2.2 fun q hq => h3 q (by simp [hq]))
    obtain ⟨a, ha, rfl⟩ := h1 p (by simp)
    have hco : ∀ l' : List Int, (∀ q ∈ l', ∃ b : Nat, b.Prime ∧ q = b) → (a : Int) ∉ l' → IsCoprime (a : Int) l'.prod := by
      intro l'
      induction l' with
      | nil => intro _ _; simpa using isCoprime_one_right
      | cons q l' ih =>
        intro h4 h5
        rw [List.prod_cons]
        rw [List.mem_cons, not_or] at h5
        refine IsCoprime.mul_right ?_ (ih (fun q hq => h4 q (by simp [hq])) h5.2)
        obtain ⟨b, hb, rfl⟩ := h4 q (by simp)
        exact Nat.isCoprime_iff_coprime.2 ((Nat.coprime_primes ha hb).2 fun e => h5.1 (by rw [e]))
    exact hco l (fun q hq => h1 q (by simp [hq])) h2.1

/-- **C125**, if the primes of the key are prime and different, which is not checked when it is read. -/
theorem C125_partial (dec again : Bytes → Option Block) (curve : Bytes → Bytes → Bool) (s pem : Bytes) (k : RsaPriv) (pub : RsaPub)
    (h : readPrivate dec s = .ok k) (hx : extractPublic k = some pem) (hr : readPublic curve (decode again) pem = .ok pub)
    (hl : (marshalPKIXPublicKey ⟨k.n, k.e⟩).length < 2 ^ 31)
    (hprime : ∀ p ∈ k.primes, p.toNat.Prime) (hnd : k.primes.Nodup) (m : Nat) (hm : (m : Int) < pub.n) :
    ((m : Int) ^ pub.e.toNat % pub.n) ^ k.d.toNat % k.n = m ∧ ((m : Int) ^ k.d.toNat % k.n) ^ pub.e.toNat % pub.n = m := by
  have hk := C124_sound dec s k h
  obtain ⟨pem', h1, h2⟩ := C124_pair dec again curve s k h hl
  rw [hx] at h1
  simp at h1; subst h1
  rw [hr] at h2
  simp at h2; subst h2
  simp only at hm ⊢
  have he := hk.e
  have hd := hk.d
  have hdvd : k.n ∣ (m : Int) ^ (k.e.toNat * k.d.toNat) - m := by
    rw [hk.n]
    apply dvd_product _ _ _ hnd
    · intro p hp
      have h2 := hk.primes p hp
      have h3 := hprime p hp
      have h4 := hk.inv p hp
      have h5 := dvd_prime p.toNat h3 (k.e.toNat * k.d.toNat) (Nat.mul_pos (by omega) (by omega)) (by
        push_cast
        rw [Int.toNat_of_nonneg (by omega), Int.toNat_of_nonneg (by omega), Int.toNat_of_nonneg (by omega)]
        exact h4) m
      rwa [Int.toNat_of_nonneg (by omega)] at h5
    · intro p hp
      exact ⟨p.toNat, hprime p hp, by have := hk.primes p hp; omega⟩
  have hmod : (m : Int) ^ (k.e.toNat * k.d.toNat) % k.n = m := by
    have h6 : (m : Int) ^ (k.e.toNat * k.d.toNat) ≡ m [ZMOD k.n] := (Int.modEq_iff_dvd.2 (by simpa using hdvd)).symm
    rw [h6.eq, Int.emod_eq_of_lt (by omega) hm]
  constructor
  · rw [← Int.emod_emod_of_dvd _ (dvd_refl k.n)]
    have : ((m : Int) ^ k.e.toNat % k.n) ^ k.d.toNat ≡ ((m : Int) ^ k.e.toNat) ^ k.d.toNat [ZMOD k.n] := (Int.mod_modEq _ _).pow _
    rw [this.eq, ← pow_mul, hmod, Int.emod_eq_of_lt (by omega) hm]
  · have : ((m : Int) ^ k.d.toNat % k.n) ^ k.e.toNat ≡ ((m : Int) ^ k.d.toNat) ^ k.e.toNat [ZMOD k.n] := (Int.mod_modEq _ _).pow _
    rw [this.eq, ← pow_mul, Nat.mul_comm, hmod]

/-- The two primes are both 3. -/
def twice : RsaPriv := ⟨9, 3, 3, [3, 3]⟩

/-- **C125 is violated**: that the primes are prime and different is not checked. -/
theorem C125_violated : ¬ C125Claim := by
  intro h
  have h1 : readPrivate (decode fun _ => none) (b64encode (putPrivate 0 9 3 3 3 3 (1, 1, 0) [])) = .ok twice := by decide +kernel
  obtain ⟨pem, h2, h3⟩ := C124_pair (decode fun _ => none) (fun _ => none) (fun _ _ => false) _ _ h1 (by decide +kernel)
  have := (h (decode fun _ => none) (fun _ => none) (fun _ _ => false) _ pem twice _ h1 h2 h3 3 (by decide)).1
  revert this
  decide

example : (∀ p ∈ smallKey.primes, p.toNat.Prime) ∧ smallKey.primes.Nodup ∧ ((65 : Int) ^ 17 % 3233) ^ 413 % 3233 = 65 := by
  refine ⟨?_, by decide, by decide +kernel⟩
  intro p hp
  simp [smallKey] at hp
  rcases hp with rfl | rfl
  · show Nat.Prime 61; norm_num
  · show Nat.Prime 53; norm_num

end Gears.Rsa
