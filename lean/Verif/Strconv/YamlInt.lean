import Verif.Strconv.YamlFloat

/-
C120: numbers with a fraction or an exponent in yaml files, for fields of integer types (/repo/conf/yaml.go:35; yaml.v3 decode.go, `decoder.scalar`).
-/

namespace Gears.Strconv

open Gears.Str (Bytes ascii)
open Gears.Conf (LitDigits DigitOf Literal IntText Kind goPv)
open Gears.Conf.Yaml (plain Lib Res conv scalarRes Meaning Means Number Word IntOk TimeText FloatText Stores Names Numeric)

attribute [local irreducible] V mag

/-! ## Specification -/

/-- The number that a decimal text with exponent e stands for. -/
def Decimal (t : Bytes) (e : Int) (q : ℚ) : Prop :=
  ∃ neg u n f, Sign t neg u ∧ Body u false n f e ∧ q = if neg then -value false n f e else value false n f e

/-- The number in the text of a scalar. -/
def NumText (t : Bytes) (q : ℚ) : Prop := (∃ i : Int, IntOk t i ∧ q = i) ∨ (∀ i, ¬ IntOk t i) ∧ ∃ e, Decimal t e q

/-- The number without its fraction. -/
def trunc (q : ℚ) : Int := if 0 ≤ q then ⌊q⌋ else ⌈q⌉

def Signed (k : Kind) : Prop := k = .int ∨ k = .int64
def Unsigned (k : Kind) : Prop := k = .uint ∨ k = .uint64

/-- **C120** in full: the number that a yaml file has for a field of an integer type is stored as it is, or the file is refused. -/
def C120Claim : Prop := ∀ (L : Lib) (wildI wildU : F64 → Int) (k : Kind) (str : Bool) (s : Bytes) (y : Int) (q : ℚ), Signed k ∨ Unsigned k →
  conv (lib L wildI wildU) k (scalarRes (lib L wildI wildU) str s) s = some y → NumText (plain s) q → (y : ℚ) = q

/-! ## Integer parts -/

theorem floor_quot (v U : Nat) : ⌊(v : ℚ) / U⌋ = ((v / U : Nat) : Int) := by
  rw [Rat.floor_natCast_div_natCast]; simp

theorem num_quot (b : Nat) : num b = (V b : ℚ) / ((2 ^ 1074 : Nat) : ℚ) := by unfold num; rw [Nat.cast_pow]; rfl

theorem cut_trunc (x : F64) : cut x = trunc x.val := by
  unfold cut trunc F64.val
  have hn := num_nonneg x.mag
  rw [num_quot] at hn ⊢
  generalize hU : (2 : Nat) ^ 1074 = U at *
  cases x.neg with
  | false => simp only [Bool.false_eq_true, if_false, if_pos hn]; rw [floor_quot]
  | true =>
    simp only [if_true]
    have := floor_quot (V x.mag) U
    generalize hq : (V x.mag : ℚ) / (U : ℚ) = q at *
    by_cases h : 0 ≤ -q
    · have h0 : q = 0 := le_antisymm (by linarith) hn
      rw [if_pos h, ← this, h0]; simp
    · rw [if_neg h, Int.ceil_neg, this]

theorem pow_parts : 4503599627370496 * 2 ^ 1085 = 9223372036854775808 * 2 ^ 1074 ∧ 4503599627370496 * 2 ^ 1086 = 18446744073709551616 * 2 ^ 1074 := by
  have h1 : (2 : Nat) ^ 1085 = 2 ^ 11 * 2 ^ 1074 := by rw [← Nat.pow_add]
  have h2 : (2 : Nat) ^ 1086 = 2 ^ 12 * 2 ^ 1074 := by rw [← Nat.pow_add]
  rw [h1, h2]
  generalize (2 : Nat) ^ 1074 = U
  omega

theorem V_two63 : V two63 = 9223372036854775808 * 2 ^ 1074 := by
  have := V_form 1085 4503599627370496 (by omega) (.inr (by omega))
  rw [pow_parts.1] at this
  rw [← this]
  rfl

theorem V_two64 : V two64 = 18446744073709551616 * 2 ^ 1074 := by
  have := V_form 1086 4503599627370496 (by omega) (.inr (by omega))
  rw [pow_parts.2] at this
  rw [← this]
  rfl

theorem V_le_iff (a b : Nat) : V a ≤ V b ↔ a ≤ b := ⟨fun h => by by_contra hc; have := V_strictMono (Nat.lt_of_not_le hc); omega, V_mono⟩

theorem quot_le {v U c : Nat} (hU : 0 < U) : (v : ℚ) / (U : ℚ) ≤ c ↔ v ≤ c * U := by
  have : (0 : ℚ) < U := by exact_mod_cast hU
  rw [div_le_iff₀ this]
  exact_mod_cast Iff.rfl

theorem num_le63 (b : Nat) : num b ≤ 2 ^ 63 ↔ b ≤ two63 := by
  rw [← V_le_iff, V_two63, num_quot]
  have hU : 0 < (2 : Nat) ^ 1074 := pow_pos (by omega) _
  generalize (2 : Nat) ^ 1074 = U at *
  have := quot_le (v := V b) (c := 9223372036854775808) hU
  rw [← this]; norm_num

theorem num_le64 (b : Nat) : num b ≤ 2 ^ 64 ↔ b ≤ two64 := by
  rw [← V_le_iff, V_two64, num_quot]
  have hU : 0 < (2 : Nat) ^ 1074 := pow_pos (by omega) _
  generalize (2 : Nat) ^ 1074 = U at *
  have := quot_le (v := V b) (c := 18446744073709551616) hU
  rw [← this]; norm_num

theorem trunc_lt {q : ℚ} {n : Int} (hn : 0 < n) : trunc q < n ↔ q < n := by
  unfold trunc
  split
  · exact Int.floor_lt
  · rename_i h
    have h1 : ⌈q⌉ ≤ 0 := Int.ceil_le.2 (by push_cast; linarith)
    have h2 : (0 : ℚ) < n := by exact_mod_cast hn
    constructor
    · intro _; linarith
    · intro _; omega

theorem le_trunc {q : ℚ} {n : Int} (hn : 0 ≤ n) : -n ≤ trunc q ↔ -(n : ℚ) - 1 < q := by
  have h2 : (0 : ℚ) ≤ n := by exact_mod_cast hn
  unfold trunc
  split
  · rename_i h
    have h1 : 0 ≤ ⌊q⌋ := Int.floor_nonneg.2 h
    constructor
    · intro _; linarith
    · intro _; omega
  · have := Int.lt_ceil (a := q) (z := -n - 1)
    push_cast at this
    rw [← this]
    omega

theorem val_inf (b : Nat) (hb : infMag ≤ b) : (F64.mk true b).val < -2 ^ 64 := by
  have h : ¬ num b ≤ 2 ^ 64 := by rw [num_le64]; unfold two64; unfold infMag at hb; omega
  unfold F64.val
  simp only [if_true]
  push Not at h
  linarith

/-- The float is not NaN, and not greater than c. -/
def AtMost (x : F64) (c : ℚ) : Prop := x = .inf true ∨ x.mag < infMag ∧ x.val ≤ c

theorem atMost_iff {x : F64} {c : ℚ} {b : Nat} (h0 : 0 ≤ c) (hb : b < infMag) (h : ∀ a, num a ≤ c ↔ a ≤ b) :
    AtMost x c ↔ x.neg ∧ x.mag ≤ infMag ∨ x.mag ≤ b := by
  obtain ⟨neg, m⟩ := x
  unfold AtMost F64.val F64.inf
  simp only [F64.mk.injEq]
  cases neg with
  | false => simp only [Bool.false_eq_true, false_and, false_or, if_false, h]; omega
  | true =>
    have := num_nonneg m
    have h1 : -num m ≤ c := by linarith
    simp only [if_true, h1, and_true, true_and]
    omega

theorem toInt_iff (wild : F64 → Int) (x : F64) (y : Int) : toInt wild x = some y ↔
    AtMost x (2 ^ 63) ∧ y = if x.mag < infMag ∧ -2 ^ 63 - 1 < x.val ∧ x.val < 2 ^ 63 then trunc x.val else wild x := by
  unfold toInt
  rw [atMost_iff (b := two63) (by norm_num) (by decide) num_le63]
  by_cases h : x.neg ∧ x.mag ≤ infMag ∨ x.mag ≤ two63
  · rw [if_pos h, Option.some.injEq, cut_trunc, eq_comm]
    have e : (-2 ^ 63 ≤ trunc x.val ∧ trunc x.val < 2 ^ 63) ↔ x.mag < infMag ∧ -2 ^ 63 - 1 < x.val ∧ x.val < 2 ^ 63 := by
      have h1 : -2 ^ 63 ≤ trunc x.val ↔ -2 ^ 63 - 1 < x.val := by have := le_trunc (q := x.val) (n := 2 ^ 63) (by norm_num); norm_num at this ⊢; exact this
      have h2 : trunc x.val < 2 ^ 63 ↔ x.val < 2 ^ 63 := by have := trunc_lt (q := x.val) (n := 2 ^ 63) (by norm_num); norm_num at this ⊢; exact this
      rw [h1, h2]
      constructor
      · rintro ⟨h3, h4⟩
        refine ⟨?_, h3, h4⟩
        rcases h with ⟨hn, hm⟩ | hm
        · rcases Nat.lt_or_eq_of_le hm with h5 | h5
          · exact h5
          · exfalso
            obtain ⟨neg, m⟩ := x
            simp only at hn h5 h3
            subst hn
            have := val_inf m (by omega)
            linarith
        · exact Nat.lt_of_le_of_lt hm (by decide)
      · exact fun h => h.2
    simp only [e, h, true_and]
  · rw [if_neg h]; simp [h]

theorem toUint_iff (wild : F64 → Int) (x : F64) (y : Int) : toUint wild x = some y ↔
    AtMost x (2 ^ 64) ∧ y = if x.mag < infMag ∧ -1 < x.val ∧ x.val < 2 ^ 64 then trunc x.val else wild x := by
  unfold toUint
  rw [atMost_iff (b := two64) (by norm_num) (by decide) num_le64]
  by_cases h : x.neg ∧ x.mag ≤ infMag ∨ x.mag ≤ two64
  · rw [if_pos h, Option.some.injEq, cut_trunc, eq_comm]
    have e : (0 ≤ trunc x.val ∧ trunc x.val < 2 ^ 64) ↔ x.mag < infMag ∧ -1 < x.val ∧ x.val < 2 ^ 64 := by
      have h1 : 0 ≤ trunc x.val ↔ -1 < x.val := by have := le_trunc (q := x.val) (n := 0) (by norm_num); norm_num at this ⊢; exact this
      have h2 : trunc x.val < 2 ^ 64 ↔ x.val < 2 ^ 64 := by have := trunc_lt (q := x.val) (n := 2 ^ 64) (by norm_num); norm_num at this ⊢; exact this
      rw [h1, h2]
      constructor
      · rintro ⟨h3, h4⟩
        refine ⟨?_, h3, h4⟩
        rcases h with ⟨hn, hm⟩ | hm
        · rcases Nat.lt_or_eq_of_le hm with h5 | h5
          · exact h5
          · exfalso
            obtain ⟨neg, m⟩ := x
            simp only at hn h5 h3
            subst hn
            have := val_inf m (by omega)
            linarith
        · exact Nat.lt_of_le_of_lt hm (by decide)
      · exact fun h => h.2
    simp only [e, h, true_and]
  · rw [if_neg h]; simp [h]

/-! ## C120 -/

/-- A float in a field of type int or int64: the fraction is dropped if the number is in range; numbers greater than 2^63 and NaN are refused;
what becomes of 2^63 and of numbers that are too small is not defined by the language. -/
theorem C120_signed_partial (L : Lib) (wildI wildU : F64 → Int) (k : Kind) (hk : Signed k) (s : Bytes) (x : F64) (hx : x.mag < 2 ^ 63)
    (hm : Meaning (lib L wildI wildU) false s (.float (code x))) (y : Int) :
    conv (lib L wildI wildU) k (scalarRes (lib L wildI wildU) false s) s = some y ↔
      AtMost x (2 ^ 63) ∧ y = if x.mag < infMag ∧ -2 ^ 63 - 1 < x.val ∧ x.val < 2 ^ 63 then trunc x.val else wildI x := by
  rw [(Conf.Yaml.C117_meaning (lib_names L wildI wildU) false s _).2 hm]
  have : conv (lib L wildI wildU) k (.float (code x)) s = toInt wildI (decode (code x)) := by rcases hk with rfl | rfl <;> rfl
  rw [this, decode_code hx, toInt_iff]

/-- The same for uint and uint64. -/
theorem C120_unsigned_partial (L : Lib) (wildI wildU : F64 → Int) (k : Kind) (hk : Unsigned k) (s : Bytes) (x : F64) (hx : x.mag < 2 ^ 63)
    (hm : Meaning (lib L wildI wildU) false s (.float (code x))) (y : Int) :
    conv (lib L wildI wildU) k (scalarRes (lib L wildI wildU) false s) s = some y ↔
      AtMost x (2 ^ 64) ∧ y = if x.mag < infMag ∧ -1 < x.val ∧ x.val < 2 ^ 64 then trunc x.val else wildU x := by
  rw [(Conf.Yaml.C117_meaning (lib_names L wildI wildU) false s _).2 hm]
  have : conv (lib L wildI wildU) k (.float (code x)) s = toUint wildU (decode (code x)) := by rcases hk with rfl | rfl <;> rfl
  rw [this, decode_code hx, toUint_iff]

theorem decimal_bytes {t : Bytes} {e : Int} {q : ℚ} (h : Decimal t e q) : ∀ c ∈ t, DecByte c := by
  obtain ⟨neg, u, n, f, hs, hb, -⟩ := h
  have := body_decBytes hb
  cases hs with
  | none => exact this
  | plus => simpa using ⟨by decide, this⟩
  | minus => simpa using ⟨by decide, this⟩

/-- A decimal text of an integer. -/
theorem decimal_int {t : Bytes} {e : Int} {z : Int} (h : Decimal t e z) (he : -100000 < e ∧ e < 100000) (hz : z.natAbs < 2 ^ 53) :
    ∃ x, Text t x ∧ x.mag < infMag ∧ x.val = z := by
  obtain ⟨neg, u, n, f, hs, hb, hq⟩ := h
  have hv : value false n f e = z.natAbs := by
    have h0 : 0 ≤ value false n f e := by unfold value; simp only [Bool.false_eq_true, if_false]; exact q_nonneg n _
    have habs : ((z.natAbs : Nat) : ℚ) = |(z : ℚ)| := by rw [← Int.cast_abs, Int.abs_eq_natAbs]; rfl
    rw [habs, hq]
    cases neg
    · simp [abs_of_nonneg h0]
    · simp [abs_of_nonneg h0]
  have hr : mag 10 z.natAbs 0 < infMag := mag_range (by omega)
  have hp := body_text (d := z.natAbs) (j := 0) hs hb (by rw [hv]; simp) he ((back_mag _ _ _).1 rfl) hr
  refine ⟨_, (parse_iff _ _).1 hp, hr, ?_⟩
  have hnum : num (mag 10 z.natAbs 0) = z.natAbs := by
    unfold num
    rw [mag_int hz]
    push_cast
    rw [mul_div_assoc, div_self two_pos.ne', mul_one]
  unfold F64.val
  simp only [hnum, hq, hv]

theorem stores_int {L : Lib} {s : Bytes} {k : Kind} {r : Res} {y : Int} (hk : Signed k ∨ Unsigned k) (h : Stores L s k r y) :
    r = .int y ∨ ∃ x, r = .float x ∧ (Signed k ∧ L.toInt x = some y ∨ Unsigned k ∧ L.toUint x = some y) := by
  unfold Signed Unsigned at *
  cases h with
  | int _ _ => exact .inl rfl
  | whole h h' => exact .inr ⟨_, rfl, .inl ⟨h, h'⟩⟩
  | uint _ _ => exact .inl rfl
  | wholeU h h' => exact .inr ⟨_, rfl, .inr ⟨h, h'⟩⟩
  | _ => simp at hk

theorem trunc_int (z : Int) : trunc z = z := by
  unfold trunc
  split <;> simp

/-- **C120** for integers, and for decimal texts whose number is an integer of at most 53 bits (for an unsigned field, not negative) with an exponent of
at most five digits. -/
theorem C120_exact_partial (L : Lib) (wildI wildU : F64 → Int) (k : Kind) (hk : Signed k ∨ Unsigned k) (str : Bool) (s : Bytes) (y z : Int)
    (h : conv (lib L wildI wildU) k (scalarRes (lib L wildI wildU) str s) s = some y)
    (hz : IntOk (plain s) z ∨ (∀ i, ¬ IntOk (plain s) i) ∧ (∃ e, Decimal (plain s) e z ∧ -100000 < e ∧ e < 100000) ∧ z.natAbs < 2 ^ 53 ∧ (Unsigned k → 0 ≤ z)) :
    y = z := by
  obtain ⟨r, hm, hst⟩ := (Conf.Yaml.C117_stored (lib_names L wildI wildU) str s k y).1 h
  have hst' := stores_int hk hst
  have hm' : Means (lib L wildI wildU) s r := by
    rcases hm with ⟨-, rfl⟩ | ⟨-, hm | ⟨rfl, -⟩⟩
    · simp at hst'
    · exact hm
    · simp at hst'
  -- what is stored, if the text is that of a float
  have fin : ∀ {x : F64}, r = .float (code x) → Text (plain s) x → (∀ i, ¬ IntOk (plain s) i) → y = z := by
    intro x hr hx hno
    rcases hz with hz | ⟨-, ⟨e, hd, he⟩, hz, hu⟩
    · exact absurd hz (hno z)
    obtain ⟨x', hx', hi, hv⟩ := decimal_int hd he hz
    rw [← C119_unique _ x x' hx hx'] at hi hv
    have hlo : -(2 : ℚ) ^ 53 < z ∧ (z : ℚ) < 2 ^ 53 := by
      have h1 : -2 ^ 53 < z := by omega
      have h2 : z < 2 ^ 53 := by omega
      exact ⟨by exact_mod_cast h1, by exact_mod_cast h2⟩
    rcases hst' with e1 | ⟨c, e1, e2⟩
    · rw [hr] at e1; simp at e1
    · rw [hr] at e1
      simp only [Res.float.injEq] at e1
      subst e1
      rcases e2 with ⟨-, e2⟩ | ⟨hk', e2⟩
      · replace e2 : toInt wildI (decode (code x)) = some y := e2
        rw [decode_code (text_mag hx), toInt_iff, if_pos ⟨hi, by rw [hv]; linarith, by rw [hv]; linarith⟩, hv, trunc_int] at e2
        exact e2.2
      · replace e2 : toUint wildU (decode (code x)) = some y := e2
        have h0 : (0 : ℚ) ≤ z := by exact_mod_cast hu hk'
        rw [decode_code (text_mag hx), toUint_iff, if_pos ⟨hi, by rw [hv]; linarith, by rw [hv]; linarith⟩, hv, trunc_int] at e2
        exact e2.2
  cases hm' with
  | word h =>
    exfalso
    have hr : ∃ q, r = .float q := by
      cases h with
      | true _ => simp at hst'
      | false _ => simp at hst'
      | null _ => simp at hst'
      | nan _ _ => exact ⟨_, rfl⟩
      | inf _ _ => exact ⟨_, rfl⟩
      | ninf _ _ => exact ⟨_, rfl⟩
    obtain ⟨q, rfl⟩ := hr
    obtain ⟨-, h1, h2, c, h3, h4⟩ := word_table s (word_float h)
    rcases hz with hz | ⟨-, ⟨e, hd, -⟩, -⟩
    · rw [Conf.Yaml.intOk_iff, h1, h2] at hz
      simp at hz
    · exact h4 (decimal_bytes hd c h3)
  | @dot t q _ hs hf =>
    obtain ⟨x', hx', rfl⟩ := (codeFlt_iff s q).1 hf
    refine fin rfl (text_plain hx') fun i hi => ?_
    rw [hs, plain_cons (by decide)] at hi
    exact dot_int hi
  | number _ _ hn =>
    cases hn with
    | time _ => simp at hst'
    | @int i _ hi =>
      have hy : i = y := by simpa using hst'
      rcases hz with hz | ⟨hno, -⟩
      · rw [← hy]; exact Conf.Yaml.intOk_unique hi hz
      · exact absurd hi (hno i)
    | @float q _ hno _ hf =>
      obtain ⟨x', hx', rfl⟩ := (codeFlt_iff _ q).1 hf
      exact fin rfl hx' hno
    | inside _ hi =>
      rcases hz with hz | ⟨-, ⟨e, hd, -⟩, -⟩
      · exact absurd hz (Conf.Yaml.inside_int hi z)
      · exfalso
        obtain ⟨p, base, g, t, n, hp, he, -⟩ := hi
        have := decimal_bytes hd p (by rw [he]; simp)
        have hp' : p = 98 ∨ p = 111 := by simp at hp; rcases hp with ⟨h, -⟩ | ⟨h, -⟩ <;> simp [h]
        rcases hp' with rfl | rfl <;> exact absurd this (by decide)

theorem lit_digits10 {acc n : Nat} {t : Bytes} (h : LitDigits 10 acc t n) (h95 : 95 ∉ t) : Conf.Yaml.Digits t := by
  refine ⟨by cases h <;> simp, fun c hc => ?_⟩
  rcases Conf.Yaml.litDigits_bytes h c hc with rfl | ⟨d, hd⟩
  · exact absurd hc h95
  · exact (Conf.Yaml.isDig_iff c).1 (Conf.Yaml.digitOf_isDig (by omega) hd)

/-- Decimal texts without underscores are floats of YAML. -/
theorem decimal_float {t : Bytes} {e : Int} {q : ℚ} (h95 : 95 ∉ t) (h : Decimal t e q) : FloatText t := by
  obtain ⟨neg, u, n, f, hs, hb, -⟩ := h
  have hu : 95 ∉ u := by intro h; apply h95; cases hs <;> simp [h]
  have key : ∃ m e, u = m ++ e ∧ Conf.Yaml.Mantissa m ∧ Conf.Yaml.Exponent e := by
    have mant : ∀ {m n f}, Mantissa 10 m n f → 95 ∉ m → Conf.Yaml.Mantissa m := by
      intro m n f hm h95
      cases hm with
      | whole h => exact .inr (.inl (lit_digits10 h h95))
      | point h => exact .inr (.inr ⟨_, [], lit_digits10 h (fun hc => h95 (by simp [hc])), .inl rfl, rfl⟩)
      | both h1 h2 => exact .inr (.inr ⟨_, _, lit_digits10 h1 (fun hc => h95 (by simp [hc])), .inr (lit_digits10 h2 (fun hc => h95 (by simp [hc]))), rfl⟩)
      | frac h => exact .inl ⟨_, lit_digits10 h (fun hc => h95 (by simp [hc])), rfl⟩
    cases hb with
    | dec hm => exact ⟨u, [], by simp, mant hm hu, .inl rfl⟩
    | @decExp m n f v e hm he =>
      refine ⟨m, v, rfl, mant hm (fun hc => hu (by simp [hc])), .inr ?_⟩
      have he' : 95 ∉ v := fun hc => hu (by simp [hc])
      cases he with
      | plain hc h => exact ⟨_, [], _, rfl, hc, .inl rfl, lit_digits10 h (fun hc => he' (by simp [hc]))⟩
      | plus hc h => exact ⟨_, [43], _, rfl, hc, .inr (.inl rfl), lit_digits10 h (fun hc => he' (by simp [hc]))⟩
      | minus hc h => exact ⟨_, [45], _, rfl, hc, .inr (.inr rfl), lit_digits10 h (fun hc => he' (by simp [hc]))⟩
  obtain ⟨m, e, rfl, h1, h2⟩ := key
  cases hs with
  | none => exact ⟨[], m, e, rfl, .inl rfl, h1, h2⟩
  | plus => exact ⟨[43], m, e, rfl, .inr (.inl rfl), h1, h2⟩
  | minus => exact ⟨[45], m, e, rfl, .inr (.inr rfl), h1, h2⟩

/-- Such decimal texts are accepted, if they begin with a digit or a sign. -/
theorem C120_accepted (L : Lib) (wildI wildU : F64 → Int) (k : Kind) (hk : Signed k ∨ Unsigned k) (s : Bytes) (z : Int) (hn : Numeric s)
    (ht : ¬ TimeText (lib L wildI wildU) s) (hno : ∀ i, ¬ IntOk (plain s) i) (hd : ∃ e, Decimal (plain s) e z ∧ -100000 < e ∧ e < 100000)
    (hz : z.natAbs < 2 ^ 53) (hu : Unsigned k → 0 ≤ z) :
    conv (lib L wildI wildU) k (scalarRes (lib L wildI wildU) false s) s = some z := by
  obtain ⟨e, hd, he⟩ := hd
  obtain ⟨x, hx, hi, hv⟩ := decimal_int hd he hz
  have hw : ∀ r, ¬ Word (lib L wildI wildU) s r := by
    intro r hr
    have tab : ∀ l ∈ [["true", "True", "TRUE"], ["false", "False", "FALSE"], ["", "~", "null", "Null", "NULL"]], ∀ w ∈ l.map ascii,
      ∀ c t, w = c :: t → ¬ DecByte c ∧ c ≠ 95 := by
      intro l hl w hw
      have : ∀ l ∈ [["true", "True", "TRUE"], ["false", "False", "FALSE"], ["", "~", "null", "Null", "NULL"]], ∀ w ∈ l.map ascii,
        w = [] ∨ ∃ c, w.head? = some c ∧ ¬ DecByte c ∧ c ≠ 95 := by
        have : ∀ l ∈ [["true", "True", "TRUE"], ["false", "False", "FALSE"], ["", "~", "null", "Null", "NULL"]], ∀ w ∈ l.map ascii,
          w = [] ∨ ¬ DecByte (w.headD 0) ∧ w.headD 0 ≠ 95 ∧ w ≠ [] := by decide +kernel
        intro l hl w hw
        rcases this l hl w hw with h | h
        · exact .inl h
        · cases w with
          | nil => exact .inl rfl
          | cons c t => exact .inr ⟨c, rfl, h.1, h.2.1⟩
      intro c t hc
      rcases this l hl w hw with h | ⟨c', h, h'⟩
      · rw [h] at hc; simp at hc
      · rw [hc] at h; simp at h; subst h; exact h'
    have start : ∀ {l}, l ∈ [["true", "True", "TRUE"], ["false", "False", "FALSE"], ["", "~", "null", "Null", "NULL"]] → s ∈ l.map ascii → False := by
      intro l hl hs
      obtain ⟨c, t, rfl, -⟩ := hn
      have h1 := tab l hl _ hs c t rfl
      have : c ∈ plain (c :: t) := by rw [plain_cons h1.2]; simp
      exact h1.1 (decimal_bytes hd c this)
    have flt : ∀ {q}, ¬ Word (lib L wildI wildU) s (.float q) := by
      intro q h
      obtain ⟨-, -, -, c, h3, h4⟩ := word_table s (word_float h)
      exact h4 (decimal_bytes hd c h3)
    cases hr with
    | true h => exact start (by simp) h
    | false h => exact start (by simp) h
    | null h => exact start (by simp) h
    | nan h h' => exact flt (.nan h h')
    | inf h h' => exact flt (.inf h h')
    | ninf h h' => exact flt (.ninf h h')
  have hm : Meaning (lib L wildI wildU) false s (.float (code x)) :=
    .inr ⟨rfl, .inl (.number hw hn (.float ht hno (decimal_float (Conf.Yaml.plain_no s) hd) ((codeFlt_iff _ _).2 ⟨x, hx, rfl⟩)))⟩
  have hlo : -(2 : ℚ) ^ 53 < z ∧ (z : ℚ) < 2 ^ 53 := by
    have h1 : -2 ^ 53 < z := by omega
    have h2 : z < 2 ^ 53 := by omega
    exact ⟨by exact_mod_cast h1, by exact_mod_cast h2⟩
  rcases hk with hk | hk
  · rw [C120_signed_partial L wildI wildU k hk s x (text_mag hx) hm, if_pos ⟨hi, by rw [hv]; linarith, by rw [hv]; linarith⟩, hv, trunc_int]
    exact ⟨.inr ⟨hi, by rw [hv]; linarith⟩, rfl⟩
  · have h0 : (0 : ℚ) ≤ z := by exact_mod_cast hu hk
    rw [C120_unsigned_partial L wildI wildU k hk s x (text_mag hx) hm, if_pos ⟨hi, by rw [hv]; linarith, by rw [hv]; linarith⟩, hv, trunc_int]
    exact ⟨.inr ⟨hi, by rw [hv]; linarith⟩, rfl⟩

theorem decimal_one_half : Decimal (ascii "1.5") 0 (3 / 2) := by
  have d1 : DigitOf 10 49 1 := ⟨by omega, .inl ⟨by decide, by decide, rfl⟩⟩
  have d5 : DigitOf 10 53 5 := ⟨by omega, .inl ⟨by decide, by decide, rfl⟩⟩
  have : Body (ascii "1.5") false 15 1 0 := .dec (.both (t := [49]) (u := [53]) (.last (acc := 0) d1) (.last (acc := 1) d5))
  refine ⟨false, _, 15, 1, .none, this, ?_⟩
  unfold value
  norm_num

/-- `1.5` becomes 1. -/
theorem C120_violated : ¬ C120Claim := by
  intro h
  have hno : ∀ i, ¬ IntOk (plain (ascii "1.5")) i := by
    intro i hi
    rw [Conf.Yaml.intOk_iff, (by decide +kernel : Conf.parseInt0 (plain (ascii "1.5")) = none), (by decide +kernel : Conf.parseUint (plain (ascii "1.5")) = none)] at hi
    simp at hi
  have := h Conf.Yaml.exLib noWild noWild .int false (ascii "1.5") 1 (3 / 2) (.inl (.inl rfl)) (by decide +kernel)
    (.inr ⟨hno, 0, by rw [(by decide +kernel : plain (ascii "1.5") = ascii "1.5")]; exact decimal_one_half⟩)
  norm_num at this

theorem float_int {L : Lib} {wildI wildU : F64 → Int} {s : Bytes} {x : F64} (hx : x.mag < 2 ^ 63) (h : Conf.Yaml.stampLike s = false)
    (hr : scalarRes (lib Conf.Yaml.exLib noWild noWild) false s = .float (code x)) :
    conv (lib L wildI wildU) .int (scalarRes (lib L wildI wildU) false s) s = toInt wildI x ∧
    conv (lib L wildI wildU) .uint (scalarRes (lib L wildI wildU) false s) s = toUint wildU x := by
  rw [scalar_lib L wildI wildU h, hr]
  have h1 : conv (lib L wildI wildU) .int (.float (code x)) s = toInt wildI (decode (code x)) := rfl
  have h2 : conv (lib L wildI wildU) .uint (.float (code x)) s = toUint wildU (decode (code x)) := rfl
  rw [h1, h2, decode_code hx]
  exact ⟨rfl, rfl⟩

/-- What else is stored: 2^63 - 1 with a point becomes 2^63 and is accepted, and so is minus infinity; -1.5 is accepted for an unsigned field;
2^53 + 1 with a point becomes 2^53; larger numbers and NaN are refused. -/
theorem C120_differ (L : Lib) (wildI wildU : F64 → Int) :
    conv (lib L wildI wildU) .int (scalarRes (lib L wildI wildU) false (ascii "9223372036854775807.0")) (ascii "9223372036854775807.0") =
      some (wildI ⟨false, two63⟩) ∧
    conv (lib L wildI wildU) .int (scalarRes (lib L wildI wildU) false (ascii "-.inf")) (ascii "-.inf") = some (wildI (.inf true)) ∧
    conv (lib L wildI wildU) .uint (scalarRes (lib L wildI wildU) false (ascii "-1.5")) (ascii "-1.5") = some (wildU ⟨true, 4609434218613702656⟩) ∧
    conv (lib L wildI wildU) .uint (scalarRes (lib L wildI wildU) false (ascii "-0.5")) (ascii "-0.5") = some 0 ∧
    conv (lib L wildI wildU) .int (scalarRes (lib L wildI wildU) false (ascii "9007199254740993.")) (ascii "9007199254740993.") = some 9007199254740992 ∧
    conv (lib L wildI wildU) .int (scalarRes (lib L wildI wildU) false (ascii "1e19")) (ascii "1e19") = none ∧
    conv (lib L wildI wildU) .int (scalarRes (lib L wildI wildU) false (ascii ".nan")) (ascii ".nan") = none := by
  refine ⟨?_, ?_, ?_, ?_, ?_, ?_, ?_⟩
  · rw [(float_int (x := ⟨false, two63⟩) (by decide) (by decide +kernel) (by decide +kernel)).1, toInt, if_pos (by decide +kernel), if_neg (by decide +kernel)]
  · rw [(float_int (x := .inf true) (by decide) (by decide +kernel) (by decide +kernel)).1, toInt, if_pos (by decide +kernel), if_neg (by decide +kernel)]
  · rw [(float_int (x := ⟨true, 4609434218613702656⟩) (by decide) (by decide +kernel) (by decide +kernel)).2, toUint, if_pos (by decide +kernel),
      if_neg (by decide +kernel)]
  · rw [(float_int (x := ⟨true, 4602678819172646912⟩) (by decide) (by decide +kernel) (by decide +kernel)).2, toUint, if_pos (by decide +kernel),
      if_pos (by decide +kernel)]
    decide +kernel
  · rw [(float_int (x := ⟨false, 4845873199050653696⟩) (by decide) (by decide +kernel) (by decide +kernel)).1, toInt, if_pos (by decide +kernel),
      if_pos (by decide +kernel)]
    decide +kernel
  · rw [(float_int (x := ⟨false, 4891288408196988160⟩) (by decide) (by decide +kernel) (by decide +kernel)).1, toInt, if_neg (by decide +kernel)]
  · rw [(float_int (x := .nan) (by decide) (by decide +kernel) (by decide +kernel)).1, toInt, if_neg (by decide +kernel)]

/-- `1e3` is stored as 1000. -/
example (L : Lib) (wildI wildU : F64 → Int) : Decimal (plain (ascii "1e3")) 3 ((1000 : Int) : ℚ) ∧ (∀ i, ¬ IntOk (plain (ascii "1e3")) i) ∧
    ¬ TimeText (lib L wildI wildU) (ascii "1e3") ∧ Numeric (ascii "1e3") ∧
    conv (lib L wildI wildU) .int (scalarRes (lib L wildI wildU) false (ascii "1e3")) (ascii "1e3") = some 1000 := by
  have hd : Decimal (plain (ascii "1e3")) 3 ((1000 : Int) : ℚ) := by
    have d1 : DigitOf 10 49 1 := ⟨by omega, .inl ⟨by decide, by decide, rfl⟩⟩
    have d3 : DigitOf 10 51 3 := ⟨by omega, .inl ⟨by decide, by decide, rfl⟩⟩
    rw [(by decide +kernel : plain (ascii "1e3") = ascii "1e3")]
    have : Body (ascii "1e3") false 1 0 3 := .decExp (m := [49]) (e := [101, 51]) (.whole (.last (acc := 0) d1)) (.plain (.inl rfl) (.last (acc := 0) d3))
    refine ⟨false, _, 1, 0, .none, this, ?_⟩
    unfold value
    norm_num
  have hno : ∀ i, ¬ IntOk (plain (ascii "1e3")) i := by
    intro i hi
    rw [Conf.Yaml.intOk_iff, (by decide +kernel : Conf.parseInt0 (plain (ascii "1e3")) = none), (by decide +kernel : Conf.parseUint (plain (ascii "1e3")) = none)] at hi
    simp at hi
  have ht : ¬ TimeText (lib L wildI wildU) (ascii "1e3") := by
    rw [← Conf.Yaml.timeText_iff, (by decide +kernel : Conf.Yaml.stampLike (ascii "1e3") = false)]
    simp
  have hn : Numeric (ascii "1e3") := ⟨49, _, rfl, by decide⟩
  exact ⟨hd, hno, ht, hn, C120_accepted L wildI wildU .int (.inl (.inl rfl)) _ 1000 hn ht hno ⟨3, hd, by omega⟩ (by decide) (by rintro (h | h) <;> simp at h)⟩

end Gears.Strconv
