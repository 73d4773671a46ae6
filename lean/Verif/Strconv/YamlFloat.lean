import Verif.Strconv.Plain
import Mathlib.Data.Rat.Floor

/-
C109 for float64, and C120: numbers with a fraction or an exponent in yaml files, for fields of all numeric types (/repo/conf/yaml.go:35; yaml.v3 decode.go,
`decoder.scalar`).
-/

namespace Gears.Strconv

open Gears.Str (Bytes ascii)
open Gears.Conf (LitDigits DigitOf Literal IntText Kind goPv)
open Gears.Conf.Yaml (plain Lib Res conv scalarRes Meaning Means Number Word IntOk TimeText FloatText Stores Names Numeric)

attribute [local irreducible] V mag

/-! ## Model -/

/-- The float with these bits. -/
def decode (z : Int) : F64 := ⟨2 ^ 63 ≤ z, (z % 2 ^ 63).toNat⟩

/-- The integer part. -/
def cut (x : F64) : Int := if x.neg then -((V x.mag / 2 ^ 1074 : Nat) : Int) else (V x.mag / 2 ^ 1074 : Nat)

/-- The bits of 2^63 and 2^64. -/
def two63 : Nat := 4890909195324358656
def two64 : Nat := 4895412794951729152

/-- `if resolved <= math.MaxInt64 { out.SetInt(int64(resolved)) }`: the constant is converted to a float64, which is 2^63; the language leaves open what
int64 makes of a number that it cannot represent (`wild`). -/
def toInt (wild : F64 → Int) (x : F64) : Option Int :=
  if x.neg ∧ x.mag ≤ infMag ∨ x.mag ≤ two63 then some (if -2 ^ 63 ≤ cut x ∧ cut x < 2 ^ 63 then cut x else wild x) else none

/-- `if resolved <= math.MaxUint64 { out.SetUint(uint64(resolved)) }` -/
def toUint (wild : F64 → Int) (x : F64) : Option Int :=
  if x.neg ∧ x.mag ≤ infMag ∨ x.mag ≤ two64 then some (if 0 ≤ cut x ∧ cut x < 2 ^ 64 then cut x else wild x) else none

/-- The library of yaml with float64. -/
def lib (L : Lib) (wildI wildU : F64 → Int) : Lib :=
  { L with flt := codeFlt, ofInt := fun z => code (ofInt z), toInt := fun z => toInt wildI (decode z), toUint := fun z => toUint wildU (decode z) }

/-! ## Specification -/

/-- The number, for everything but infinities and NaN. -/
def F64.val (x : F64) : ℚ := if x.neg then -num x.mag else num x.mag

/-- Integers with sign that begin with a zero and another digit. -/
def Octal (t : Bytes) : Prop := ∃ neg c r, Sign t neg (48 :: c :: r) ∧ 48 ≤ c ∧ c ≤ 57

/-! ## C109 for float64 -/

theorem code_inj {x y : F64} (hx : x.mag < 2 ^ 63) (hy : y.mag < 2 ^ 63) (h : code x = code y) : x = y := by
  unfold code at h
  obtain ⟨xn, xm⟩ := x
  obtain ⟨yn, ym⟩ := y
  cases xn <;> cases yn <;> simp at h hx hy ⊢ <;> omega

theorem decode_code {x : F64} (hx : x.mag < 2 ^ 63) : decode (code x) = x := by
  obtain ⟨n, m⟩ := x
  simp only at hx
  unfold decode code
  cases n
  · simp; omega
  · simp; omega

theorem text_mag {s : Bytes} {x : F64} (h : Text s x) : x.mag < 2 ^ 63 := by
  cases h with
  | nan h => decide
  | inf h h' => simp [F64.inf, infMag]
  | num _ _ _ h => simp only [infMag] at h; simp only; omega

theorem body_decBytes {t : Bytes} {n f : Nat} {y : Int} (hb : Body t false n f y) : ∀ c ∈ t, DecByte c := by
  cases hb with
  | dec hm =>
    obtain ⟨a, b, h1, -⟩ := (mantissa_iff 10 (by omega) _ _ _).1 hm
    have := dec_bytes h1 (.none rfl)
    simpa using this
  | decExp hm he =>
    obtain ⟨a, b, h1, -⟩ := (mantissa_iff 10 (by omega) _ _ _).1 hm
    obtain ⟨t', h2, -⟩ := (exponent_iff false _ _).2 (.inr he)
    exact dec_bytes h1 h2

/-- A text that begins with a digit, perhaps after a sign, is no word. -/
theorem text_num {s t : Bytes} {neg : Bool} {c : UInt8} {x : F64} (hs : Sign s neg (c :: t)) (hc : 48 ≤ c ∧ c ≤ 57) (h : Text s x) :
    ∃ hex n f y, Body (c :: t) hex n f y := by
  have hl : ∀ c : Fin 256, (48 ≤ UInt8.ofFin c ∧ UInt8.ofFin c ≤ 57) ∨ UInt8.ofFin c = 43 ∨ UInt8.ofFin c = 45 →
      low (UInt8.ofFin c) ≠ 105 ∧ low (UInt8.ofFin c) ≠ 110 := by decide +kernel
  have hword : ∀ {t'}, t' = c :: t ∨ (∃ a, t' = a :: c :: t ∧ (a = 43 ∨ a = 45)) → ∀ {p q}, t'.map low = p :: q → p ≠ 105 ∧ p ≠ 110 := by
    rintro t' (rfl | ⟨a, rfl, ha⟩) p q he
    · simp at he; rw [← he.1]; exact hl c.toFin (.inl hc)
    · simp at he; rw [← he.1]; exact hl a.toFin (.inr ha)
  have ei : ascii "inf" = 105 :: ascii "nf" := by decide
  have ey : ascii "infinity" = 105 :: ascii "nfinity" := by decide
  have en : ascii "nan" = 110 :: ascii "an" := by decide
  cases h with
  | nan h =>
    rw [en] at h
    exact absurd rfl (hword (sign_start hs hc .none) h).2
  | inf h h' =>
    have hw := sign_start hs hc h
    rcases h' with h' | h'
    · rw [ei] at h'; exact absurd rfl (hword hw h').1
    · rw [ey] at h'; exact absurd rfl (hword hw h').1
  | num h hb _ _ =>
    rcases sign_start hs hc h with rfl | ⟨a, rfl, ha⟩
    · exact ⟨_, _, _, _, hb⟩
    · obtain ⟨c', r, he, h'⟩ := body_head hb
      simp at he
      obtain ⟨rfl, -⟩ := he
      have := head_table a h'
      rcases ha with rfl | rfl
      · exact absurd rfl this.1
      · exact absurd rfl this.2.1

/-- The texts of integers with a prefix are no texts of floats. -/
theorem based_no {s t : Bytes} {p : UInt8} {base : Nat} {neg : Bool} {x : F64} (hs : Sign s neg (48 :: p :: t)) (hp : (p, base) ∈ Conf.prefixes)
    (ht : ∀ c ∈ t, c = 95 ∨ ∃ d, DigitOf 16 c d) (h : Text s x) : False := by
  obtain ⟨hex, n, f, y, hb⟩ := text_num hs (by decide) h
  cases hex with
  | false =>
    have hd := body_decBytes hb p (by simp)
    apply decByte_lower p hd
    rcases (Conf.prefix_iff ..).1 hp with ⟨rfl | rfl, -⟩ | ⟨rfl | rfl, -⟩ | ⟨rfl | rfl, -⟩ <;> decide
  | true =>
    generalize hg : 48 :: p :: t = g at hb
    cases hb with
    | @hex p' u m n f e x hp' hu hm he =>
      have hmem : ∃ c ∈ t, c = 112 ∨ c = 80 := by
        have e1 : t = u ++ m ++ e := by simpa using (List.cons.inj (List.cons.inj hg).2).2
        have : ∃ c ∈ e, c = 112 ∨ c = 80 := by
          cases he with
          | plain hc _ => exact ⟨_, by simp, hc⟩
          | plus hc _ => exact ⟨_, by simp, hc⟩
          | minus hc _ => exact ⟨_, by simp, hc⟩
        obtain ⟨c, h1, h2⟩ := this
        exact ⟨c, by rw [e1]; simp [h1], h2⟩
      obtain ⟨c, hc, hc'⟩ := hmem
      have n1 : (112 : UInt8).toNat = 112 := rfl
      have n2 : (80 : UInt8).toNat = 80 := rfl
      rcases ht c hc with rfl | ⟨d, -, h⟩
      · rcases hc' with h | h <;> exact absurd h (by decide)
      · rcases hc' with rfl | rfl
        · rw [n1] at h; omega
        · rw [n2] at h; omega

theorem digitOf_16 {base d : Nat} {c : UInt8} (h : DigitOf base c d) : DigitOf 16 c d := ⟨by have := h.2; omega, h.2⟩

theorem intOk_sign {t : Bytes} {i : Int} (h : IntOk t i) : ∃ neg u n, Sign t neg u ∧ Literal u n ∧ (i = if neg then -(n : Int) else n) ∧ n < 2 ^ 64 := by
  rcases h with ⟨⟨u, n, hl, h⟩, h1, h2⟩ | ⟨n, hl, rfl, h⟩
  · rcases h with ⟨rfl, rfl⟩ | ⟨rfl, rfl⟩ | ⟨rfl, rfl⟩
    · exact ⟨false, _, n, .none, hl, rfl, by omega⟩
    · exact ⟨false, _, n, .plus, hl, rfl, by omega⟩
    · exact ⟨true, _, n, .minus, hl, rfl, by omega⟩
  · exact ⟨false, _, n, .none, hl, rfl, h⟩

theorem sign_head {t u : Bytes} {neg : Bool} {c : UInt8} (h : Sign t neg (c :: u)) (hc : 48 ≤ c ∧ c ≤ 57) : t.head? = some 45 ↔ neg = true := by
  cases h with
  | none =>
    have := (head_table c (.inl hc)).2.1
    simp [this]
  | plus => simp
  | minus => simp

theorem octal_sign {t u : Bytes} {neg : Bool} {c : UInt8} (h : Sign t neg (c :: u)) (hc : 48 ≤ c ∧ c ≤ 57) (ho : Octal t) :
    ∃ c' r, c :: u = 48 :: c' :: r ∧ 48 ≤ c' ∧ c' ≤ 57 := by
  obtain ⟨neg', c', r, h', hc'⟩ := ho
  rcases sign_start h hc h' with e | ⟨a, e, ha⟩
  · exact ⟨c', r, e.symm, hc'⟩
  · simp at e
    rcases ha with rfl | rfl <;> simp at e

theorem ofInt_sign (neg : Bool) (n : Nat) (h : n ≠ 0 ∨ neg = false) : ofInt (if neg then -(n : Int) else n) = ⟨neg, mag 10 n 0⟩ := by
  unfold ofInt
  cases neg
  · simp
  · have : n ≠ 0 := by simpa using h
    simp
    omega

theorem ofInt_zero (neg : Bool) : ofInt (if neg then -((0 : Nat) : Int) else (0 : Nat)) = ⟨false, 0⟩ := by
  unfold ofInt
  cases neg <;> simp [mag_zero]

/-- An integer literal without underscores that is the text of a float. -/
theorem int_float {t : Bytes} {i : Int} {x : F64} (h95 : 95 ∉ t) (hi : IntOk t i) (hx : Text t x) :
    x = ofInt i ↔ ¬ (Octal t ∧ 8 ≤ i.natAbs) ∧ ¬ (i = 0 ∧ t.head? = some 45) := by
  obtain ⟨neg, u, n, hs, hl, rfl, hn⟩ := intOk_sign hi
  have habs : (if neg then -(n : Int) else n).natAbs = n := by cases neg <;> simp
  have hz : (if neg then -(n : Int) else n) = 0 ↔ n = 0 := by cases neg <;> simp
  rw [habs, hz]
  have hpar := (parse_iff t x).2 hx
  have dec : ∀ {n' c r}, u = c :: r → LitDigits 10 0 u n' → n' ≤ 10 ^ 40 → 48 ≤ c ∧ c ≤ 57 →
      x = ⟨neg, mag 10 n' 0⟩ ∧ (t.head? = some 45 ↔ neg = true) := by
    intro n' c r hu h h' hc
    have := int_parse hs h h'
    rw [hpar] at this
    subst hu
    exact ⟨by simpa using this, sign_head hs hc⟩
  have h40 : (2 : Nat) ^ 64 * 2 ^ 64 ≤ 10 ^ 40 := by norm_num
  have same : ∀ {c r}, u = c :: r → LitDigits 10 0 u n → 48 ≤ c ∧ c ≤ 57 → ¬ (Octal t ∧ 8 ≤ n) →
      (x = ofInt (if neg then -(n : Int) else n) ↔ ¬ (Octal t ∧ 8 ≤ n) ∧ ¬ (n = 0 ∧ t.head? = some 45)) := by
    intro c r hu h hc ho
    obtain ⟨e, hh⟩ := dec hu h (by omega) hc
    rw [hh, e]
    simp only [ho, not_false_eq_true, true_and]
    by_cases h0 : n = 0
    · subst h0
      rw [ofInt_zero, mag_zero]
      cases neg <;> simp
    · rw [ofInt_sign neg n (.inl h0)]
      simp [h0]
  cases hl with
  | zero =>
    refine same (c := 48) rfl (Conf.LitDigits.last (acc := 0) (d := 0) ⟨by omega, .inl ⟨by decide, by decide, rfl⟩⟩) (by decide) ?_
    omega
  | decimal h1 h2 =>
    obtain ⟨c, r, d, rfl, hd⟩ := Conf.litDigits_head h1
    have hc : 48 ≤ c ∧ c ≤ 57 := by
      have := Conf.Yaml.digitOf_isDig (by omega) hd
      simpa [Conf.Yaml.isDig] using this
    refine same rfl h1 hc ?_
    rintro ⟨ho, -⟩
    obtain ⟨c', r', e, -⟩ := octal_sign hs hc ho
    simp at e
    simp [e.1] at h2
  | @octal w v n h1 h2 =>
    have hw : w = [] := by
      rcases h1 with rfl | rfl
      · rfl
      · exfalso
        apply h95
        cases hs <;> simp
    subst hw
    obtain ⟨n', g1, g2, g3, g4⟩ := octal_decimal (acc' := 0) h2 (by omega) (by omega) (by omega)
    have hd : DigitOf 10 48 0 := ⟨by omega, .inl ⟨by decide, by decide, rfl⟩⟩
    have g1' : LitDigits 10 0 (48 :: v) n' := .next hd (by simpa using g1)
    have hn' : n' ≤ 10 ^ 40 := by
      have : n * n ≤ 2 ^ 64 * 2 ^ 64 := Nat.mul_le_mul (by omega) (by omega)
      omega
    by_cases h8 : n < 8
    · rw [g3 h8] at g1'
      exact same (c := 48) rfl g1' (by decide) (by omega)
    · have ho : Octal t := by
        obtain ⟨c, r, d, rfl, hd⟩ := Conf.litDigits_head h2
        have hc : 48 ≤ c ∧ c ≤ 57 := by
          have := Conf.Yaml.digitOf_isDig (by omega) hd
          simpa [Conf.Yaml.isDig] using this
        exact ⟨neg, c, r, by simpa using hs, hc⟩
      obtain ⟨e, hh⟩ := dec (c := 48) rfl g1' hn' (by decide)
      simp only [ho, show 8 ≤ n by omega, and_self, not_true_eq_false, false_and, iff_false]
      rw [e, ofInt_sign neg n (.inl (by omega))]
      intro he
      simp only [F64.mk.injEq, true_and] at he
      exact mag_differ (by omega) (g4 (by omega)) he.symm
  | @based p base w v n hp h1 h2 =>
    exfalso
    refine based_no (t := w ++ v) (by simpa using hs) hp ?_ hx
    intro c hc
    rcases List.mem_append.1 hc with hc | hc
    · rcases h1 with rfl | rfl
      · simp at hc
      · simp at hc; exact .inl hc
    · rcases Conf.Yaml.litDigits_bytes h2 c hc with h | ⟨d, h⟩
      · exact .inl h
      · exact .inr ⟨d, digitOf_16 h⟩

theorem lib_names (L : Lib) (wildI wildU : F64 → Int) : Names (lib L wildI wildU) := by
  intro w hw
  have : ∀ w ∈ ["NaN", "+Inf", "-Inf"].map ascii, ∃ x, parseFloat w = some x := by
    intro w hw
    simp only [List.map_cons, List.map_nil, List.mem_cons, List.not_mem_nil, or_false] at hw
    rcases hw with rfl | rfl | rfl
    · exact ⟨.nan, by decide +kernel⟩
    · exact ⟨.inf false, by decide +kernel⟩
    · exact ⟨.inf true, by decide +kernel⟩
  obtain ⟨x, hx⟩ := this w hw
  exact ⟨code x, by show codeFlt w = _; unfold codeFlt; rw [hx]; rfl⟩

theorem codeFlt_iff (s : Bytes) (z : Int) : codeFlt s = some z ↔ ∃ x, Text s x ∧ z = code x := C119_field (fun _ => 0) s z

/-- The words of yaml for infinities and NaN are no texts of floats or integers. -/
theorem word_table : ∀ w ∈ [".nan", ".NaN", ".NAN", ".inf", ".Inf", ".INF", "+.inf", "+.Inf", "+.INF", "-.inf", "-.Inf", "-.INF"].map ascii,
    parseFloat w = none ∧ Conf.parseInt0 (plain w) = none ∧ Conf.parseUint (plain w) = none ∧ ∃ c ∈ plain w, ¬ DecByte c := by decide +kernel

theorem word_float {L : Lib} {s : Bytes} {x : Int} (h : Word L s (.float x)) :
    s ∈ [".nan", ".NaN", ".NAN", ".inf", ".Inf", ".INF", "+.inf", "+.Inf", "+.INF", "-.inf", "-.Inf", "-.INF"].map ascii := by
  have sub : ∀ l ∈ [[".nan", ".NaN", ".NAN"], [".inf", ".Inf", ".INF", "+.inf", "+.Inf", "+.INF"], ["-.inf", "-.Inf", "-.INF"]], ∀ w ∈ l.map ascii,
      w ∈ [".nan", ".NaN", ".NAN", ".inf", ".Inf", ".INF", "+.inf", "+.Inf", "+.INF", "-.inf", "-.Inf", "-.INF"].map ascii := by decide +kernel
  cases h with
  | nan h _ => exact sub _ (by simp) s h
  | inf h _ => exact sub _ (by simp) s h
  | ninf h _ => exact sub _ (by simp) s h

theorem literal_head {u : Bytes} {n : Nat} (h : Literal u n) : ∃ c r, u = c :: r ∧ 48 ≤ c ∧ c ≤ 57 := by
  cases h with
  | zero => exact ⟨48, _, rfl, by decide⟩
  | decimal h1 h2 =>
    obtain ⟨c, r, d, rfl, hd⟩ := Conf.litDigits_head h1
    have := Conf.Yaml.digitOf_isDig (by omega) hd
    exact ⟨c, r, rfl, by simpa [Conf.Yaml.isDig] using this⟩
  | octal _ _ => exact ⟨48, _, rfl, by decide⟩
  | based _ _ _ => exact ⟨48, _, rfl, by decide⟩

theorem dot_int {t : Bytes} {i : Int} (h : IntOk (46 :: t) i) : False := by
  obtain ⟨neg, u, n, hs, hl, -⟩ := intOk_sign h
  obtain ⟨c, r, rfl, hc⟩ := literal_head hl
  cases hs
  exact absurd hc (by decide)

theorem inside_text {s : Bytes} {z : Int} {x : F64} (h : Conf.Yaml.SignInside s z) (hx : Text s x) : False := by
  obtain ⟨p, base, g, t, n, hp, rfl, -⟩ := h
  obtain ⟨hex, n, f, y, hb⟩ := text_num .none (by decide) hx
  have hp' : p = 98 ∨ p = 111 := by simp at hp; rcases hp with ⟨h, -⟩ | ⟨h, -⟩ <;> simp [h]
  cases hex with
  | false =>
    have := body_decBytes hb p (by simp)
    rcases hp' with rfl | rfl <;> exact absurd this (by decide)
  | true =>
    generalize hg : 48 :: p :: g :: t = v at hb
    cases hb with
    | @hex p' u m n f e x hq hu hm he =>
      have e1 : p = p' := (List.cons.inj (List.cons.inj hg).2).1
      subst e1
      rcases hp' with rfl | rfl <;> rcases hq with h | h <;> exact absurd h (by decide)

theorem stores_float {L : Lib} {s : Bytes} {r : Res} {y : Int} (h : Stores L s .float64 r y) : (∃ i, r = .int i ∧ y = L.ofInt i) ∨ r = .float y := by
  cases h with
  | ofInt => exact .inl ⟨_, rfl, rfl⟩
  | float => exact .inr rfl
  | int h _ => simp at h
  | whole h _ => simp at h
  | uint h _ => simp at h
  | wholeU h _ => simp at h

theorem code_iff {x y : F64} (hx : x.mag < 2 ^ 63) (hy : y.mag < 2 ^ 63) : code x = code y ↔ x = y := ⟨code_inj hx hy, fun h => h ▸ rfl⟩

theorem ofInt_mag {i : Int} {s : Bytes} (h : IntOk s i) : (ofInt i).mag < 2 ^ 63 := by
  obtain ⟨neg, u, n, -, -, rfl, hn⟩ := intOk_sign h
  have h1 : mag 10 n 0 < infMag := mag_range (by omega)
  have : (ofInt (if neg then -(n : Int) else n)).mag = mag 10 n 0 := by unfold ofInt; cases neg <;> simp
  rw [this]
  unfold infMag at h1
  omega

/-- **C109** for float64: a text that a yaml file and a flag accept means the same in both, except integers that begin with a zero, which yaml takes for
octal numbers, from eight on, and minus zero. -/
theorem C109_float_partial (L : Lib) (wildI wildU : F64 → Int) (str : Bool) (s : Bytes) (y z : Int)
    (h1 : conv (lib L wildI wildU) .float64 (scalarRes (lib L wildI wildU) str s) s = some y) (h2 : goPv L.str codeFlt .float64 s = some z) :
    y = z ↔ ∀ i, IntOk (plain s) i → ¬ (Octal (plain s) ∧ 8 ≤ i.natAbs) ∧ ¬ (i = 0 ∧ (plain s).head? = some 45) := by
  obtain ⟨r, hm, hst⟩ := (Conf.Yaml.C117_stored (lib_names L wildI wildU) str s .float64 y).1 h1
  obtain ⟨x, hx, rfl⟩ := (C119_field L.str s z).1 h2
  have hp := text_plain hx
  have same : ∀ {y' : F64}, Text s y' ∨ Text (plain s) y' → code y' = code x := by
    rintro y' (h | h)
    · rw [C119_unique s y' x h hx]
    · rw [C119_unique _ y' x h hp]
  have hst' := stores_float hst
  have hm' : Means (lib L wildI wildU) s r := by
    rcases hm with ⟨-, rfl⟩ | ⟨-, hm | ⟨rfl, -⟩⟩
    · simp at hst'
    · exact hm
    · simp at hst'
  cases hm' with
  | word h =>
    exfalso
    have hr : ∃ q, r = .float q := by
      cases h with
      | true _ => simp at hst'
      | false _ => simp at hst'
      | null _ => simp at hst'
      | nan _ _ => exact ⟨_, rfl⟩
      | inf _ _ => exact ⟨_, rfl⟩
      | ninf _ _ => exact ⟨_, rfl⟩
    obtain ⟨q, rfl⟩ := hr
    have := (word_table s (word_float h)).1
    rw [(parse_iff s x).2 hx] at this
    simp at this
  | @dot t q _ hs hf =>
    obtain rfl : q = y := by simpa using hst'
    obtain ⟨x', hx', rfl⟩ := (codeFlt_iff s q).1 hf
    refine iff_of_true (same (.inl hx')) fun i hi => ?_
    rw [hs, plain_cons (by decide)] at hi
    exact (dot_int hi).elim
  | number _ _ hn =>
    cases hn with
    | time _ => simp at hst'
    | @int i _ hi =>
      obtain rfl : y = code (ofInt i) := by simpa [lib] using hst'
      rw [code_iff (ofInt_mag hi) (text_mag hx), eq_comm, int_float (Conf.Yaml.plain_no s) hi hp]
      constructor
      · intro h j hj
        rw [Conf.Yaml.intOk_unique hj hi]; exact h
      · intro h; exact h i hi
    | @float q _ hno _ hf =>
      obtain rfl : q = y := by simpa using hst'
      obtain ⟨x', hx', rfl⟩ := (codeFlt_iff _ q).1 hf
      exact iff_of_true (same (.inr hx')) fun i hi => absurd hi (hno i)
    | inside _ hi => exact (inside_text hi hp).elim

def noWild : F64 → Int := fun _ => 0

theorem scalar_lib (L : Lib) (wildI wildU : F64 → Int) {s : Bytes} (h : Conf.Yaml.stampLike s = false) :
    scalarRes (lib L wildI wildU) false s = scalarRes (lib Conf.Yaml.exLib noWild noWild) false s := by
  unfold scalarRes Conf.Yaml.resolve Conf.Yaml.resolveMap
  simp only [h, Bool.false_and]
  rfl

/-- `010` is ten for a flag and eight in a yaml file; `-0` is minus zero for a flag and zero in a yaml file.  `0.5`, `1_0.5` and `07` are the same. -/
theorem C109_float_violated (L : Lib) (wildI wildU : F64 → Int) :
    (conv (lib L wildI wildU) .float64 (scalarRes (lib L wildI wildU) false (ascii "010")) (ascii "010") = some (code ⟨false, 4620693217682128896⟩) ∧
      goPv L.str codeFlt .float64 (ascii "010") = some (code ⟨false, 4621819117588971520⟩)) ∧
    (conv (lib L wildI wildU) .float64 (scalarRes (lib L wildI wildU) false (ascii "-0")) (ascii "-0") = some (code ⟨false, 0⟩) ∧
      goPv L.str codeFlt .float64 (ascii "-0") = some (code ⟨true, 0⟩)) ∧
    ∀ s ∈ ["0.5", "1_0.5", "07", "-7", "1e400"].map ascii,
      conv (lib L wildI wildU) .float64 (scalarRes (lib L wildI wildU) false s) s = goPv L.str codeFlt .float64 s := by
  have key : ∀ s, Conf.Yaml.stampLike s = false → conv (lib L wildI wildU) .float64 (scalarRes (lib L wildI wildU) false s) s =
      conv (lib Conf.Yaml.exLib noWild noWild) .float64 (scalarRes (lib Conf.Yaml.exLib noWild noWild) false s) s := by
    intro s h
    rw [scalar_lib L wildI wildU h]
    rfl
  have key2 : ∀ s, goPv L.str codeFlt .float64 s = codeFlt s := fun _ => rfl
  have tab : ∀ s ∈ ["0.5", "1_0.5", "07", "-7", "1e400"].map ascii, Conf.Yaml.stampLike s = false ∧
      conv (lib Conf.Yaml.exLib noWild noWild) .float64 (scalarRes (lib Conf.Yaml.exLib noWild noWild) false s) s = codeFlt s := by decide +kernel
  simp only [key2]
  refine ⟨⟨?_, by decide +kernel⟩, ⟨?_, by decide +kernel⟩, fun s hs => ?_⟩
  · rw [key _ (by decide +kernel)]; decide +kernel
  · rw [key _ (by decide +kernel)]; decide +kernel
  · rw [key _ (tab s hs).1]; exact (tab s hs).2

end Gears.Strconv
