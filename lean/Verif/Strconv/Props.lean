import Verif.Strconv.Format
import Verif.Strconv.Digits
import Verif.Strconv.Unique
import Verif.Dto.Props

/-
C119: float64 values as texts: what flags, environment variables and JSON texts with floats mean, and how floats are written.
-/

namespace Gears.Strconv

open Gears.Str (Bytes natDigits itoa ascii)
open Gears.Conf (Kind goPv)

/-- **C119**: a text is accepted for a float64 exactly if it is one of the words for infinities and NaN or a floating-point literal of Go whose
value is in range, and the result is the float64 nearest to the value. -/
theorem C119_read (s : Bytes) (x : F64) : parseFloat s = some x ↔ Text s x := parse_iff s x

/-- Exponents of up to five digits are taken as they are. -/
theorem C119_exponent (y : Int) (h : -100000 < y ∧ y < 100000) : clipInt y = y := clip_id h

/-- No text means two things. -/
theorem C119_unique (s : Bytes) (x y : F64) (h : Text s x) (h' : Text s y) : x = y := by
  have h1 := (parse_iff s x).2 h
  have h2 := (parse_iff s y).2 h'
  rw [h1] at h2
  simpa using h2

/-- The code of a float64 in the model of package conf: its bits. -/
def code (x : F64) : Int := (if x.neg then 2 ^ 63 else 0) + x.mag

def codeFlt (s : Bytes) : Option Int := (parseFloat s).map code

/-- A float64 field that is set by a flag or by an environment variable. -/
theorem C119_field (str : Bytes → Int) (s : Bytes) (z : Int) : goPv str codeFlt .float64 s = some z ↔ ∃ x, Text s x ∧ z = code x := by
  show codeFlt s = some z ↔ _
  unfold codeFlt
  rw [Option.map_eq_some_iff]
  constructor
  · rintro ⟨x, h, rfl⟩
    exact ⟨x, (parse_iff s x).1 h, rfl⟩
  · rintro ⟨x, h, rfl⟩
    exact ⟨x, (parse_iff s x).2 h, rfl⟩

/-- Everything but infinities and NaN is written, with the fewest digits that read back as the same number, and as near to it as that allows. -/
theorem C119_write (x : F64) (t : Bytes) : fmtFloat x = some t ↔ x.mag < infMag ∧ ∃ m, t = (if x.neg then [45] else []) ++ m ∧ MagText x.mag m := by
  unfold fmtFloat
  by_cases h : infMag ≤ x.mag
  · rw [if_pos h]
    simp only [reduceCtorEq, false_iff]
    rintro ⟨h', -⟩
    omega
  · rw [if_neg h, Option.some.injEq]
    constructor
    · intro e
      exact ⟨by omega, magText x.mag, e.symm, magText_spec x.mag⟩
    · rintro ⟨-, m, rfl, hm⟩
      rw [(magText_spec x.mag).unique hm]

/-- What was written is a JSON number, and is read as the same float64. -/
theorem C119_roundtrip (x : F64) (t : Bytes) (h : fmtFloat x = some t) : Dto.NumText t ∧ parseFloat t = some x := ⟨fmt_num h, fmt_parse h⟩

/-- At most 17 digits are written. -/
theorem C119_digits (b d : Nat) (j : Int) (hb : b ≠ 0) (h : Shortest b d j) : d < 10 ^ 17 := shortest_17 hb h

/-- Different floats have different texts. -/
theorem C119_injective (x y : F64) (t : Bytes) (h : fmtFloat x = some t) (h' : fmtFloat y = some t) : x = y := by
  have h1 := fmt_parse h
  rw [fmt_parse h'] at h1
  simpa using h1.symm

/-! ## JSON -/

/-- Only finite numbers. -/
def jsonNum (s : Bytes) : Option F64 := (parseFloat s).bind fun x => if x.mag < infMag then some x else none

theorem numText_head {t : Bytes} (h : Dto.NumText t) : ∃ neg c r, Sign t neg (c :: r) ∧ 48 ≤ c ∧ c ≤ 57 := by
  obtain ⟨sign, int, frac, exp, rfl, hs, hi, -, -⟩ := h
  have hint : ∃ c r, int = c :: r ∧ 48 ≤ c ∧ c ≤ 57 := by
    rcases hi with rfl | ⟨c, ds, rfl, h1, h2, -⟩
    · exact ⟨48, [], rfl, by decide, by decide⟩
    · refine ⟨c, ds, rfl, ?_, h2⟩
      have : (48 : UInt8) ≤ 49 := by decide
      exact UInt8.le_trans this h1
  obtain ⟨c, r, rfl, h1, h2⟩ := hint
  rcases hs with rfl | rfl
  · exact ⟨false, c, r ++ frac ++ exp, by simpa using Sign.none, h1, h2⟩
  · exact ⟨true, c, r ++ frac ++ exp, by simpa using Sign.minus, h1, h2⟩

theorem sign_start {s t : Bytes} {neg : Bool} {c : UInt8} {r : Bytes} (h : Sign s neg (c :: r)) (hc : 48 ≤ c ∧ c ≤ 57) {neg' : Bool} (h' : Sign s neg' t) :
    t = c :: r ∨ ∃ a, t = a :: c :: r ∧ (a = 43 ∨ a = 45) := by
  obtain ⟨h1, h2, -⟩ := head_table c (.inl hc)
  cases h with
  | none =>
    generalize hs : c :: r = s at h'
    cases h' with
    | none => exact .inl rfl
    | plus => simp at hs; exact absurd hs.1 h1
    | minus => simp at hs; exact absurd hs.1 h2
  | plus =>
    cases h' with
    | none => exact .inr ⟨43, rfl, .inl rfl⟩
    | plus => exact .inl rfl
  | minus =>
    cases h' with
    | none => exact .inr ⟨45, rfl, .inr rfl⟩
    | minus => exact .inl rfl

/-- JSON numbers are not names of infinities. -/
theorem num_finite {t : Bytes} {x : F64} (h : Dto.NumText t) (hx : parseFloat t = some x) : x.mag < infMag := by
  obtain ⟨neg, c, r, hs, h1, h2⟩ := numText_head h
  have hl : ∀ c : Fin 256, (48 ≤ UInt8.ofFin c ∧ UInt8.ofFin c ≤ 57) ∨ UInt8.ofFin c = 43 ∨ UInt8.ofFin c = 45 →
      low (UInt8.ofFin c) ≠ 105 ∧ low (UInt8.ofFin c) ≠ 110 := by decide +kernel
  have hword : ∀ {t'}, t' = c :: r ∨ (∃ a, t' = a :: c :: r ∧ (a = 43 ∨ a = 45)) → ∀ {p q}, t'.map low = p :: q → p ≠ 105 ∧ p ≠ 110 := by
    rintro t' (rfl | ⟨a, rfl, ha⟩) p q he
    · simp at he; rw [← he.1]; exact hl c.toFin (.inl ⟨h1, h2⟩)
    · simp at he; rw [← he.1]; exact hl a.toFin (.inr ha)
  have ei : ascii "inf" = 105 :: ascii "nf" := by decide
  have ey : ascii "infinity" = 105 :: ascii "nfinity" := by decide
  have en : ascii "nan" = 110 :: ascii "an" := by decide
  cases (parse_iff t x).1 hx with
  | nan h =>
    rw [en] at h
    exact absurd rfl (hword (sign_start hs ⟨h1, h2⟩ .none) h).2
  | inf h h' =>
    have hw := sign_start hs ⟨h1, h2⟩ h
    rcases h' with h' | h'
    · rw [ei] at h'; exact absurd rfl (hword hw h').1
    · rw [ey] at h'; exact absurd rfl (hword hw h').1
  | num _ _ _ h => exact h

theorem jsonNum_eq {t : Bytes} (h : Dto.NumText t) : jsonNum t = parseFloat t := by
  unfold jsonNum
  cases hx : parseFloat t with
  | none => rfl
  | some x => simp [num_finite h hx]

/-- The laws of floats that C102 and C104 assume. -/
theorem laws : Dto.FloatLaws fmtFloat jsonNum ofInt where
  num x t h := ⟨fmt_num h, by rw [jsonNum_eq (fmt_num h)]; exact fmt_parse h⟩
  int n h1 h2 := by rw [jsonNum_eq (Dto.itoa_num n)]; exact itoa_parse n h1 h2
  fin t x h := by
    unfold jsonNum at h
    rw [Option.bind_eq_some_iff] at h
    obtain ⟨y, -, h⟩ := h
    split at h
    · simp only [Option.some.injEq] at h
      subst h
      unfold fmtFloat
      rw [if_neg (by omega)]
      simp
    · simp at h

theorem spells_num {ts : List Dto.Tok} {b : Bytes} (h : Dto.Spells ts b) : ∀ t, .num t ∈ ts → Dto.NumText t := by
  induction h with
  | nil => simp
  | cons _ h _ ih =>
    intro t ht
    rcases List.mem_cons.1 ht with rfl | ht
    · exact h.1 ▸ h.2
    · exact ih t ht

theorem mem_commas {t : Dto.Tok} : ∀ {l : List (List Dto.Tok)} {u : List Dto.Tok}, u ∈ l → t ∈ u → t ∈ Dto.commas l
  | [a], u, hu, ht => by simp at hu; subst hu; exact ht
  | a :: b :: l, u, hu, ht => by
    rw [Dto.commas]
    rcases List.mem_cons.1 hu with rfl | hu
    · exact List.mem_append_left _ ht
    · exact List.mem_append_right _ (List.mem_cons_of_mem _ (mem_commas hu ht))

theorem means_congr {F : Type} {pf pf' : Bytes → Option F} {d : Nat} {v : Dto.G F} {ts : List Dto.Tok} (h : Dto.Means pf d v ts) :
    (∀ t, .num t ∈ ts → pf t = pf' t) → Dto.Means pf' d v ts := by
  induction h with
  | null => intro _; exact .null
  | true => intro _; exact .true
  | false => intro _; exact .false
  | str => intro _; exact .str
  | num h => intro hp; exact .num (by rw [← hp _ (by simp)]; exact h)
  | arr es _ ih =>
    intro hp
    refine .arr es fun e he => ih e he fun t ht => hp t ?_
    have := mem_commas (List.mem_map_of_mem (f := (·.2)) he) ht
    simp [this]
  | obj es _ hm ih =>
    intro hp
    refine .obj es (fun e he => ih e he fun t ht => hp t ?_) hm
    have := mem_commas (List.mem_map_of_mem (f := fun e : Bytes × Dto.G F × List Dto.Tok => .str e.1 :: .colon :: e.2.2) he)
      (List.mem_cons_of_mem _ (List.mem_cons_of_mem _ ht))
    simp [this]

theorem json_congr (b : Bytes) (v : Dto.G F64) : Dto.Json jsonNum b v ↔ Dto.Json parseFloat b v := by
  constructor
  · rintro ⟨ts, h1, h2⟩
    exact ⟨ts, h1, means_congr h2 fun t ht => jsonNum_eq (spells_num h1 t ht)⟩
  · rintro ⟨ts, h1, h2⟩
    exact ⟨ts, h1, means_congr h2 fun t ht => (jsonNum_eq (spells_num h1 t ht)).symm⟩

theorem unmarshal_congr (b : Bytes) : Dto.unmarshalM jsonNum b = Dto.unmarshalM parseFloat b := by
  cases h : Dto.unmarshalM parseFloat b with
  | none =>
    rw [Dto.C101_error] at h ⊢
    exact ⟨fun m hm => h.1 m ((json_congr b _).1 hm), fun hn => h.2 ((json_congr b _).1 hn)⟩
  | some r =>
    cases r with
    | none => rw [Dto.C101_null] at h ⊢; exact h
    | some m => rw [Dto.C101_partial] at h ⊢; exact (json_congr b _).2 h

/-- `MarshalM` and `UnmarshalM` with the floats of strconv: what is written reads as what it was exactly if it has only values of the types that
are read and is not too deep. -/
theorem C119_json {ord : List (Bytes × Bytes) → List (Bytes × Bytes)} (ho : Dto.Order ord) (m : List (Bytes × Dto.G F64)) (b : Bytes) (hc : Dto.Canon (.map m))
    (h : Dto.marshalM fmtFloat ord (some m) = some b) :
    Dto.unmarshalM parseFloat b = some (some m) ↔ Dto.Plain (.map m) ∧ Dto.depth (.map m) ≤ 10000 := by
  rw [← unmarshal_congr]
  exact Dto.C102_partial laws ho m b hc h

/-- What was read can be written, and reads the same again. -/
theorem C119_stable {ord : List (Bytes × Bytes) → List (Bytes × Bytes)} (ho : Dto.Order ord) (b : Bytes) (m : List (Bytes × Dto.G F64))
    (h : Dto.unmarshalM parseFloat b = some (some m)) :
    ∃ b', Dto.marshalM fmtFloat ord (some m) = some b' ∧ Dto.unmarshalM parseFloat b' = some (some m) := by
  rw [← unmarshal_congr] at h
  obtain ⟨b', h1, h2⟩ := Dto.C102_stable laws ho b m h
  exact ⟨b', h1, by rw [← unmarshal_congr]; exact h2⟩

/-! ## Integers -/

theorem mag_int {n : Nat} (h : n < 2 ^ 53) : V (mag 10 n 0) = n * 2 ^ 1074 := by
  rcases Nat.eq_zero_or_pos n with rfl | hn
  · rw [mag_zero]; unfold V; simp
  · have e : mag 10 n 0 = nearest (n * 2 ^ 1074) 1 := by unfold mag; simp
    rw [e]
    have hl : Nat.log2 n < 53 := (Nat.log2_lt hn.ne').2 h
    have hlo : 2 ^ Nat.log2 n ≤ n := Nat.log2_self_le hn.ne'
    have hhi : n < 2 ^ (Nat.log2 n + 1) := Nat.lt_log2_self
    generalize hk : Nat.log2 n = k at *
    have hlog : Nat.log2 (n * 2 ^ 1074) = k + 1074 := by
      rw [Nat.log2_eq_iff (by positivity)]
      constructor
      · rw [Nat.pow_add]; exact Nat.mul_le_mul_right _ hlo
      · rw [show k + 1074 + 1 = (k + 1) + 1074 by omega, Nat.pow_add]
        exact Nat.mul_lt_mul_of_pos_right hhi (pow_pos (by omega) _)
    unfold nearest
    rw [Nat.div_one, hlog]
    simp only [Nat.one_mul]
    have hsplit : (2 : Nat) ^ 1074 = 2 ^ (52 - k) * 2 ^ (k + 1074 - 52) := by rw [← Nat.pow_add, show 52 - k + (k + 1074 - 52) = 1074 by omega]
    have hexact : n * 2 ^ 1074 = n * 2 ^ (52 - k) * 2 ^ (k + 1074 - 52) := by rw [hsplit]; ring
    have hq1 : 4503599627370496 ≤ n * 2 ^ (52 - k) := by
      have : 2 ^ k * 2 ^ (52 - k) = 4503599627370496 := by rw [← Nat.pow_add, show k + (52 - k) = 52 by omega]
      rw [← this]; exact Nat.mul_le_mul_right _ hlo
    have hq2 : n * 2 ^ (52 - k) < 9007199254740992 := by
      have : 2 ^ (k + 1) * 2 ^ (52 - k) = 9007199254740992 := by rw [← Nat.pow_add, show k + 1 + (52 - k) = 53 by omega]
      rw [← this]; exact Nat.mul_lt_mul_of_pos_right hhi (by positivity)
    rw [hexact]
    generalize n * 2 ^ (52 - k) = q at *
    have he : 0 < 2 ^ (k + 1074 - 52) := by positivity
    rw [Nat.mul_mod_left, Nat.mul_div_cancel _ he, if_pos (by simpa using he)]
    generalize k + 1074 - 52 = e at *
    have h1 : (e * 4503599627370496 + q) / 4503599627370496 = e + 1 := by omega
    have h2 : (e * 4503599627370496 + q) % 4503599627370496 = q - 4503599627370496 := by omega
    unfold V
    rw [h1, h2, if_neg (by omega), Nat.add_sub_cancel, show 4503599627370496 + (q - 4503599627370496) = q by omega]

/-- An integer in a map that is written and read again is the float64 nearest to it: the same number if it is less than 2^53. -/
theorem C119_int (n : Int) (h1 : -2 ^ 63 ≤ n) (h2 : n < 2 ^ 64) : parseFloat (itoa n) = some (ofInt n) ∧ (ofInt n).neg = decide (n < 0) ∧
    Nearest ((n.natAbs : ℚ) * 2 ^ 1074) (ofInt n).mag ∧ (n.natAbs < 2 ^ 53 → num (ofInt n).mag = n.natAbs) := by
  refine ⟨itoa_parse n h1 h2, rfl, ?_, fun h => ?_⟩
  · have := (back_mag _ n.natAbs 0).1 rfl
    unfold Back at this
    rw [zpow_zero, mul_one] at this
    exact this
  · unfold num ofInt
    simp only
    rw [mag_int h]
    push_cast
    rw [mul_div_assoc, div_self two_pos.ne', mul_one]

/-! ## Examples -/

/-- 2^53 + 1 becomes 2^53. -/
example : (ofInt 9007199254740993) = ofInt 9007199254740992 ∧ parseFloat (ascii "0.1") = some ⟨false, 4591870180066957722⟩ ∧
    parseFloat (ascii "0x1.999999999999ap-4") = parseFloat (ascii "1_0e-2") ∧ parseFloat (ascii "-iNf") = some (.inf true) ∧
    parseFloat (ascii "1.7976931348623159e308") = none ∧ parseFloat (ascii "2e-324") = some ⟨false, 0⟩ ∧ parseFloat (ascii "3e-324") = some ⟨false, 1⟩ ∧
    parseFloat (ascii "0x1") = none ∧ parseFloat (ascii "1__0") = none ∧ parseFloat (ascii "+nan") = none ∧ parseFloat (ascii ".") = none ∧
    parseFloat (ascii "1.") = parseFloat (ascii "1") := by decide +kernel

example : shortest 4591870180066957722 = (1, -1) ∧ shortest 1 = (5, -324) ∧ shortest 9218868437227405311 = (17976931348623157, 292) ∧
    shortest 4607182418800017408 = (1, 0) := by decide +kernel

example : ∃ t, fmtFloat ⟨true, 4591870180066957722⟩ = some t ∧ parseFloat t = some ⟨true, 4591870180066957722⟩ := by
  have h := (C119_write ⟨true, 4591870180066957722⟩ _).2 ⟨by decide, magText 4591870180066957722, rfl, magText_spec _⟩
  exact ⟨_, h, (C119_roundtrip _ _ h).2⟩

end Gears.Strconv
