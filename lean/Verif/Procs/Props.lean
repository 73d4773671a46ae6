import Verif.Procs.Model

/-
C67 and C68.
-/

namespace Gears.Procs

/-! ## Decimal integers -/

/-- The value of a string of digits. -/
inductive Digits : Bytes → Nat → Prop
  | nil : Digits [] 0
  | snoc {s : Bytes} {n : Nat} (d : Nat) (hd : d < 10) (h : Digits s n) : Digits (s ++ [UInt8.ofNat (48 + d)]) (10 * n + d)

/-- Decimal integers: an optional sign and at least one digit. -/
inductive Decimal : Bytes → Int → Prop
  | plain {s : Bytes} {n : Nat} (h : Digits s n) (hs : s ≠ []) : Decimal s n
  | plus {s : Bytes} {n : Nat} (h : Digits s n) (hs : s ≠ []) : Decimal (43 :: s) n
  | minus {s : Bytes} {n : Nat} (h : Digits s n) (hs : s ≠ []) : Decimal (45 :: s) (-n)

theorem all_bytes {P : UInt8 → Prop} (h : ∀ i : Fin 256, P (UInt8.ofFin i)) (b : UInt8) : P b := by
  have := h b.toFin
  simpa using this

def isDigit (c : UInt8) : Bool := 48 ≤ c && c ≤ 57

/-- The digits evaluated from the left. -/
def horner (n : Nat) : Bytes → Nat
  | [] => n
  | c :: l => horner (10 * n + (c - 48).toNat) l

theorem horner_snoc (l : Bytes) (c : UInt8) : ∀ n, horner n (l ++ [c]) = 10 * horner n l + (c - 48).toNat := by
  induction l with
  | nil => intro n; rfl
  | cons a l ih => intro n; exact ih _

theorem digit_of (d : Nat) (hd : d < 10) : isDigit (UInt8.ofNat (48 + d)) = true ∧ (UInt8.ofNat (48 + d) - 48).toNat = d := by
  have : d = 0 ∨ d = 1 ∨ d = 2 ∨ d = 3 ∨ d = 4 ∨ d = 5 ∨ d = 6 ∨ d = 7 ∨ d = 8 ∨ d = 9 := by omega
  rcases this with rfl | rfl | rfl | rfl | rfl | rfl | rfl | rfl | rfl | rfl <;> decide

theorem of_digit : ∀ c : UInt8, isDigit c = true → (c - 48).toNat < 10 ∧ c = UInt8.ofNat (48 + (c - 48).toNat) :=
  all_bytes (by decide +kernel)

theorem digits_iff (s : Bytes) (n : Nat) : Digits s n ↔ s.all isDigit = true ∧ horner 0 s = n := by
  constructor
  · intro h
    induction h with
    | nil => exact ⟨rfl, rfl⟩
    | snoc d hd h ih =>
      obtain ⟨h1, h2⟩ := ih
      obtain ⟨g1, g2⟩ := digit_of d hd
      rw [List.all_append, h1, horner_snoc, h2, g2, List.all_cons, g1]
      exact ⟨rfl, rfl⟩
  · rintro ⟨h1, rfl⟩
    have : ∀ k (s : Bytes), s.length = k → s.all isDigit = true → Digits s (horner 0 s) := by
      intro k
      induction k with
      | zero =>
        intro s hs _
        rw [List.length_eq_zero_iff] at hs
        subst hs
        exact .nil
      | succ k ih =>
        intro s hs h
        rcases List.eq_nil_or_concat s with rfl | ⟨l, c, rfl⟩
        · simp at hs
        · simp at hs
          rw [List.concat_eq_append] at h ⊢
          rw [List.all_append] at h
          simp only [List.all_cons, List.all_nil, Bool.and_true, Bool.and_eq_true] at h
          obtain ⟨g1, g2⟩ := of_digit c h.2
          rw [horner_snoc]
          have := Digits.snoc _ g1 (ih l hs h.1)
          rw [← g2] at this
          exact this
    exact this _ s rfl h1

theorem fast_digit : ∀ c : UInt8, (c - 48 > 9) ↔ isDigit c = false := all_bytes (by decide +kernel)

theorem wrap_of {x : Int} (h1 : -2 ^ 63 ≤ x) (h2 : x < 2 ^ 63) : wrap x = x := by
  unfold wrap; omega

theorem horner_bound (l : Bytes) (hl : l.all isDigit = true) : ∀ n, horner n l < (n + 1) * 10 ^ l.length := by
  induction l with
  | nil => intro n; simp [horner]
  | cons c l ih =>
    intro n
    simp only [List.all_cons, Bool.and_eq_true] at hl
    have h1 := (of_digit c hl.1).1
    have h2 := ih hl.2 (10 * n + (c - 48).toNat)
    simp only [horner, List.length_cons, Nat.pow_succ]
    refine Nat.lt_of_lt_of_le h2 ?_
    rw [show (n + 1) * (10 ^ l.length * 10) = (10 * n + 10) * 10 ^ l.length by
      rw [Nat.mul_comm (10 ^ l.length), ← Nat.mul_assoc]; congr 1; omega]
    exact Nat.mul_le_mul_right _ (by omega)

theorem horner_mono (l : Bytes) : ∀ n, n ≤ horner n l := by
  induction l with
  | nil => intro n; exact Nat.le_refl _
  | cons c l ih => intro n; simp only [horner]; have := ih (10 * n + (c - 48).toNat); omega

theorem atoiFast_eq (l : Bytes) : ∀ n : Nat, (n + 1) * 10 ^ l.length ≤ 2 ^ 63 →
    atoiFast n l = if l.all isDigit then some (horner n l : Int) else none := by
  induction l with
  | nil => intro n _; rfl
  | cons c l ih =>
    intro n hb
    simp only [atoiFast]
    by_cases hc : isDigit c = true
    · have hc' : ¬ (c - 48 > 9) := fun h => by rw [(fast_digit c).1 h] at hc; simp at hc
      have hd := (of_digit c hc).1
      have h1 : (10 * n + (c - 48).toNat + 1) * 10 ^ l.length ≤ 2 ^ 63 := by
        refine Nat.le_trans (Nat.mul_le_mul_right _ (?_ : _ ≤ 10 * n + 10)) ?_
        · omega
        · rw [List.length_cons, Nat.pow_succ] at hb
          rw [show (10 * n + 10) * 10 ^ l.length = (n + 1) * (10 ^ l.length * 10) by
            rw [Nat.mul_comm (10 ^ l.length), ← Nat.mul_assoc]; congr 1; omega]
          exact hb
      have h2 : 10 * n + (c - 48).toNat + 1 ≤ 2 ^ 63 :=
        Nat.le_trans (Nat.le_mul_of_pos_right _ (Nat.pow_pos (by decide))) h1
      have hw : wrap ((n : Int) * 10 + (c - 48).toNat) = ((10 * n + (c - 48).toNat : Nat) : Int) := by
        rw [wrap_of (by omega) (by omega)]; omega
      have hall : (c :: l).all isDigit = l.all isDigit := by simp [hc]
      rw [if_neg hc', hw, ih _ h1]
      simp only [horner, hall]
    · have hc : isDigit c = false := by simpa using hc
      have hall : (c :: l).all isDigit = false := by simp [hc]
      rw [if_pos ((fast_digit c).2 hc)]
      simp [hall]

theorem isDigit_iff (c : UInt8) : isDigit c = true ↔ 48 ≤ c ∧ c ≤ 57 := by simp [isDigit]

theorem parseUintLoop_eq (l : Bytes) : ∀ n : Nat, n < 2 ^ 64 →
    parseUintLoop n l = if l.all isDigit = true ∧ horner n l < 2 ^ 64 then some (horner n l) else none := by
  induction l with
  | nil => intro n hn; simp [parseUintLoop, horner, hn]
  | cons c l ih =>
    intro n hn
    simp only [parseUintLoop]
    by_cases hc : isDigit c = true
    · have hd := (of_digit c hc).1
      have hm := horner_mono l (10 * n + (c - 48).toNat)
      have hall : (c :: l).all isDigit = l.all isDigit := by simp [hc]
      rw [if_pos ((isDigit_iff c).1 hc)]
      simp only [horner, hall]
      generalize (c - 48).toNat = d at *
      split
      · rename_i h
        rw [if_neg]
        rintro ⟨-, h2⟩
        omega
      · rename_i h
        split
        · rename_i h1
          rw [if_neg]
          rintro ⟨-, h2⟩
          omega
        · rename_i h1
          have : (n * 10 % 2 ^ 64 + d) % 2 ^ 64 = 10 * n + d := by omega
          rw [this]
          exact ih _ (by omega)
    · have hc' := fun h => hc ((isDigit_iff c).2 h)
      have hc : isDigit c = false := by simpa using hc
      have hall : (c :: l).all isDigit = false := by simp [hc]
      rw [if_neg hc']
      simp [hall]

/-- What `Atoi` makes of what is left after the sign. -/
def signed (neg : Bool) (l : Bytes) : Int := if neg then -(horner 0 l : Int) else horner 0 l

theorem takeSign_spec (s : Bytes) (z : Int) : Decimal s z ↔
    (takeSign s).2 ≠ [] ∧ (takeSign s).2.all isDigit = true ∧ z = signed (takeSign s).1 (takeSign s).2 := by
  have hns : isDigit 43 = false ∧ isDigit 45 = false := by decide
  unfold takeSign
  split
  · rename_i l
    simp only [signed, if_true]
    constructor
    · intro h
      cases h with
      | plain h hs => rw [digits_iff, List.all_cons, hns.2] at h; simp at h
      | minus h hs => rw [digits_iff] at h; exact ⟨hs, h.1, by rw [h.2]⟩
    · rintro ⟨h1, h2, rfl⟩
      exact .minus ((digits_iff _ _).2 ⟨h2, rfl⟩) h1
  · rename_i l
    simp only [signed, Bool.false_eq_true, if_false]
    constructor
    · intro h
      cases h with
      | plain h hs => rw [digits_iff, List.all_cons, hns.1] at h; simp at h
      | plus h hs => rw [digits_iff] at h; exact ⟨hs, h.1, by rw [h.2]⟩
    · rintro ⟨h1, h2, rfl⟩
      exact .plus ((digits_iff _ _).2 ⟨h2, rfl⟩) h1
  · rename_i n1 n2
    simp only [signed, Bool.false_eq_true, if_false]
    constructor
    · intro h
      cases h with
      | plain h hs => rw [digits_iff] at h; exact ⟨hs, h.1, by rw [h.2]⟩
      | plus h hs => exact absurd rfl (n2 _)
      | minus h hs => exact absurd rfl (n1 _)
    · rintro ⟨h1, h2, rfl⟩
      exact .plain ((digits_iff _ _).2 ⟨h2, rfl⟩) h1

theorem takeSign_length (s : Bytes) : (takeSign s).2.length ≤ s.length := by
  unfold takeSign
  split <;> simp

/-- `Atoi` succeeds exactly for the decimal integers of 64 bits. -/
theorem atoi_iff (s : Bytes) (z : Int) : atoi s = some z ↔ Decimal s z ∧ -2 ^ 63 ≤ z ∧ z < 2 ^ 63 := by
  rw [takeSign_spec]
  have hlen := takeSign_length s
  unfold atoi
  split
  · rename_i h
    have hl : (takeSign s).2.length ≤ 18 := by omega
    have hb : (0 + 1) * 10 ^ (takeSign s).2.length ≤ 2 ^ 63 := by
      have : 10 ^ (takeSign s).2.length ≤ 10 ^ 18 := Nat.pow_le_pow_right (by decide) hl
      have : 10 ^ 18 ≤ 2 ^ 63 := by decide
      omega
    generalize hts : takeSign s = p at *
    obtain ⟨neg, l⟩ := p
    simp only at *
    split
    · rename_i h0
      have : l = [] := List.length_eq_zero_iff.1 (by omega)
      simp [this]
    · rename_i h0
      have hne : l ≠ [] := by rintro rfl; simp at h0
      have hf := atoiFast_eq l 0 hb
      rw [show ((0 : Nat) : Int) = 0 from rfl] at hf
      rw [hf]
      by_cases hd : l.all isDigit = true
      · have hv := horner_bound l hd 0
        have hv' : horner 0 l < 2 ^ 63 := by omega
        have hw : (if neg = true then wrap (-(horner 0 l : Int)) else (horner 0 l : Int)) = signed neg l := by
          unfold signed
          cases neg
          · rfl
          · simp only [if_true]; exact wrap_of (by omega) (by omega)
        rw [if_pos hd, Option.map_some, hw]
        have hr : -2 ^ 63 ≤ signed neg l ∧ signed neg l < 2 ^ 63 := by unfold signed; split <;> omega
        simp only [Option.some.injEq, hd, hne, ne_eq, not_false_eq_true, true_and]
        constructor
        · rintro rfl; exact ⟨rfl, hr⟩
        · rintro ⟨rfl, -⟩; rfl
      · rw [if_neg hd]; simp [hd]
  · rename_i h
    unfold parseInt
    split
    · rename_i h0
      subst h0
      simp [takeSign]
    · rename_i h0
      generalize hts : takeSign s = p at *
      obtain ⟨neg, l⟩ := p
      simp only at *
      unfold parseUint
      by_cases hl : l = []
      · simp [hl]
      · rw [if_neg hl, parseUintLoop_eq l 0 (by decide)]
        by_cases hd : l.all isDigit = true
        · by_cases hr : horner 0 l < 2 ^ 64
          · rw [if_pos ⟨hd, hr⟩]
            simp only [hl, hd, ne_eq, not_false_eq_true, true_and]
            cases neg
            · simp only [Bool.not_false, true_and, Bool.false_eq_true, false_and, if_false, signed]
              split
              · rename_i h1
                constructor
                · simp
                · rintro ⟨rfl, -, h3⟩; omega
              · rename_i h1
                rw [wrap_of (by omega) (by omega), Option.some.injEq]
                constructor
                · rintro rfl; omega
                · rintro ⟨rfl, -⟩; rfl
            · simp only [Bool.not_true, Bool.false_eq_true, false_and, true_and, if_false, signed, if_true]
              split
              · rename_i h1
                constructor
                · simp
                · rintro ⟨rfl, h3, -⟩; omega
              · rename_i h1
                have : wrap (-wrap (horner 0 l : Int)) = -(horner 0 l : Int) := by unfold wrap; omega
                rw [this, Option.some.injEq]
                constructor
                · rintro rfl; omega
                · rintro ⟨rfl, -⟩; rfl
          · rw [if_neg (fun h => hr h.2)]
            constructor
            · simp
            · rintro ⟨⟨-, -, rfl⟩, h3, h4⟩
              exfalso
              unfold signed at h3 h4
              cases neg <;> simp only [Bool.false_eq_true, if_false, if_true] at h3 h4 <;> omega
        · rw [if_neg (fun h => hd h.1)]
          constructor
          · simp
          · rintro ⟨⟨-, h2, -⟩, -⟩; exact absurd h2 hd

/-! ## C67 -/

/-- The bounds of an int processor. -/
def IntProc.InBounds (i : IntProc) (z : Int) : Prop :=
  (if i.minInclude then i.min ≤ z else i.min < z) ∧ (if i.maxInclude then z ≤ i.max else z < i.max)

/-- **C67** (Int).  The bounds are of type int. -/
theorem C67_int (i : IntProc) (h1 : -2 ^ 63 ≤ i.min) (h2 : i.max < 2 ^ 63) (v : Bytes) :
    (i.validate v = none ↔ ∃ z, Decimal v z ∧ i.InBounds z) ∧
    (∀ z, i.validate v = none → Decimal v z → IntProc.convert v = z) := by
  have hval : i.validate v = none ↔ ∃ z, atoi v = some z ∧ i.InBounds z := by
    unfold IntProc.validate
    cases ha : atoi v with
    | none => simp
    | some z =>
      simp only [Option.some.injEq, exists_eq_left', IntProc.InBounds]
      cases i.minInclude <;> cases i.maxInclude <;> simp <;> (repeat' split) <;> simp <;> omega
  constructor
  · rw [hval]
    constructor
    · rintro ⟨z, hz, hb⟩
      exact ⟨z, ((atoi_iff v z).1 hz).1, hb⟩
    · rintro ⟨z, hz, hb⟩
      refine ⟨z, (atoi_iff v z).2 ⟨hz, ?_⟩, hb⟩
      unfold IntProc.InBounds at hb
      obtain ⟨g1, g2⟩ := hb
      split at g1 <;> split at g2 <;> omega
  · intro z hv hz
    obtain ⟨z', hz', -⟩ := hval.1 hv
    have h3 := ((atoi_iff v z').1 hz').1
    rw [takeSign_spec] at h3 hz
    rw [IntProc.convert, hz', h3.2.2, hz.2.2]
    rfl

/-- The predefined processors `Int`, `IntGtZero`, `IntGtEqZero`. -/
theorem C67_int_predefined (v : Bytes) :
    (intProc.validate v = none ↔ ∃ z, Decimal v z ∧ -2 ^ 31 ≤ z ∧ z ≤ 2 ^ 31 - 1) ∧
    (intGtZero.validate v = none ↔ ∃ z, Decimal v z ∧ 0 < z ∧ z ≤ 2 ^ 31 - 1) ∧
    (intGtEqZero.validate v = none ↔ ∃ z, Decimal v z ∧ 0 ≤ z ∧ z ≤ 2 ^ 31 - 1) :=
  ⟨(C67_int intProc (by decide) (by decide) v).1, (C67_int intGtZero (by decide) (by decide) v).1,
    (C67_int intGtEqZero (by decide) (by decide) v).1⟩

/-- **C67** (Bool). -/
theorem C67_bool (v : Bytes) : (boolValidate v = none ↔ v = ascii "true" ∨ v = ascii "false") ∧
    (boolConvert v = true ↔ v ∈ [ascii "true", ascii "True", ascii "TRUE", ascii "t", ascii "T", ascii "1"]) := by
  refine ⟨?_, ?_⟩
  case refine_2 =>
    have hm : v ∈ ["1", "t", "T", "true", "TRUE", "True"].map ascii ↔
        v ∈ [ascii "true", ascii "True", ascii "TRUE", ascii "t", ascii "T", ascii "1"] := by
      simp only [List.map_cons, List.map_nil, List.mem_cons, List.not_mem_nil, or_false]
      constructor <;> (rintro (h | h | h | h | h | h) <;> simp [h])
    unfold boolConvert parseBool
    split
    · rename_i h; simpa using hm.1 h
    · rename_i h
      have : v ∉ [ascii "true", ascii "True", ascii "TRUE", ascii "t", ascii "T", ascii "1"] := fun hx => h (hm.2 hx)
      split <;> simpa using this
  unfold boolValidate
  by_cases h1 : v = ascii "true"
  · simp [h1]
  · by_cases h2 : v = ascii "false"
    · simp [h2]
    · simp [h1, h2]

/-- **C67** (String). -/
theorem C67_string (lo hi : Int) (v : Bytes) : (stringValidate lo hi v = none ↔ lo ≤ v.length ∧ (v.length : Int) ≤ hi) ∧
    stringConvert v = v := by
  refine ⟨?_, rfl⟩
  unfold stringValidate
  split
  · rename_i h; simp only [true_iff]; exact h
  · rename_i h; simp [h]

theorem enumMap_eq (enums : List Bytes) (v : Bytes) : enumMap enums v = true ↔ v ∈ enums := by
  have : ∀ (m : Bytes → Bool), enums.foldl (fun m e => fun x => if x = e then true else m x) m v = true ↔
      v ∈ enums ∨ m v = true := by
    induction enums with
    | nil => intro m; simp
    | cons e l ih =>
      intro m
      rw [List.foldl_cons, ih, List.mem_cons]
      by_cases h : v = e <;> simp [h]
  unfold enumMap
  rw [this]
  simp

/-- **C67** (Enum). -/
theorem C67_enum (enums : List Bytes) (v : Bytes) : enumValidate (enumMap enums) v = none ↔ v ∈ enums := by
  unfold enumValidate
  rw [← enumMap_eq]
  cases enumMap enums v <;> simp

/-- **C67** (the others).  What the parser accepts is valid and converted to what the parser returns. -/
theorem C67_parsed {T : Type} (p : ParseProc T) (v : Bytes) :
    (p.validate v = none ↔ (p.emptyOk ∧ v = []) ∨ ∃ x, p.parse v = .ok x) ∧
    (¬ (p.emptyOk ∧ v = []) → ∀ x, p.parse v = .ok x → p.convert v = some x) ∧
    (p.emptyOk ∧ v = [] → p.convert v = none) := by
  unfold ParseProc.validate ParseProc.convert
  by_cases h : p.emptyOk ∧ v = []
  · simp [h]
  · simp only [h, if_false, false_or]
    cases p.parse v <;> simp

example : intProc.validate (ascii "-2147483648") = none ∧ IntProc.convert (ascii "+0042") = 42 ∧
    intProc.validate (ascii "2147483648") ≠ none ∧ intProc.validate (ascii "9223372036854775808") ≠ none ∧
    intProc.validate (ascii "") ≠ none ∧ intProc.validate (ascii "1_0") ≠ none ∧ intGtZero.validate (ascii "0") ≠ none ∧
    intProc.validate (ascii "-") ≠ none ∧ atoi (ascii "-9223372036854775808") = some (-9223372036854775808) ∧
    atoi (ascii "18446744073709551617") = none := by decide

example : Decimal (ascii "-12") (-12) :=
  .minus (s := ascii "12") (n := 12) (Digits.snoc (n := 1) 2 (by decide) (Digits.snoc (n := 0) 1 (by decide) .nil)) (by decide)

/-! ## C68 -/

/-- `#` followed by six hex digits. -/
def CssHex (v : Bytes) : Prop := ∃ ds : Bytes, v = 35 :: ds ∧ ds.length = 6 ∧ ∀ d ∈ ds, d ∈ ascii "0123456789abcdefABCDEF"

theorem isHex_iff : ∀ c : UInt8, isHex c = true ↔ c ∈ ascii "0123456789abcdefABCDEF" := all_bytes (by decide +kernel)

theorem hexHere_iff (v : Bytes) : hexHere v = true ↔ ∃ m b, v = m ++ b ∧ CssHex m := by
  cases v with
  | nil => simp [hexHere, CssHex]
  | cons c l =>
    simp only [hexHere, Bool.and_eq_true, decide_eq_true_eq]
    constructor
    · rintro ⟨⟨rfl, h1⟩, h2⟩
      refine ⟨35 :: l.take 6, l.drop 6, by simp, l.take 6, rfl, by simp; omega, ?_⟩
      rw [List.all_eq_true] at h2
      exact fun d hd => (isHex_iff d).1 (h2 d hd)
    · rintro ⟨m, b, h, ds, rfl, hl, hd⟩
      simp at h
      obtain ⟨rfl, rfl⟩ := h
      refine ⟨⟨rfl, by simp; omega⟩, ?_⟩
      rw [List.all_eq_true]
      intro d hd'
      rw [show (6 : Nat) = ds.length from hl.symm, List.take_left'  rfl] at hd'
      exact (isHex_iff d).2 (hd d hd')

theorem hexAnywhere_iff (v : Bytes) : hexAnywhere v = true ↔ ∃ a m b, v = a ++ m ++ b ∧ CssHex m := by
  induction v with
  | nil =>
    simp only [hexAnywhere]
    rw [hexHere_iff]
    constructor
    · rintro ⟨m, b, h⟩; exact ⟨[], m, b, h⟩
    · rintro ⟨a, m, b, h, hm⟩
      simp at h
      obtain ⟨rfl, rfl, rfl⟩ := h
      exact ⟨[], [], rfl, hm⟩
  | cons c l ih =>
    simp only [hexAnywhere, Bool.or_eq_true]
    rw [ih, hexHere_iff]
    constructor
    · rintro (⟨m, b, h, hm⟩ | ⟨a, m, b, h, hm⟩)
      · exact ⟨[], m, b, h, hm⟩
      · exact ⟨c :: a, m, b, by simp [h], hm⟩
    · rintro ⟨a, m, b, h, hm⟩
      cases a with
      | nil => exact .inl ⟨m, b, h, hm⟩
      | cons x a =>
        simp at h
        exact .inr ⟨a, m, b, by simp [h.2], hm⟩

/-- **C68** does not hold: the expression is not anchored. -/
theorem C68_violated : ∃ v, cssValidate v = none ∧ v ≠ [] ∧ ¬ CssHex v := by
  refine ⟨ascii "x#12345678", by decide, by decide, ?_⟩
  rintro ⟨ds, h, -⟩
  have := congrArg List.head? h
  simp [ascii] at this

/-- **C68**, what holds: accepted are exactly the empty string and the strings that contain a css hex color. -/
theorem C68_partial (v : Bytes) : (cssValidate v = none ↔ v = [] ∨ ∃ a m b, v = a ++ m ++ b ∧ CssHex m) ∧
    (CssHex v → cssValidate v = none) := by
  have h : cssValidate v = none ↔ v = [] ∨ ∃ a m b, v = a ++ m ++ b ∧ CssHex m := by
    rw [← hexAnywhere_iff]
    unfold cssValidate
    by_cases hv : v = []
    · simp [hv]
    · cases hexAnywhere v <;> simp [hv]
  exact ⟨h, fun hc => h.2 (.inr ⟨[], v, [], by simp, hc⟩)⟩

example : cssValidate (ascii "#0aF9cB") = none ∧ cssValidate (ascii "#0aF9c") ≠ none := by decide

end Gears.Procs
