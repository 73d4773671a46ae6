import Verif.Conf.Full
import Verif.Duration.Props

/-
The texts of single values: the `Set` methods of package flag for the types bound in /repo/conf/env.go:49-72 and flag.go:50-73 (Go 1.17,
`strconv.IntSize` is 64), with `strconv.ParseUint(s, 0, 64)`, `strconv.ParseInt(s, 0, 64)` and `strconv.ParseBool`.
After an error the process exits (env.go:84-86, flag.go:80), so errors are one value, and what `Set` stores beside an error is not modelled.
-/

namespace Gears.Conf

open Gears.Str (ascii)

/-! ## Model -/

/-- `lower` (strconv/atoi.go) -/
def lowerByte (c : UInt8) : UInt8 := c ||| 0x20

/-- The value of a digit or letter. -/
def digitVal (c : UInt8) : Option Nat :=
  if 48 ≤ c ∧ c ≤ 57 then some (c.toNat - 48)
  else if 97 ≤ lowerByte c ∧ lowerByte c ≤ 122 then some ((lowerByte c).toNat - 97 + 10)
  else none

/-- The loop of `ParseUint` in uint64; with the flag `underscores`. -/
def uintLoop (base : Nat) : Nat → Bool → Bytes → Option (Nat × Bool)
  | n, us, [] => some (n, us)
  | n, us, c :: s =>
    if c = 95 then uintLoop base n true s
    else match digitVal c with
      | none => none
      | some d =>
        if d ≥ base then none
        else if n ≥ (2 ^ 64 - 1) / base + 1 then none
        else
          let n0 := n * base % 2 ^ 64
          let n1 := (n0 + d) % 2 ^ 64
          if n1 < n0 ∨ n1 > 2 ^ 64 - 1 then none else uintLoop base n1 us s

/-- `^`, `0`, `_`, `!` of `underscoreOK`. -/
inductive Saw where
  | start | digit | under | other
deriving DecidableEq

/-- The loop of `underscoreOK`. -/
def uokLoop (hex : Bool) : Saw → Bytes → Bool
  | saw, [] => saw ≠ .under
  | saw, c :: s =>
    if (48 ≤ c ∧ c ≤ 57) ∨ (hex = true ∧ 97 ≤ lowerByte c ∧ lowerByte c ≤ 102) then uokLoop hex .digit s
    else if c = 95 then (if saw ≠ .digit then false else uokLoop hex .under s)
    else if saw = .under then false
    else uokLoop hex .other s

/-- `underscoreOK` on a text without sign. -/
def underscoreOK : Bytes → Bool
  | 48 :: p :: s =>
    if lowerByte p = 98 ∨ lowerByte p = 111 ∨ lowerByte p = 120 then uokLoop (lowerByte p = 120) .digit s
    else uokLoop false .start (48 :: p :: s)
  | s => uokLoop false .start s

/-- The base and the digits (`ParseUint` with base 0). -/
def uintBase : Bytes → Nat × Bytes
  | 48 :: p :: c :: s =>
    if lowerByte p = 98 then (2, c :: s)
    else if lowerByte p = 111 then (8, c :: s)
    else if lowerByte p = 120 then (16, c :: s)
    else (8, p :: c :: s)
  | 48 :: s => (8, s)
  | s => (10, s)

/-- `strconv.ParseUint(s, 0, 64)` -/
def parseUint (s : Bytes) : Option Nat :=
  if s = [] then none
  else match uintLoop (uintBase s).1 0 false (uintBase s).2 with
    | none => none
    | some (n, us) => if us ∧ !underscoreOK s then none else some n

/-- `strconv.ParseInt(s, 0, 64)` -/
def parseInt0 : Bytes → Option Int
  | 43 :: s => (parseUint s).bind fun n => if n ≥ 2 ^ 63 then none else some n
  | 45 :: s => (parseUint s).bind fun n => if n > 2 ^ 63 then none else some (-n)
  | s => (parseUint s).bind fun n => if n ≥ 2 ^ 63 then none else some n

/-- `strconv.ParseBool` -/
def parseBool (s : Bytes) : Option Bool :=
  if s ∈ ["1", "t", "T", "true", "TRUE", "True"].map ascii then some true
  else if s ∈ ["0", "f", "F", "false", "FALSE", "False"].map ascii then some false
  else none

/-- The `Set` methods of package flag.  Strings and floats are coded by `str` and `flt`. -/
def goPv (str : Bytes → Int) (flt : Bytes → Option Int) : Kind → Bytes → Option Int
  | .bool, s => (parseBool s).map fun b => if b then 1 else 0
  | .float64, s => flt s
  | .int, s => parseInt0 s
  | .int64, s => parseInt0 s
  | .string, s => some (str s)
  | .uint, s => (parseUint s).map Int.ofNat
  | .uint64, s => (parseUint s).map Int.ofNat
  | .duration, s => Duration.parse s

/-! ## Specification: integer literals of Go -/

/-- The value of a digit of the given base. -/
def DigitOf (base : Nat) (c : UInt8) (d : Nat) : Prop := d < base ∧
  (48 ≤ c.toNat ∧ c.toNat ≤ 57 ∧ d = c.toNat - 48 ∨ 97 ≤ c.toNat ∧ c.toNat ≤ 102 ∧ d = c.toNat - 87 ∨ 65 ≤ c.toNat ∧ c.toNat ≤ 70 ∧ d = c.toNat - 55)

/-- `digits = digit { [ "_" ] digit }`; acc is the value of the digits before. -/
inductive LitDigits (base : Nat) : Nat → Bytes → Nat → Prop where
  | last {acc c d} : DigitOf base c d → LitDigits base acc [c] (acc * base + d)
  | next {acc c d t n} : DigitOf base c d → LitDigits base (acc * base + d) t n → LitDigits base acc (c :: t) n
  | sep {acc c d t n} : DigitOf base c d → LitDigits base (acc * base + d) t n → LitDigits base acc (c :: 95 :: t) n

def prefixes : List (UInt8 × Nat) := [(98, 2), (66, 2), (111, 8), (79, 8), (120, 16), (88, 16)]

/-- Integer literals of the Go language. -/
inductive Literal : Bytes → Nat → Prop where
  | zero : Literal [48] 0
  | decimal {t n} : LitDigits 10 0 t n → t.head? ≠ some 48 → Literal t n
  | octal {u t n} : u = [] ∨ u = [95] → LitDigits 8 0 t n → Literal (48 :: u ++ t) n
  | based {p base u t n} : (p, base) ∈ prefixes → u = [] ∨ u = [95] → LitDigits base 0 t n → Literal (48 :: p :: u ++ t) n

/-- With a sign. -/
def IntText (s : Bytes) (z : Int) : Prop := ∃ t n, Literal t n ∧ (s = t ∧ z = n ∨ s = 43 :: t ∧ z = n ∨ s = 45 :: t ∧ z = -n)

/-! ## Lemmas -/

theorem digitVal_iff (base : Nat) (hb : base ≤ 16) (c : UInt8) (d : Nat) : DigitOf base c d ↔ digitVal c = some d ∧ d < base := by
  have tab : ∀ i : Fin 256, ∀ d : Fin 16, (digitVal (UInt8.ofFin i) = some d.1 ↔
      (48 ≤ i.1 ∧ i.1 ≤ 57 ∧ d.1 = i.1 - 48 ∨ 97 ≤ i.1 ∧ i.1 ≤ 102 ∧ d.1 = i.1 - 87 ∨ 65 ≤ i.1 ∧ i.1 ≤ 70 ∧ d.1 = i.1 - 55)) := by decide +kernel
  have hc : c = UInt8.ofFin ⟨c.toNat, c.toNat_lt⟩ := by apply UInt8.toNat_inj.1; rfl
  constructor
  · rintro ⟨h1, h2⟩
    refine ⟨?_, h1⟩
    rw [hc]
    exact (tab ⟨c.toNat, c.toNat_lt⟩ ⟨d, by omega⟩).2 h2
  · rintro ⟨h1, h2⟩
    rw [hc] at h1
    exact ⟨h2, (tab ⟨c.toNat, c.toNat_lt⟩ ⟨d, by omega⟩).1 h1⟩

theorem digitOf_ne {base : Nat} {c : UInt8} {d : Nat} (h : DigitOf base c d) : c ≠ 95 := by
  rintro rfl
  obtain ⟨-, h⟩ := h
  have : (95 : UInt8).toNat = 95 := rfl
  omega

/-- Whether the underscores stand between digits (`b`: not allowed here). -/
def good : Bool → Bytes → Bool
  | b, [] => !b
  | b, c :: s => if c = 95 then (if b then false else good true s) else good false s

/-- The value of the digits, underscores left out. -/
def val (base : Nat) : Nat → Bytes → Option Nat
  | n, [] => some n
  | n, c :: s =>
    if c = 95 then val base n s
    else match digitVal c with
      | none => none
      | some d => if d < base then val base (n * base + d) s else none

theorem val_le {base : Nat} (hb : 0 < base) : ∀ {s : Bytes} {n m : Nat}, val base n s = some m → n ≤ m
  | [], n, m, h => by simp [val] at h; omega
  | c :: s, n, m, h => by
    unfold val at h
    split at h
    · exact val_le hb h
    · split at h
      · simp at h
      · split at h
        · have := val_le hb h
          have : n * 1 ≤ n * base := Nat.mul_le_mul_left n hb
          omega
        · simp at h

theorem uintLoop_iff {base : Nat} (hb : 2 ≤ base) (hb' : base ≤ 16) : ∀ (s : Bytes) (n : Nat) (us : Bool) (m : Nat) (us' : Bool), n < 2 ^ 64 →
    (uintLoop base n us s = some (m, us') ↔ val base n s = some m ∧ m < 2 ^ 64 ∧ us' = (us || decide (95 ∈ s)))
  | [], n, us, m, us', hn => by
    simp only [uintLoop, val, Option.some.injEq, Prod.mk.injEq, List.not_mem_nil, decide_false, Bool.or_false]
    constructor
    · rintro ⟨rfl, rfl⟩; exact ⟨rfl, hn, rfl⟩
    · rintro ⟨rfl, -, rfl⟩; exact ⟨rfl, rfl⟩
  | c :: s, n, us, m, us', hn => by
    unfold uintLoop val
    by_cases hc : c = 95
    · rw [if_pos hc, if_pos hc, uintLoop_iff hb hb' s n true m us' hn]
      subst hc
      simp
    · rw [if_neg hc, if_neg hc]
      have hmem : decide (95 ∈ c :: s) = decide (95 ∈ s) := by simp [Ne.symm hc]
      rw [hmem]
      cases digitVal c with
      | none => simp
      | some d =>
        simp only
        by_cases hd : d < base
        · rw [if_neg (by omega), if_pos hd]
          have hcut : n ≥ (2 ^ 64 - 1) / base + 1 ↔ 2 ^ 64 ≤ n * base := by
            have h1 := Nat.div_add_mod (2 ^ 64 - 1) base
            have h2 := Nat.mod_lt (2 ^ 64 - 1) (show base > 0 by omega)
            generalize (2 ^ 64 - 1) / base = q at h1 ⊢
            generalize (2 ^ 64 - 1) % base = r at h1 h2
            constructor
            · intro h
              have h3 : base * (q + 1) ≤ base * n := Nat.mul_le_mul_left base h
              rw [Nat.mul_add, Nat.mul_one] at h3
              rw [Nat.mul_comm n base]
              omega
            · intro h
              refine Nat.lt_of_not_le fun h' => ?_
              have h3 : base * n ≤ base * q := Nat.mul_le_mul_left base h'
              rw [Nat.mul_comm n base] at h
              omega
          by_cases hov : 2 ^ 64 ≤ n * base
          · rw [if_pos (hcut.2 hov)]
            simp only [reduceCtorEq, false_iff]
            rintro ⟨h1, h2, -⟩
            have := val_le (by omega) h1
            omega
          · rw [if_neg (fun h => hov (hcut.1 h))]
            have e0 : n * base % 2 ^ 64 = n * base := Nat.mod_eq_of_lt (by omega)
            rw [e0]
            by_cases hov2 : 2 ^ 64 ≤ n * base + d
            · rw [if_pos (.inl (by omega))]
              simp only [reduceCtorEq, false_iff]
              rintro ⟨h1, h2, -⟩
              have := val_le (by omega) h1
              omega
            · have e1 : (n * base + d) % 2 ^ 64 = n * base + d := Nat.mod_eq_of_lt (by omega)
              rw [e1, if_neg (by omega)]
              exact uintLoop_iff hb hb' s _ us m us' (by omega)
        · rw [if_pos (by omega), if_neg hd]
          simp

/-- Digits with underscores between them. -/
theorem litDigits_iff {base : Nat} (hb : base ≤ 16) : ∀ (t : Bytes) (acc n : Nat),
    LitDigits base acc t n ↔ good true t = true ∧ val base acc t = some n
  | [], acc, n => by
    simp only [good, Bool.not_true, Bool.false_eq_true, false_and, iff_false]
    intro h; cases h
  | [c], acc, n => by
    simp only [good, val]
    by_cases hc : c = 95
    · subst hc
      simp
      intro h
      cases h with
      | last h => exact digitOf_ne h rfl
      | next h _ => exact digitOf_ne h rfl
    · simp only [hc, if_false, Bool.not_false, true_and]
      constructor
      · intro h
        cases h with
        | last h => obtain ⟨h1, h2⟩ := (digitVal_iff base hb c _).1 h; rw [h1]; simp [h2]
        | next _ h => cases h
      · intro h
        cases hd : digitVal c with
        | none => rw [hd] at h; simp at h
        | some d =>
          rw [hd] at h
          simp at h
          obtain ⟨h1, rfl⟩ := h
          exact .last ((digitVal_iff base hb c d).2 ⟨hd, h1⟩)
  | c :: e :: t, acc, n => by
    have ih1 := litDigits_iff hb (e :: t)
    have ih2 := litDigits_iff hb t
    by_cases hc : c = 95
    · subst hc
      simp only [good, if_true, Bool.false_eq_true, false_and, iff_false]
      intro h
      cases h with
      | next h _ => exact digitOf_ne h rfl
      | sep h _ => exact digitOf_ne h rfl
    · have g1 : good true (c :: e :: t) = good false (e :: t) := by simp [good, hc]
      have v1 : val base acc (c :: e :: t) = match digitVal c with
          | none => none
          | some d => if d < base then val base (acc * base + d) (e :: t) else none := by
        rw [val, if_neg hc]
      rw [g1, v1]
      constructor
      · intro h
        cases h with
        | next hd h =>
          obtain ⟨h1, h2⟩ := (digitVal_iff base hb c _).1 hd
          obtain ⟨h3, h4⟩ := (ih1 _ n).1 h
          rw [h1]
          simp only [h2, if_true]
          refine ⟨?_, h4⟩
          unfold good at h3 ⊢
          split at h3
          · simp at h3
          · rename_i he; rw [if_neg he]; exact h3
        | sep hd h =>
          obtain ⟨h1, h2⟩ := (digitVal_iff base hb c _).1 hd
          obtain ⟨h3, h4⟩ := (ih2 _ n).1 h
          rw [h1]
          simp only [h2, if_true]
          exact ⟨by simp [good, h3], by rw [val]; simpa using h4⟩
      · rintro ⟨h1, h2⟩
        cases hd : digitVal c with
        | none => rw [hd] at h2; simp at h2
        | some d =>
          rw [hd] at h2
          simp only at h2
          split at h2
          · rename_i hlt
            have hdo := (digitVal_iff base hb c d).2 ⟨hd, hlt⟩
            by_cases he : e = 95
            · subst he
              refine .sep hdo ((ih2 _ n).2 ⟨?_, ?_⟩)
              · simpa [good] using h1
              · rw [val] at h2; simpa using h2
            · refine .next hdo ((ih1 _ n).2 ⟨?_, h2⟩)
              unfold good at h1 ⊢
              rw [if_neg he] at h1 ⊢
              exact h1
          · simp at h2

/-- After a digit, an underscore may stand in front. -/
theorem good_false {t : Bytes} (ht : t ≠ []) : good false t = true ↔ ∃ u r, t = u ++ r ∧ (u = [] ∨ u = [95]) ∧ good true r = true := by
  cases t with
  | nil => exact absurd rfl ht
  | cons c s =>
    constructor
    · intro h
      by_cases hc : c = 95
      · subst hc
        exact ⟨[95], s, rfl, .inr rfl, by simpa [good] using h⟩
      · refine ⟨[], c :: s, rfl, .inl rfl, ?_⟩
        unfold good at h ⊢
        rw [if_neg hc] at h ⊢
        exact h
    · rintro ⟨u, r, h1, rfl | rfl, h3⟩
      · simp at h1
        subst h1
        unfold good at h3 ⊢
        split at h3
        · simp at h3
        · rename_i hc; rw [if_neg hc]; exact h3
      · simp at h1
        obtain ⟨rfl, rfl⟩ := h1
        simpa [good] using h3

theorem good_no : ∀ {t : Bytes}, 95 ∉ t → good false t = true
  | [], _ => rfl
  | c :: s, h => by
    simp at h
    unfold good
    rw [if_neg (fun e => h.1 e.symm)]
    exact good_no h.2

/-- `underscoreOK` on texts of digits and underscores. -/
theorem uok_good {base : Nat} (hb : base ≤ 16) (hex : Bool) (hx : hex = true ∨ base ≤ 10) : ∀ (t : Bytes) (acc n : Nat) (b : Bool), val base acc t = some n →
    uokLoop hex (if b then .under else .digit) t = good b t
  | [], acc, n, b, _ => by cases b <;> rfl
  | c :: t, acc, n, b, h => by
    unfold val at h
    unfold uokLoop good
    by_cases hc : c = 95
    · subst hc
      rw [if_pos rfl] at h
      rw [if_neg (by cases hex <;> decide), if_pos rfl, if_pos rfl]
      have ih := uok_good hb hex hx t acc n true h
      cases b with
      | true => rfl
      | false => simpa using ih
    · rw [if_neg hc] at h
      split at h
      · simp at h
      · rename_i d hd
        split at h
        · rename_i hlt
          have hdig := (digitVal_iff base hb c d).2 ⟨hd, hlt⟩
          have ih := uok_good hb hex hx t _ n false h
          have hcond : (48 ≤ c ∧ c ≤ 57) ∨ (hex = true ∧ 97 ≤ lowerByte c ∧ lowerByte c ≤ 102) := by
            have tab : ∀ i : Fin 256, (48 ≤ i.1 ∧ i.1 ≤ 57 → 48 ≤ UInt8.ofFin i ∧ UInt8.ofFin i ≤ 57) ∧
                (97 ≤ i.1 ∧ i.1 ≤ 102 ∨ 65 ≤ i.1 ∧ i.1 ≤ 70 → 97 ≤ lowerByte (UInt8.ofFin i) ∧ lowerByte (UInt8.ofFin i) ≤ 102) := by decide +kernel
            have hcc : c = UInt8.ofFin ⟨c.toNat, c.toNat_lt⟩ := by apply UInt8.toNat_inj.1; rfl
            have tc := tab ⟨c.toNat, c.toNat_lt⟩
            rw [← hcc] at tc
            obtain ⟨h1, h2 | h2 | h2⟩ := hdig
            · exact .inl (tc.1 ⟨h2.1, h2.2.1⟩)
            · rcases hx with hx | hx
              · exact .inr ⟨hx, tc.2 (.inl ⟨h2.1, h2.2.1⟩)⟩
              · omega
            · rcases hx with hx | hx
              · exact .inr ⟨hx, tc.2 (.inr ⟨h2.1, h2.2.1⟩)⟩
              · omega
          rw [if_pos hcond, if_neg hc]
          simpa using ih
        · simp at h

theorem good_true_of {b : Bool} {c : UInt8} {s : Bytes} (h : c ≠ 95) : good b (c :: s) = good false s := by
  rw [good, if_neg h]

/-- What `ParseUint` accepts once the base is known. -/
theorem tail_iff {base : Nat} (hb : 2 ≤ base) (hb' : base ≤ 16) (s d : Bytes) (b : Bool) (hg : 95 ∉ d → good b d = true)
    (hu : ∀ n, val base 0 d = some n → underscoreOK s = good b d) (n : Nat) :
    ((match uintLoop base 0 false d with
      | none => none
      | some (n, us) => if us ∧ !underscoreOK s then none else some n) = some n) ↔
    (good b d = true ∧ val base 0 d = some n) ∧ n < 2 ^ 64 := by
  have loop := fun m us => uintLoop_iff hb hb' d 0 false m us (by decide)
  constructor
  · intro h
    cases hl : uintLoop base 0 false d with
    | none => rw [hl] at h; simp at h
    | some r =>
      obtain ⟨m, us⟩ := r
      obtain ⟨h1, h2, h3⟩ := (loop m us).1 hl
      rw [hl] at h
      simp only at h
      split at h
      · simp at h
      · rename_i hc
        simp at h
        subst h
        refine ⟨⟨?_, h1⟩, h2⟩
        by_cases h95 : 95 ∈ d
        · have : us = true := by rw [h3]; simp [h95]
          rw [← hu m h1]
          cases hok : underscoreOK s with
          | true => rfl
          | false => exact absurd ⟨this, by simp [hok]⟩ hc
        · exact hg h95
  · rintro ⟨⟨h1, h2⟩, h3⟩
    rw [(loop n (decide (95 ∈ d))).2 ⟨h2, h3, by simp⟩]
    simp only
    rw [if_neg]
    rintro ⟨-, h⟩
    rw [hu n h2, h1] at h
    simp at h

/-- Digits after something that counts as a digit. -/
theorem after_digit {base : Nat} (hb' : base ≤ 16) (d : Bytes) (hd : d ≠ []) (n : Nat) :
    (good false d = true ∧ val base 0 d = some n) ↔ ∃ u t, d = u ++ t ∧ (u = [] ∨ u = [95]) ∧ LitDigits base 0 t n := by
  rw [good_false hd]
  constructor
  · rintro ⟨⟨u, t, rfl, h1, h3⟩, h4⟩
    refine ⟨u, t, rfl, h1, (litDigits_iff hb' t 0 n).2 ⟨h3, ?_⟩⟩
    rcases h1 with rfl | rfl
    · exact h4
    · have h5 : val base 0 (95 :: t) = some n := h4
      rw [val, if_pos rfl] at h5; exact h5
  · rintro ⟨u, t, rfl, h1, h2⟩
    obtain ⟨h3, h4⟩ := (litDigits_iff hb' t 0 n).1 h2
    refine ⟨⟨u, t, rfl, h1, h3⟩, ?_⟩
    rcases h1 with rfl | rfl
    · exact h4
    · show val base 0 (95 :: t) = _
      rw [val, if_pos rfl]; exact h4

theorem lower_iff (p : UInt8) : (lowerByte p = 98 ↔ p = 98 ∨ p = 66) ∧ (lowerByte p = 111 ↔ p = 111 ∨ p = 79) ∧ (lowerByte p = 120 ↔ p = 120 ∨ p = 88) := by
  have tab : ∀ i : Fin 256, (lowerByte (UInt8.ofFin i) = 98 ↔ UInt8.ofFin i = 98 ∨ UInt8.ofFin i = 66) ∧
    (lowerByte (UInt8.ofFin i) = 111 ↔ UInt8.ofFin i = 111 ∨ UInt8.ofFin i = 79) ∧
    (lowerByte (UInt8.ofFin i) = 120 ↔ UInt8.ofFin i = 120 ∨ UInt8.ofFin i = 88) := by decide +kernel
  have hc : p = UInt8.ofFin ⟨p.toNat, p.toNat_lt⟩ := by apply UInt8.toNat_inj.1; rfl
  have := tab ⟨p.toNat, p.toNat_lt⟩
  rwa [← hc] at this

theorem litDigits_head {base acc n : Nat} {t : Bytes} (h : LitDigits base acc t n) : ∃ c r d, t = c :: r ∧ DigitOf base c d := by
  cases h with
  | last h => exact ⟨_, _, _, rfl, h⟩
  | next h _ => exact ⟨_, _, _, rfl, h⟩
  | sep h _ => exact ⟨_, _, _, rfl, h⟩

theorem prefix_iff (p : UInt8) (base : Nat) : (p, base) ∈ prefixes ↔
    (p = 98 ∨ p = 66) ∧ base = 2 ∨ (p = 111 ∨ p = 79) ∧ base = 8 ∨ (p = 120 ∨ p = 88) ∧ base = 16 := by
  simp only [prefixes, List.mem_cons, Prod.mk.injEq, List.not_mem_nil, or_false]
  constructor
  · rintro (⟨rfl, rfl⟩ | ⟨rfl, rfl⟩ | ⟨rfl, rfl⟩ | ⟨rfl, rfl⟩ | ⟨rfl, rfl⟩ | ⟨rfl, rfl⟩) <;> simp
  · rintro (⟨rfl | rfl, rfl⟩ | ⟨rfl | rfl, rfl⟩ | ⟨rfl | rfl, rfl⟩) <;> simp

theorem prefix_base {p : UInt8} {base : Nat} (h : (p, base) ∈ prefixes) : 2 ≤ base ∧ base ≤ 16 ∧ p ≠ 95 ∧ (∀ d, ¬ DigitOf 8 p d) ∧
    (lowerByte p = 98 ∨ lowerByte p = 111 ∨ lowerByte p = 120) ∧ (decide (lowerByte p = 120) = true ∨ base ≤ 10) := by
  rcases (prefix_iff p base).1 h with ⟨rfl | rfl, rfl⟩ | ⟨rfl | rfl, rfl⟩ | ⟨rfl | rfl, rfl⟩ <;>
    refine ⟨by decide, by decide, by decide, fun d hd => ?_, by decide, by decide⟩ <;>
    (obtain ⟨h1, h2⟩ := hd; simp at h2; try omega)

/-- `0b…`, `0o…`, `0x…` -/
theorem uint_based {p : UInt8} {base : Nat} (hp : (p, base) ∈ prefixes) (c : UInt8) (r : Bytes) (n : Nat) :
    parseUint (48 :: p :: c :: r) = some n ↔ Literal (48 :: p :: c :: r) n ∧ n < 2 ^ 64 := by
  obtain ⟨h1, h2, h3, h4, h5, h6⟩ := prefix_base hp
  have hbase : uintBase (48 :: p :: c :: r) = (base, c :: r) := by
    rcases (prefix_iff p base).1 hp with ⟨rfl | rfl, rfl⟩ | ⟨rfl | rfl, rfl⟩ | ⟨rfl | rfl, rfl⟩ <;> rfl
  have hlit : Literal (48 :: p :: c :: r) n ↔ ∃ u t, c :: r = u ++ t ∧ (u = [] ∨ u = [95]) ∧ LitDigits base 0 t n := by
    constructor
    · intro h
      generalize hs : 48 :: p :: c :: r = s at h
      cases h with
      | zero => simp at hs
      | decimal _ hh => subst hs; simp at hh
      | @octal u t n hu ht =>
        simp at hs
        obtain ⟨c', r', d, rfl, hd⟩ := litDigits_head ht
        rcases hu with rfl | rfl
        · simp at hs; rw [← hs.1] at hd; exact absurd hd (h4 d)
        · simp at hs; exact absurd hs.1 h3
      | @based p' base' u t n hp' hu ht =>
        simp at hs
        obtain ⟨rfl, hs⟩ := hs
        have : base' = base := by
          rcases (prefix_iff p base).1 hp with ⟨rfl | rfl, rfl⟩ | ⟨rfl | rfl, rfl⟩ | ⟨rfl | rfl, rfl⟩ <;> simp [prefixes] at hp' <;> exact hp'
        subst this
        exact ⟨u, t, hs, hu, ht⟩
    · rintro ⟨u, t, hs, hu, ht⟩
      rw [hs]
      exact .based hp hu ht
  unfold parseUint
  rw [if_neg (by simp), hbase, hlit, ← after_digit h2 _ (by simp)]
  refine tail_iff h1 h2 _ (c :: r) false good_no (fun m hm => ?_) n
  have := uok_good h2 (decide (lowerByte p = 120)) h6 (c :: r) 0 m false hm
  unfold underscoreOK
  simp only
  rw [if_pos h5]
  exact this

/-- `0…` -/
theorem uint_octal (d : Bytes) (hd : d ≠ []) (hn : ∀ p c r, d = p :: c :: r → ∀ base, (p, base) ∉ prefixes) (n : Nat) :
    parseUint (48 :: d) = some n ↔ Literal (48 :: d) n ∧ n < 2 ^ 64 := by
  have lw : ∀ p : UInt8, (∀ base, (p, base) ∉ prefixes) → ¬ (lowerByte p = 98) ∧ ¬ (lowerByte p = 111) ∧ ¬ (lowerByte p = 120) := by
    intro p hp
    obtain ⟨l1, l2, l3⟩ := lower_iff p
    refine ⟨fun h => ?_, fun h => ?_, fun h => ?_⟩
    · exact hp 2 ((prefix_iff p 2).2 (.inl ⟨l1.1 h, rfl⟩))
    · exact hp 8 ((prefix_iff p 8).2 (.inr (.inl ⟨l2.1 h, rfl⟩)))
    · exact hp 16 ((prefix_iff p 16).2 (.inr (.inr ⟨l3.1 h, rfl⟩)))
  have hbase : uintBase (48 :: d) = (8, d) := by
    match d with
    | [] => rfl
    | [p] => rfl
    | p :: c :: r =>
      obtain ⟨l1, l2, l3⟩ := lw p (hn p c r rfl)
      simp [uintBase, l1, l2, l3]
  have hlit : Literal (48 :: d) n ↔ ∃ u t, d = u ++ t ∧ (u = [] ∨ u = [95]) ∧ LitDigits 8 0 t n := by
    constructor
    · intro h
      generalize hs : 48 :: d = s at h
      cases h with
      | zero => simp at hs; exact absurd hs hd
      | decimal _ hh => subst hs; simp at hh
      | @octal u t n hu ht => simp at hs; exact ⟨u, t, hs, hu, ht⟩
      | @based p base u t n hp hu ht =>
        simp at hs
        obtain ⟨c, r, e, rfl, -⟩ := litDigits_head ht
        rcases hu with rfl | rfl
        · exact absurd hp (hn p c r hs base)
        · exact absurd hp (hn p 95 (c :: r) hs base)
    · rintro ⟨u, t, rfl, hu, ht⟩
      exact .octal hu ht
  unfold parseUint
  rw [if_neg (by simp), hbase, hlit, ← after_digit (by decide) _ hd]
  refine tail_iff (base := 8) (by decide) (by decide) _ d false good_no (fun m hm => ?_) n
  have hok := uok_good (base := 8) (by decide) false (.inr (by decide)) d 0 m false hm
  have start : ∀ s, uokLoop false .start (48 :: s) = uokLoop false .digit s := by intro s; rw [uokLoop]; rfl
  match d, hn, hm, hok with
  | [], _, _, _ => exact absurd rfl hd
  | p :: r, hn, hm, hok =>
    unfold underscoreOK
    simp only
    by_cases hp : ∃ base, (p, base) ∈ prefixes
    · obtain ⟨base, hp⟩ := hp
      cases r with
      | cons c r => exact absurd hp (hn p c r rfl base)
      | nil =>
        obtain ⟨-, -, h3, h4, -⟩ := prefix_base hp
        exfalso
        rw [val, if_neg h3] at hm
        cases hdv : digitVal p with
        | none => rw [hdv] at hm; simp at hm
        | some e =>
          rw [hdv] at hm
          simp only at hm
          split at hm
          · rename_i hlt; exact h4 e ((digitVal_iff 8 (by decide) p e).2 ⟨hdv, hlt⟩)
          · simp at hm
    · obtain ⟨l1, l2, l3⟩ := lw p fun base h => hp ⟨base, h⟩
      rw [if_neg (by simp [l1, l2, l3]), start]
      exact hok

/-- Other texts. -/
theorem uint_decimal (c : UInt8) (r : Bytes) (hc : c ≠ 48) (n : Nat) : parseUint (c :: r) = some n ↔ Literal (c :: r) n ∧ n < 2 ^ 64 := by
  have hbase : uintBase (c :: r) = (10, c :: r) := by
    unfold uintBase
    split
    · rename_i h; simp at h; exact absurd h.1 hc
    · rename_i h; simp at h; exact absurd h.1 hc
    · rfl
  have hlit : Literal (c :: r) n ↔ good true (c :: r) = true ∧ val 10 0 (c :: r) = some n := by
    rw [← litDigits_iff (by decide)]
    constructor
    · intro h
      generalize hs : c :: r = s at h
      cases h with
      | zero => simp at hs; exact absurd hs.1 hc
      | decimal h _ => exact h
      | octal _ _ => simp at hs; exact absurd hs.1 hc
      | based _ _ _ => simp at hs; exact absurd hs.1 hc
    · intro h; exact .decimal h (by simpa using hc)
  unfold parseUint
  rw [if_neg (by simp), hbase, hlit]
  refine tail_iff (base := 10) (by decide) (by decide) _ (c :: r) true (fun h => ?_) (fun m hm => ?_) n
  · simp at h
    rw [good_true_of (fun e => h.1 e.symm)]
    exact good_no h.2
  · have hstart : underscoreOK (c :: r) = uokLoop false .start (c :: r) := by
      unfold underscoreOK
      split
      · rename_i h; simp at h; exact absurd h.1 hc
      · rfl
    have hok := uok_good (base := 10) (by decide) false (.inr (by decide)) (c :: r) 0 m true hm
    rw [hstart, ← hok]
    by_cases h95 : c = 95
    · subst h95; rfl
    · rw [val, if_neg h95] at hm
      cases hdv : digitVal c with
      | none => rw [hdv] at hm; simp at hm
      | some e =>
        rw [hdv] at hm
        simp only at hm
        split at hm
        · rename_i hlt
          obtain ⟨-, h⟩ := (digitVal_iff 10 (by decide) c e).2 ⟨hdv, hlt⟩
          have hrange : 48 ≤ c ∧ c ≤ 57 := by
            rw [UInt8.le_iff_toNat_le, UInt8.le_iff_toNat_le]
            show 48 ≤ c.toNat ∧ c.toNat ≤ 57
            omega
          rw [uokLoop, if_pos (.inl hrange), uokLoop, if_pos (.inl hrange)]
        · simp at hm

/-- Unsigned integers. -/
theorem parseUint_iff (s : Bytes) (n : Nat) : parseUint s = some n ↔ Literal s n ∧ n < 2 ^ 64 := by
  match s with
  | [] =>
    constructor
    · intro h; simp [parseUint] at h
    · rintro ⟨h, -⟩
      generalize hs : ([] : Bytes) = s at h
      cases h with
      | zero => simp at hs
      | decimal h _ => subst hs; cases h
      | octal _ _ => simp at hs
      | based _ _ _ => simp at hs
  | c :: r =>
    by_cases hc : c = 48
    · subst hc
      match r with
      | [] =>
        constructor
        · intro h
          have : parseUint [48] = some 0 := by decide
          rw [this] at h
          simp at h
          subst h
          exact ⟨.zero, by decide⟩
        · rintro ⟨h, -⟩
          generalize hs : ([48] : Bytes) = s at h
          cases h with
          | zero => decide
          | decimal _ hh => subst hs; simp at hh
          | octal _ h =>
            simp at hs
            obtain ⟨_, _, _, rfl, _⟩ := litDigits_head h
            simp at hs
          | based _ _ _ => simp at hs
      | [p] => exact uint_octal [p] (by simp) (by intro p c r h; simp at h) n
      | p :: c :: r =>
        by_cases hp : ∃ base, (p, base) ∈ prefixes
        · obtain ⟨base, hp⟩ := hp
          exact uint_based hp c r n
        · exact uint_octal (p :: c :: r) (by simp) (by intro p' c' r' h base hb; simp at h; rw [← h.1] at hb; exact hp ⟨base, hb⟩) n
    · exact uint_decimal c r hc n

theorem literal_head {t : Bytes} {n : Nat} (h : Literal t n) : ∃ c r, t = c :: r ∧ c ≠ 43 ∧ c ≠ 45 := by
  cases h with
  | zero => exact ⟨_, _, rfl, by decide, by decide⟩
  | decimal h _ =>
    obtain ⟨c, r, d, rfl, -, h⟩ := litDigits_head h
    refine ⟨c, r, rfl, ?_, ?_⟩ <;> (rintro rfl; simp at h)
  | octal _ _ => exact ⟨_, _, rfl, by decide, by decide⟩
  | based _ _ _ => exact ⟨_, _, rfl, by decide, by decide⟩

/-- Signed integers. -/
theorem parseInt0_iff (s : Bytes) (z : Int) : parseInt0 s = some z ↔ IntText s z ∧ -2 ^ 63 ≤ z ∧ z < 2 ^ 63 := by
  have pos : ∀ t : Bytes, ((parseUint t).bind fun n => if n ≥ 2 ^ 63 then none else some (n : Int)) = some z ↔
      ∃ n : Nat, Literal t n ∧ z = n ∧ z < 2 ^ 63 := by
    intro t
    rw [Option.bind_eq_some_iff]
    constructor
    · rintro ⟨n, h1, h2⟩
      split at h2
      · simp at h2
      · simp at h2
        exact ⟨n, ((parseUint_iff t n).1 h1).1, h2.symm, by omega⟩
    · rintro ⟨n, h1, rfl, h2⟩
      exact ⟨n, (parseUint_iff t n).2 ⟨h1, by omega⟩, by rw [if_neg (by omega)]⟩
  have neg : ∀ t : Bytes, ((parseUint t).bind fun n => if n > 2 ^ 63 then none else some (-(n : Int))) = some z ↔
      ∃ n : Nat, Literal t n ∧ z = -n ∧ -2 ^ 63 ≤ z := by
    intro t
    rw [Option.bind_eq_some_iff]
    constructor
    · rintro ⟨n, h1, h2⟩
      split at h2
      · simp at h2
      · simp at h2
        exact ⟨n, ((parseUint_iff t n).1 h1).1, h2.symm, by omega⟩
    · rintro ⟨n, h1, rfl, h2⟩
      exact ⟨n, (parseUint_iff t n).2 ⟨h1, by omega⟩, by rw [if_neg (by omega)]⟩
  unfold parseInt0 IntText
  split
  · rename_i t
    rw [pos]
    constructor
    · rintro ⟨n, h1, h2, h3⟩
      exact ⟨⟨t, n, h1, .inr (.inl ⟨rfl, h2⟩)⟩, by omega, h3⟩
    · rintro ⟨⟨t', n, h1, ⟨h2, h3⟩ | ⟨h2, h3⟩ | ⟨h2, h3⟩⟩, h4, h5⟩
      · obtain ⟨c, r, rfl, h6, -⟩ := literal_head h1
        simp at h2; exact absurd h2.1.symm h6
      · simp at h2; subst h2; exact ⟨n, h1, h3, h5⟩
      · simp at h2
  · rename_i t
    rw [neg]
    constructor
    · rintro ⟨n, h1, h2, h3⟩
      exact ⟨⟨t, n, h1, .inr (.inr ⟨rfl, h2⟩)⟩, h3, by omega⟩
    · rintro ⟨⟨t', n, h1, ⟨h2, h3⟩ | ⟨h2, h3⟩ | ⟨h2, h3⟩⟩, h4, h5⟩
      · obtain ⟨c, r, rfl, -, h6⟩ := literal_head h1
        simp at h2; exact absurd h2.1.symm h6
      · simp at h2
      · simp at h2; subst h2; exact ⟨n, h1, h3, h4⟩
  · rename_i h43 h45
    rw [pos]
    constructor
    · rintro ⟨n, h1, h2, h3⟩
      exact ⟨⟨s, n, h1, .inl ⟨rfl, h2⟩⟩, by omega, h3⟩
    · rintro ⟨⟨t', n, h1, ⟨h2, h3⟩ | ⟨h2, h3⟩ | ⟨h2, h3⟩⟩, h4, h5⟩
      · subst h2; exact ⟨n, h1, h3, h5⟩
      · exact absurd h2 (h43 t')
      · exact absurd h2 (h45 t')

end Gears.Conf
