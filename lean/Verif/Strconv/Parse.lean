import Verif.Conf.Values
import Verif.Strconv.Round

/-
`strconv.ParseFloat(s, 64)` of Go 1.17 (atof.go), as used by `flag.Float64Var` (/repo/conf/flag.go:58-59, env.go:57-58), encoding/json
(/repo/dto/m.go) and yaml.

`readFloat` keeps 19 digits of the mantissa and a mark for the others, and the conversion has a fast path, the algorithm of Eisel and Lemire, and
a slow path with 800 digits.  All of them round correctly, so here the digits are kept as one number, and the result is the nearest float.
An error (syntax or range) is `none`.
-/

namespace Gears.Strconv

open Gears.Str (Bytes)
open Gears.Conf (lowerByte digitVal underscoreOK uokLoop LitDigits DigitOf val good)

/-! ## Model -/

/-- Sign bit and the other bits of a float64. -/
structure F64 where
  neg : Bool
  mag : Nat
deriving DecidableEq, Repr

/-- The bits of +Inf. -/
def infMag : Nat := 9218868437227405312

def F64.inf (neg : Bool) : F64 := ⟨neg, infMag⟩

/-- `math.NaN()` -/
def F64.nan : F64 := ⟨false, 9221120237041090561⟩

/-- `n * base^x`, rounded: the bits of the magnitude. -/
def mag (base n : Nat) (x : Int) : Nat := nearest (n * base ^ x.toNat * 2 ^ 1074) (base ^ (-x).toNat)

/-- `n * base^x`, rounded; none: out of range. -/
def scale (neg : Bool) (base n : Nat) (x : Int) : Option F64 :=
  let b := mag base n x
  if b ≥ infMag then none else some ⟨neg, b⟩

/-- `commonPrefixLenIgnoreCase`; the second text is in lower case. -/
def prefixLen : Bytes → Bytes → Nat
  | c :: s, p :: t => if (if 65 ≤ c ∧ c ≤ 90 then c + 32 else c) = p then prefixLen s t + 1 else 0
  | _, _ => 0

/-- `special`: a value and how many bytes were read. -/
def special : Bytes → Option (F64 × Nat)
  | [] => none
  | c :: s =>
    let inf : Bool → Nat → Bytes → Option (F64 × Nat) := fun neg k t =>
      let n := prefixLen t (Str.ascii "infinity")
      let n := if 3 < n ∧ n < 8 then 3 else n
      if n = 3 ∨ n = 8 then some (.inf neg, k + n) else none
    if c = 43 ∨ c = 45 then inf (c = 45) 1 s
    else if c = 105 ∨ c = 73 then inf false 0 (c :: s)
    else if c = 110 ∨ c = 78 then (if prefixLen (c :: s) (Str.ascii "nan") = 3 then some (.nan, 3) else none)
    else none

/-- What the loop over the mantissa knows. -/
structure Scan where
  n : Nat
  frac : Nat
  dot : Bool
  dig : Bool
  us : Bool
deriving DecidableEq, Repr

/-- The loop over the mantissa in `readFloat`, and what is left. -/
def mantLoop (base : Nat) (m : Scan) : Bytes → Scan × Bytes
  | [] => (m, [])
  | c :: s =>
    if c = 95 then mantLoop base { m with us := true } s
    else if c = 46 then (if m.dot then (m, c :: s) else mantLoop base { m with dot := true } s)
    else match digitVal c with
      | none => (m, c :: s)
      | some d =>
        if d < base then mantLoop base { m with n := m.n * base + d, frac := if m.dot then m.frac + 1 else m.frac, dig := true } s
        else (m, c :: s)

/-- The loop over the exponent: from 10000 on further digits are skipped. -/
def expLoop (e : Nat) (us : Bool) : Bytes → Nat × Bool × Bytes
  | [] => (e, us, [])
  | c :: s =>
    if 48 ≤ c ∧ c ≤ 57 then expLoop (if e < 10000 then e * 10 + (c.toNat - 48) else e) us s
    else if c = 95 then expLoop e true s
    else (e, us, c :: s)

/-- An optional sign. -/
def signOf : Bytes → Bool × Bytes
  | 43 :: t => (false, t)
  | 45 :: t => (true, t)
  | t => (false, t)

/-- The digits of the exponent, up to the end of the text (`ParseFloat` wants all of it to be read). -/
def expDigits (us neg : Bool) : Bytes → Option (Int × Bool)
  | [] => none
  | d :: t =>
    if 48 ≤ d ∧ d ≤ 57 then
      match expLoop 0 us (d :: t) with
      | (e, us', []) => some (if neg then -(e : Int) else e, us')
      | _ => none
    else none

/-- The exponent. -/
def readExp (hex us : Bool) : Bytes → Option (Int × Bool)
  | [] => if hex then none else some (0, us)
  | c :: s =>
    if lowerByte c = (if hex then 112 else 101) then expDigits us (signOf s).1 (signOf s).2
    else none

/-- The prefix 0x, if at least one byte follows. -/
def prefixOf : Bytes → Bool × Bytes
  | 48 :: p :: c :: r => if lowerByte p = 120 then (true, c :: r) else (false, 48 :: p :: c :: r)
  | t => (false, t)

/-- `readFloat` after the sign: the digits and the exponent of the last one (base 10 or 2). -/
def readBody (t : Bytes) : Option (Bool × Nat × Int) :=
  let hex := (prefixOf t).1
  let mr := mantLoop (if hex then 16 else 10) ⟨0, 0, false, false, false⟩ (prefixOf t).2
  if !mr.1.dig then none
  else match readExp hex mr.1.us mr.2 with
    | none => none
    | some (e, us) => if us && !underscoreOK t then none else some (hex, mr.1.n, e - (if hex then 4 * mr.1.frac else mr.1.frac))

/-- `strconv.ParseFloat(s, 64)` -/
def parseFloat (s : Bytes) : Option F64 :=
  match special s with
  | some (x, n) => if n = s.length then some x else none
  | none =>
    match readBody (signOf s).2 with
    | none => none
    | some (hex, n, x) => scale (signOf s).1 (if hex then 2 else 10) n x

/-! ## Specification: floating-point literals of Go -/

def count (t : Bytes) : Nat := (t.filter (· ≠ 95)).length

/-- Text, value of all digits, digits after the point. -/
inductive Mantissa (base : Nat) : Bytes → Nat → Nat → Prop where
  | whole {t n} : LitDigits base 0 t n → Mantissa base t n 0
  | point {t n} : LitDigits base 0 t n → Mantissa base (t ++ [46]) n 0
  | both {t i u n} : LitDigits base 0 t i → LitDigits base i u n → Mantissa base (t ++ 46 :: u) n (count u)
  | frac {u n} : LitDigits base 0 u n → Mantissa base (46 :: u) n (count u)

/-- Exponent with its letter. -/
inductive Exponent (lo up : UInt8) : Bytes → Int → Prop where
  | plain {c t n} : c = lo ∨ c = up → LitDigits 10 0 t n → Exponent lo up (c :: t) n
  | plus {c t n} : c = lo ∨ c = up → LitDigits 10 0 t n → Exponent lo up (c :: 43 :: t) n
  | minus {c t n} : c = lo ∨ c = up → LitDigits 10 0 t n → Exponent lo up (c :: 45 :: t) (-n)

/-- Literal without sign: text, hexadecimal or not, digits, digits after the point, exponent. -/
inductive Body : Bytes → Bool → Nat → Nat → Int → Prop where
  | dec {m n f} : Mantissa 10 m n f → Body m false n f 0
  | decExp {m n f e x} : Mantissa 10 m n f → Exponent 101 69 e x → Body (m ++ e) false n f x
  | hex {p u m n f e x} : p = 120 ∨ p = 88 → u = [] ∨ u = [95] ∧ m.head? ≠ some 46 → Mantissa 16 m n f → Exponent 112 80 e x →
      Body (48 :: p :: u ++ m ++ e) true n f x

/-- Exponents of more than five digits lose their last digits. -/
def clip (n : Nat) : Nat := if n < 100000 then n else clip (n / 10)
termination_by n

def clipInt (x : Int) : Int := if x < 0 then -(clip x.natAbs : Int) else clip x.natAbs

/-! ## Digits -/

theorem count_cons (c : UInt8) (t : Bytes) : count (c :: t) = (if c = 95 then 0 else 1) + count t := by
  unfold count
  by_cases h : c = 95 <;> simp [h]; omega

/-- No digit and no underscore. -/
def Stop (base : Nat) (r : Bytes) : Prop := ∀ c s, r = c :: s → c ≠ 95 ∧ ∀ d, digitVal c = some d → base ≤ d

theorem split_run (base : Nat) : ∀ (s : Bytes) (n : Nat), ∃ a r m, s = a ++ r ∧ val base n a = some m ∧ Stop base r
  | [], n => ⟨[], [], n, rfl, rfl, by intro c s h; simp at h⟩
  | c :: s, n => by
    by_cases hc : c = 95
    · obtain ⟨a, r, m, h1, h2, h3⟩ := split_run base s n
      exact ⟨c :: a, r, m, by simp [h1], by rw [val, if_pos hc]; exact h2, h3⟩
    · cases hd : digitVal c with
      | none => exact ⟨[], c :: s, n, rfl, rfl, by intro c' s' h; simp at h; obtain ⟨rfl, rfl⟩ := h; exact ⟨hc, by simp [hd]⟩⟩
      | some d =>
        by_cases hlt : d < base
        · obtain ⟨a, r, m, h1, h2, h3⟩ := split_run base s (n * base + d)
          exact ⟨c :: a, r, m, by simp [h1], by rw [val, if_neg hc]; simp [hd, hlt, h2], h3⟩
        · exact ⟨[], c :: s, n, rfl, rfl, by
            intro c' s' h; simp at h; obtain ⟨rfl, rfl⟩ := h
            exact ⟨hc, by intro d' h'; rw [hd] at h'; simp at h'; omega⟩⟩

theorem digit46 : digitVal 46 = none := by decide

theorem mant_run (base : Nat) : ∀ (a r : Bytes) (m : Scan) (k : Nat), val base m.n a = some k →
    mantLoop base m (a ++ r) = mantLoop base ⟨k, if m.dot then m.frac + count a else m.frac, m.dot, m.dig || decide (0 < count a), m.us || decide (95 ∈ a)⟩ r
  | [], r, m, k, h => by simp [val] at h; subst h; simp [count]
  | c :: a, r, m, k, h => by
    rw [val] at h
    rw [List.cons_append, mantLoop]
    by_cases hc : c = 95
    · rw [if_pos hc] at h ⊢
      rw [mant_run base a r { m with us := true } k h]
      simp [count_cons, hc]
    · rw [if_neg hc] at h ⊢
      cases hd : digitVal c with
      | none => rw [hd] at h; simp at h
      | some d =>
        rw [hd] at h
        simp only at h ⊢
        have h46 : c ≠ 46 := by rintro rfl; rw [digit46] at hd; simp at hd
        rw [if_neg h46]
        by_cases hlt : d < base
        · rw [if_pos hlt] at h ⊢
          rw [mant_run base a r _ k h]
          have : (95 : UInt8) ≠ c := fun e => hc e.symm
          simp only [count_cons, if_neg hc, Bool.true_or, List.mem_cons, this, false_or]
          congr 2
          · split <;> omega
          · symm; simp
        · rw [if_neg hlt] at h; simp at h

theorem mant_stop (base : Nat) (m : Scan) (r : Bytes) (h : Stop base r) (hdot : ∀ s, r = 46 :: s → m.dot = true) : mantLoop base m r = (m, r) := by
  cases r with
  | nil => rfl
  | cons c s =>
    obtain ⟨h1, h2⟩ := h c s rfl
    rw [mantLoop, if_neg h1]
    by_cases h46 : c = 46
    · subst h46; rw [if_pos rfl, if_pos (hdot s rfl)]
    · rw [if_neg h46]
      cases hd : digitVal c with
      | none => rfl
      | some d => simp only; rw [if_neg (by have := h2 d hd; omega)]

theorem mant_dot (base : Nat) (m : Scan) (s : Bytes) (h : m.dot = false) : mantLoop base m (46 :: s) = mantLoop base { m with dot := true } s := by
  rw [mantLoop, if_neg (by decide), if_pos rfl, h]; simp

theorem clip_step (n d : Nat) (hd : d < 10) : clip (n * 10 + d) = if clip n < 10000 then clip n * 10 + d else clip n := by
  have big : ∀ n, 10000 ≤ n → 10000 ≤ clip n := by
    intro n
    induction n using Nat.strongRecOn with
    | ind n ih =>
      intro h
      rw [clip]
      split
      · exact h
      · exact ih (n / 10) (by omega) (by omega)
  by_cases h1 : n < 10000
  · have e : clip n = n := by rw [clip, if_pos (by omega)]
    rw [e, if_pos h1, clip, if_pos (by omega)]
  · rw [if_neg (by have := big n (by omega); omega), clip, if_neg (by omega)]
    congr 1; omega

theorem digit_range (c : UInt8) : (48 ≤ c ∧ c ≤ 57) ↔ ∃ d, digitVal c = some d ∧ d < 10 := by
  have tab : ∀ i : Fin 256, (48 ≤ UInt8.ofFin i ∧ UInt8.ofFin i ≤ 57) ↔ ∃ d : Fin 10, digitVal (UInt8.ofFin i) = some d.1 := by decide +kernel
  have hc : c = UInt8.ofFin ⟨c.toNat, c.toNat_lt⟩ := by apply UInt8.toNat_inj.1; rfl
  rw [hc, tab]
  exact ⟨fun ⟨d, h⟩ => ⟨d.1, h, d.2⟩, fun ⟨d, h, hlt⟩ => ⟨⟨d, hlt⟩, h⟩⟩

theorem digit_value (c : UInt8) (h : 48 ≤ c ∧ c ≤ 57) : digitVal c = some (c.toNat - 48) := by
  rw [digitVal, if_pos h]

theorem exp_run : ∀ (a r : Bytes) (n k : Nat) (us : Bool), val 10 n a = some k → expLoop (clip n) us (a ++ r) = expLoop (clip k) (us || decide (95 ∈ a)) r
  | [], r, n, k, us, h => by simp [val] at h; subst h; simp
  | c :: a, r, n, k, us, h => by
    rw [val] at h
    rw [List.cons_append, expLoop]
    by_cases hc : c = 95
    · rw [if_pos hc] at h
      rw [if_neg (by subst hc; decide), if_pos hc, exp_run a r n k true h]
      simp [hc]
    · rw [if_neg hc] at h
      cases hd : digitVal c with
      | none => rw [hd] at h; simp at h
      | some d =>
        rw [hd] at h
        simp only at h
        by_cases hlt : d < 10
        · rw [if_pos hlt] at h
          have hr := (digit_range c).2 ⟨d, hd, hlt⟩
          have hv := digit_value c hr
          rw [hd] at hv
          simp only [Option.some.injEq] at hv
          rw [if_pos hr, ← hv, ← clip_step n d hlt, exp_run a r _ k us h]
          have : (95 : UInt8) ≠ c := fun e => hc e.symm
          simp [this]
        · rw [if_neg hlt] at h; simp at h

theorem exp_stop (e : Nat) (us : Bool) (r : Bytes) (h : Stop 10 r) : expLoop e us r = (e, us, r) := by
  cases r with
  | nil => rfl
  | cons c s =>
    obtain ⟨h1, h2⟩ := h c s rfl
    rw [expLoop, if_neg, if_neg h1]
    intro hr
    obtain ⟨d, h3, h4⟩ := (digit_range c).1 hr
    have := h2 d h3
    omega

theorem clip_small {n : Nat} (h : n < 100000) : clip n = n := by rw [clip, if_pos h]

end Gears.Strconv
