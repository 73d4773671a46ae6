import Verif.Strconv.Parse

/-
`parseFloat` accepts exactly the floating-point literals of Go, with a sign, and the names of infinity and NaN; the value is the nearest float.
-/

namespace Gears.Strconv

open Gears.Str (Bytes)
open Gears.Conf (lowerByte digitVal underscoreOK uokLoop LitDigits DigitOf val good litDigits_iff good_false good_no)

/-! ## Underscores -/

def baseOf (hex : Bool) : Nat := if hex then 16 else 10

theorem uok_digit (hex : Bool) (c : UInt8) : ((48 ≤ c ∧ c ≤ 57) ∨ (hex = true ∧ 97 ≤ lowerByte c ∧ lowerByte c ≤ 102)) ↔ ∃ d, digitVal c = some d ∧ d < baseOf hex := by
  have tab : ∀ (hex : Bool) (i : Fin 256), ((48 ≤ UInt8.ofFin i ∧ UInt8.ofFin i ≤ 57) ∨ (hex = true ∧ 97 ≤ lowerByte (UInt8.ofFin i) ∧ lowerByte (UInt8.ofFin i) ≤ 102)) ↔
      ∃ d : Fin 16, digitVal (UInt8.ofFin i) = some d.1 ∧ d.1 < baseOf hex := by decide +kernel
  have hc : c = UInt8.ofFin ⟨c.toNat, c.toNat_lt⟩ := by apply UInt8.toNat_inj.1; rfl
  rw [hc, tab]
  exact ⟨fun ⟨d, h⟩ => ⟨d.1, h⟩, fun ⟨d, h, hlt⟩ => ⟨⟨d, by cases hex <;> simp [baseOf] at hlt <;> omega⟩, h, hlt⟩⟩

/-- `underscoreOK` after a run of digits and underscores. -/
def uokTail (hex : Bool) : Bytes → Bool
  | [] => true
  | _ :: s => uokLoop hex .other s

theorem uok_stop (hex : Bool) (st : Conf.Saw) (r : Bytes) (h : Stop (baseOf hex) r) (hst : st ≠ .under) : uokLoop hex st r = uokTail hex r := by
  cases r with
  | nil => rw [uokLoop]; simp [uokTail, hst]
  | cons c s =>
    obtain ⟨h1, h2⟩ := h c s rfl
    rw [uokLoop, if_neg, if_neg h1, if_neg hst]; rfl
    intro hc
    obtain ⟨d, h3, h4⟩ := (uok_digit hex c).1 hc
    have := h2 d h3
    omega

theorem uok_run (hex : Bool) : ∀ (a r : Bytes) (n k : Nat) (b : Bool), val (baseOf hex) n a = some k → Stop (baseOf hex) r →
    uokLoop hex (if b then .under else .digit) (a ++ r) = (good b a && uokTail hex r)
  | [], r, n, k, b, _, hs => by
    cases b with
    | false => simpa [good] using uok_stop hex .digit r hs (by simp)
    | true =>
      simp only [List.nil_append, if_true, good, Bool.not_true, Bool.false_and]
      cases r with
      | nil => rfl
      | cons c s =>
        obtain ⟨h1, h2⟩ := hs c s rfl
        rw [uokLoop, if_neg, if_neg h1, if_pos rfl]
        intro hc
        obtain ⟨d, h3, h4⟩ := (uok_digit hex c).1 hc
        have := h2 d h3
        omega
  | c :: a, r, n, k, b, h, hs => by
    rw [val] at h
    rw [List.cons_append, uokLoop, good]
    by_cases hc : c = 95
    · subst hc
      rw [if_pos rfl] at h
      rw [if_neg (by cases hex <;> decide), if_pos rfl, if_pos rfl]
      have ih := uok_run hex a r n k true h hs
      cases b with
      | true => rfl
      | false => simpa using ih
    · rw [if_neg hc] at h
      cases hd : digitVal c with
      | none => rw [hd] at h; simp at h
      | some d =>
        rw [hd] at h
        simp only at h
        by_cases hlt : d < baseOf hex
        · rw [if_pos hlt] at h
          rw [if_pos ((uok_digit hex c).2 ⟨d, hd, hlt⟩), if_neg hc]
          simpa using uok_run hex a r _ k false h hs
        · rw [if_neg hlt] at h; simp at h

/-- At the beginning and after other characters, digits come first. -/
theorem uok_first (hex : Bool) (a r : Bytes) (n k : Nat) (st : Conf.Saw) (hst : st = .start ∨ st = .other) (h : val (baseOf hex) n a = some k)
    (hs : Stop (baseOf hex) r) : uokLoop hex st (a ++ r) = ((decide (a = []) || good true a) && uokTail hex r) := by
  cases a with
  | nil => simpa using uok_stop hex st r hs (by rcases hst with rfl | rfl <;> simp)
  | cons c a =>
    have hne : st ≠ .under := by rcases hst with rfl | rfl <;> simp
    have hnd : st ≠ .digit := by rcases hst with rfl | rfl <;> simp
    rw [val] at h
    rw [List.cons_append, uokLoop, good]
    by_cases hc : c = 95
    · subst hc
      rw [if_neg (by cases hex <;> decide), if_pos rfl, if_pos hnd]; simp
    · rw [if_neg hc] at h
      cases hd : digitVal c with
      | none => rw [hd] at h; simp at h
      | some d =>
        rw [hd] at h
        simp only at h
        by_cases hlt : d < baseOf hex
        · rw [if_pos hlt] at h
          rw [if_pos ((uok_digit hex c).2 ⟨d, hd, hlt⟩), if_neg hc]
          simpa using uok_run hex a r _ k false h hs
        · rw [if_neg hlt] at h; simp at h

theorem val_up : ∀ (t : Bytes) (n k m : Nat), val 10 n t = some k → ∃ k', val 16 m t = some k'
  | [], n, k, m, _ => ⟨m, rfl⟩
  | c :: t, n, k, m, h => by
    rw [val] at h
    simp only [val]
    by_cases hc : c = 95
    · rw [if_pos hc] at h ⊢
      exact val_up t n k m h
    · rw [if_neg hc] at h ⊢
      cases hd : digitVal c with
      | none => rw [hd] at h; simp at h
      | some d =>
        rw [hd] at h
        simp only at h ⊢
        by_cases hlt : d < 10
        · rw [if_pos hlt] at h
          rw [if_pos (by omega)]
          exact val_up t _ k _ h
        · rw [if_neg hlt] at h; simp at h

theorem val_base (hex : Bool) (t : Bytes) (n k m : Nat) (h : val 10 n t = some k) : ∃ k', val (baseOf hex) m t = some k' := by
  cases hex with
  | true => exact val_up t n k m h
  | false =>
    have : ∀ (t : Bytes) (n k m : Nat), val 10 n t = some k → ∃ k', val 10 m t = some k' := by
      intro t
      induction t with
      | nil => intro n k m _; exact ⟨m, rfl⟩
      | cons c t ih =>
        intro n k m h
        rw [val] at h
        simp only [val]
        split at h
        · rename_i hc; rw [if_pos hc]; exact ih n k m h
        · rename_i hc; rw [if_neg hc]
          cases hd : digitVal c with
          | none => rw [hd] at h; simp at h
          | some d =>
            rw [hd] at h
            simp only at h ⊢
            split at h
            · rename_i hlt; rw [if_pos hlt]; exact ih _ k _ h
            · simp at h
    exact this t n k m h

/-! ## The exponent -/

theorem lower_e (c : UInt8) (hex : Bool) : lowerByte c = (if hex then 112 else 101) ↔ c = (if hex then 112 else 101) ∨ c = (if hex then 80 else 69) := by
  have tab : ∀ (hex : Bool) (i : Fin 256), lowerByte (UInt8.ofFin i) = (if hex then 112 else 101) ↔
    UInt8.ofFin i = (if hex then 112 else 101) ∨ UInt8.ofFin i = (if hex then 80 else 69) := by decide +kernel
  have hc : c = UInt8.ofFin ⟨c.toNat, c.toNat_lt⟩ := by apply UInt8.toNat_inj.1; rfl
  rw [hc]; exact tab hex _

/-- A text of digits and underscores that begins with a digit. -/
def Run (t : Bytes) (n : Nat) : Prop := val 10 0 t = some n ∧ ∃ c s, t = c :: s ∧ 48 ≤ c ∧ c ≤ 57

/-- The exponent as it is read: letter, sign, digits. -/
inductive RawExp (hex : Bool) : Bytes → Int → Bytes → Prop where
  | none : hex = false → RawExp hex [] 0 []
  | plain {c t n} : c = (if hex then 112 else 101) ∨ c = (if hex then 80 else 69) → Run t n → RawExp hex (c :: t) n t
  | plus {c t n} : c = (if hex then 112 else 101) ∨ c = (if hex then 80 else 69) → Run t n → RawExp hex (c :: 43 :: t) n t
  | minus {c t n} : c = (if hex then 112 else 101) ∨ c = (if hex then 80 else 69) → Run t n → RawExp hex (c :: 45 :: t) (-n) t

theorem clip_zero : clip 0 = 0 := clip_small (by omega)

theorem clip_pos {n : Nat} (h : 0 < n) : 0 < clip n := by
  induction n using Nat.strongRecOn with
  | ind n ih =>
    rw [clip]
    split
    · exact h
    · exact ih (n / 10) (by omega) (by omega)

theorem clipInt_nat (n : Nat) : clipInt n = clip n := by
  unfold clipInt; rw [if_neg (by omega)]; simp

theorem clipInt_neg (n : Nat) : clipInt (-n) = -(clip n : Int) := by
  unfold clipInt
  by_cases h : n = 0
  · subst h; simp [clip_zero]
  · rw [if_pos (by omega)]; simp

/-- The digits of the exponent. -/
theorem exp_digits (us : Bool) (t : Bytes) (e : Nat) (us' : Bool) (c : UInt8) (s : Bytes) (ht : t = c :: s) (hc : 48 ≤ c ∧ c ≤ 57) :
    expLoop 0 us t = (e, us', []) ↔ ∃ n, Run t n ∧ e = clip n ∧ us' = (us || decide (95 ∈ t)) := by
  obtain ⟨a, r, m, h1, h2, h3⟩ := split_run 10 t 0
  have hl : expLoop 0 us t = (clip m, us || decide (95 ∈ a), r) := by
    rw [h1]
    have := exp_run a r 0 m us h2
    rw [clip_zero] at this
    rw [this, exp_stop _ _ _ h3]
  rw [hl]
  constructor
  · intro h
    simp only [Prod.mk.injEq] at h
    obtain ⟨rfl, rfl, rfl⟩ := h
    simp at h1
    subst h1
    exact ⟨m, ⟨h2, c, s, ht, hc⟩, rfl, rfl⟩
  · rintro ⟨n, ⟨hn, -⟩, rfl, rfl⟩
    have hr : r = [] := by
      cases r with
      | nil => rfl
      | cons d r =>
        exfalso
        obtain ⟨h5, h6⟩ := h3 d r rfl
        have : ∀ (a : Bytes) (i m n : Nat), val 10 i a = some m → val 10 i (a ++ d :: r) = some n → False := by
          intro a
          induction a with
          | nil =>
            intro i m n _ h
            rw [List.nil_append, val, if_neg h5] at h
            cases hd : digitVal d with
            | none => rw [hd] at h; simp at h
            | some k => rw [hd] at h; simp only at h; rw [if_neg (by have := h6 k hd; omega)] at h; simp at h
          | cons x a ih =>
            intro i m n h h'
            rw [val] at h
            rw [List.cons_append, val] at h'
            split at h
            · rename_i hx; rw [if_pos hx] at h'; exact ih _ _ _ h h'
            · rename_i hx; rw [if_neg hx] at h'
              cases hd : digitVal x with
              | none => rw [hd] at h; simp at h
              | some k =>
                rw [hd] at h h'
                simp only at h h'
                split at h
                · rename_i hlt; rw [if_pos hlt] at h'; exact ih _ _ _ h h'
                · simp at h
        rw [h1] at hn
        exact this a 0 m n h2 hn
    subst hr
    simp at h1
    subst h1
    rw [hn] at h2
    simp at h2
    subst h2
    rfl

theorem expDigits_iff (us neg : Bool) (t : Bytes) (x : Int) (us' : Bool) : expDigits us neg t = some (x, us') ↔
    ∃ n, Run t n ∧ x = (if neg then -(clip n : Int) else clip n) ∧ us' = (us || decide (95 ∈ t)) := by
  cases t with
  | nil => simp only [expDigits, reduceCtorEq, false_iff]; rintro ⟨n, ⟨-, c, s, h, -⟩, -⟩; simp at h
  | cons d t =>
    simp only [expDigits]
    by_cases hd : 48 ≤ d ∧ d ≤ 57
    · rw [if_pos hd]
      have := fun e u => exp_digits us (d :: t) e u d t rfl hd
      constructor
      · intro h
        split at h
        · rename_i e u he
          simp at h
          obtain ⟨rfl, rfl⟩ := h
          obtain ⟨n, h1, rfl, h3⟩ := (this e u).1 he
          exact ⟨n, h1, rfl, h3⟩
        · simp at h
      · rintro ⟨n, h1, rfl, h3⟩
        rw [(this (clip n) us').2 ⟨n, h1, rfl, h3⟩]
    · rw [if_neg hd]
      simp only [reduceCtorEq, false_iff]
      rintro ⟨n, ⟨-, c', s', h, h'⟩, -⟩
      simp at h
      obtain ⟨rfl, rfl⟩ := h
      exact hd h'

theorem signOf_cases (s : Bytes) : (∃ t, s = 43 :: t ∧ signOf s = (false, t)) ∨ (∃ t, s = 45 :: t ∧ signOf s = (true, t)) ∨
    ((∀ t, s ≠ 43 :: t) ∧ (∀ t, s ≠ 45 :: t) ∧ signOf s = (false, s)) := by
  unfold signOf
  split
  · exact .inl ⟨_, rfl, rfl⟩
  · exact .inr (.inl ⟨_, rfl, rfl⟩)
  · rename_i h1 h2
    exact .inr (.inr ⟨h1, h2, rfl⟩)

theorem readExp_iff (hex us : Bool) (r : Bytes) (x : Int) (us' : Bool) :
    readExp hex us r = some (x, us') ↔ ∃ y t, RawExp hex r y t ∧ x = clipInt y ∧ us' = (us || decide (95 ∈ t)) := by
  cases r with
  | nil =>
    cases hex with
    | true =>
      simp only [readExp, if_true]
      constructor
      · intro h; simp at h
      · rintro ⟨y, t, h, -⟩; cases h; simp_all
    | false =>
      simp only [readExp]
      constructor
      · intro h
        simp at h
        obtain ⟨rfl, rfl⟩ := h
        exact ⟨0, [], .none rfl, by simp [clipInt, clip_zero], by simp⟩
      · rintro ⟨y, t, h, rfl, rfl⟩
        cases h
        simp [clipInt, clip_zero]
  | cons c s =>
    simp only [readExp]
    by_cases hl : lowerByte c = (if hex then 112 else 101)
    · rw [if_pos hl]
      have hl' := (lower_e c hex).1 hl
      rcases signOf_cases s with ⟨t, rfl, h⟩ | ⟨t, rfl, h⟩ | ⟨n1, n2, h⟩ <;> rw [h, expDigits_iff]
      · constructor
        · rintro ⟨n, h1, h2, h3⟩
          exact ⟨n, t, .plus hl' h1, by rw [clipInt_nat]; simpa using h2, h3⟩
        · rintro ⟨y, t', h, h2, h3⟩
          cases h with
          | plain _ h1 => obtain ⟨-, c', s', h5, h6⟩ := h1; simp at h5; obtain ⟨rfl, -⟩ := h5; exact absurd h6.1 (by decide)
          | plus _ h1 => exact ⟨_, h1, by rw [clipInt_nat] at h2; simpa using h2, h3⟩
      · constructor
        · rintro ⟨n, h1, h2, h3⟩
          exact ⟨-n, t, .minus hl' h1, by rw [clipInt_neg]; simpa using h2, h3⟩
        · rintro ⟨y, t', h, h2, h3⟩
          cases h with
          | plain _ h1 => obtain ⟨-, c', s', h5, h6⟩ := h1; simp at h5; obtain ⟨rfl, -⟩ := h5; exact absurd h6.1 (by decide)
          | minus _ h1 => exact ⟨_, h1, by rw [clipInt_neg] at h2; simpa using h2, h3⟩
      · constructor
        · rintro ⟨n, h1, h2, h3⟩
          exact ⟨n, s, .plain hl' h1, by rw [clipInt_nat]; simpa using h2, h3⟩
        · rintro ⟨y, t', h, h2, h3⟩
          cases h with
          | plain _ h1 => exact ⟨_, h1, by rw [clipInt_nat] at h2; simpa using h2, h3⟩
          | plus => exact absurd rfl (n1 _)
          | minus => exact absurd rfl (n2 _)
    · rw [if_neg hl]
      simp only [reduceCtorEq, false_iff]
      rintro ⟨y, t, h, -⟩
      apply hl
      rw [lower_e]
      cases h <;> assumption

/-! ## The literal -/

/-- The mantissa as it is read: digits and underscores before the point, and after it. -/
inductive RawMant (base : Nat) : Bytes → Nat → Bytes → Bytes → Prop where
  | whole {a n} : val base 0 a = some n → RawMant base a n a []
  | point {a i b n} : val base 0 a = some i → val base i b = some n → RawMant base (a ++ 46 :: b) n a b

/-- Whether the point was read does not matter but for the digits after it. -/
theorem mant_iff (base : Nat) (s : Bytes) : ∃ m n a b r, s = m ++ r ∧ RawMant base m n a b ∧ Stop base r ∧
    (r.head? = some 46 → 46 ∈ m) ∧ ∃ dot, mantLoop base ⟨0, 0, false, false, false⟩ s = (⟨n, count b, dot, decide (0 < count a + count b), decide (95 ∈ a ++ b)⟩, r) := by
  obtain ⟨a, r, i, h1, h2, h3⟩ := split_run base s 0
  have hl := mant_run base a r ⟨0, 0, false, false, false⟩ i h2
  rw [← h1] at hl
  by_cases h46 : ∃ t, r = 46 :: t
  · obtain ⟨t, rfl⟩ := h46
    rw [mant_dot _ _ _ rfl] at hl
    obtain ⟨b, r2, n, h4, h5, h6⟩ := split_run base t i
    subst h4
    rw [mant_run base b r2 _ n h5, mant_stop base _ r2 h6 (fun _ _ => rfl)] at hl
    refine ⟨a ++ 46 :: b, n, a, b, r2, by simp [h1], .point h2 h5, h6, fun _ => by simp, true, ?_⟩
    rw [hl]
    simp only [Prod.mk.injEq, and_true, Scan.mk.injEq, true_and]
    refine ⟨by simp, ?_, by simp⟩
    rw [Bool.eq_iff_iff]; simp
  · rw [mant_stop base _ r h3 (fun s hs => absurd ⟨s, hs⟩ h46)] at hl
    refine ⟨a, i, a, [], r, h1, .whole h2, h3, fun h => ?_, false, ?_⟩
    · cases r with
      | nil => simp at h
      | cons c r => simp at h; exact absurd ⟨r, by rw [h]⟩ h46
    · rw [hl]; simp [count]

theorem mant_of_raw (base : Nat) {m r a b : Bytes} {n : Nat} (h : RawMant base m n a b) (hs : Stop base r) (h46 : r.head? ≠ some 46) :
    ∃ dot, mantLoop base ⟨0, 0, false, false, false⟩ (m ++ r) = (⟨n, count b, dot, decide (0 < count a + count b), decide (95 ∈ a ++ b)⟩, r) := by
  have hst : ∀ sc, mantLoop base sc r = (sc, r) := fun sc => mant_stop base sc r hs (fun s hs' => by subst hs'; exact absurd rfl h46)
  cases h with
  | whole h =>
    refine ⟨false, ?_⟩
    rw [mant_run base _ r ⟨0, 0, false, false, false⟩ n h, hst]; simp [count]
  | @point _ i _ _ h1 h2 =>
    refine ⟨true, ?_⟩
    rw [List.append_assoc, List.cons_append, mant_run base a _ ⟨0, 0, false, false, false⟩ i h1, mant_dot _ _ _ rfl, mant_run base b r _ n h2, hst]
    simp only [Prod.mk.injEq, and_true, Scan.mk.injEq, true_and]
    refine ⟨by simp, ?_, by simp⟩
    rw [Bool.eq_iff_iff]; simp

theorem rawExp_stop {hex : Bool} {r t : Bytes} {y : Int} (h : RawExp hex r y t) : Stop (baseOf hex) r ∧ r.head? ≠ some 46 := by
  have key : ∀ c s, c = (if hex then 112 else 101) ∨ c = (if hex then 80 else 69) → Stop (baseOf hex) (c :: s) ∧ (c :: s).head? ≠ some (46 : UInt8) := by
    intro c s hc
    refine ⟨?_, ?_⟩
    · intro c' s' h
      simp at h
      obtain ⟨rfl, -⟩ := h
      cases hex <;> rcases hc with rfl | rfl <;> refine ⟨by decide, ?_⟩ <;> intro d hd
      · have : digitVal 101 = some 14 := by decide
        simp at hd; rw [this] at hd; simp [baseOf] at hd ⊢; omega
      · have : digitVal 69 = some 14 := by decide
        simp at hd; rw [this] at hd; simp [baseOf] at hd ⊢; omega
      · have : digitVal 112 = some 25 := by decide
        simp at hd; rw [this] at hd; simp [baseOf] at hd ⊢; omega
      · have : digitVal 80 = some 25 := by decide
        simp at hd; rw [this] at hd; simp [baseOf] at hd ⊢; omega
    · cases hex <;> rcases hc with rfl | rfl <;> simp
  cases h with
  | none => exact ⟨by intro c s h; simp at h, by simp⟩
  | plain hc _ => exact key _ _ hc
  | plus hc _ => exact key _ _ hc
  | minus hc _ => exact key _ _ hc

theorem stop_nil (base : Nat) : Stop base [] := by intro c s h; simp at h

theorem stop46 (base : Nat) (s : Bytes) : Stop base (46 :: s) := by
  intro c s' h
  simp at h
  obtain ⟨rfl, -⟩ := h
  exact ⟨by decide, by intro d hd; rw [digit46] at hd; simp at hd⟩

/-- Digits first, or nothing. -/
def clean (t : Bytes) : Bool := decide (t = []) || good true t

theorem uok_other (hex : Bool) {t : Bytes} {n : Nat} (h : val 10 0 t = some n) : uokLoop hex .other t = clean t := by
  obtain ⟨k, hk⟩ := val_base hex t 0 n 0 h
  have := uok_first hex t [] 0 k .other (.inr rfl) hk (stop_nil _)
  simpa [clean, uokTail] using this

theorem uokTail_exp {hex : Bool} {r t : Bytes} {y : Int} (h : RawExp hex r y t) : uokTail hex r = clean t := by
  cases h with
  | none => rfl
  | plain _ h => exact uok_other hex h.1
  | plus _ h =>
    show uokLoop hex .other (43 :: t) = _
    rw [uokLoop, if_neg (by cases hex <;> decide), if_neg (by decide), if_neg (by decide)]
    exact uok_other hex h.1
  | minus _ h =>
    show uokLoop hex .other (45 :: t) = _
    rw [uokLoop, if_neg (by cases hex <;> decide), if_neg (by decide), if_neg (by decide)]
    exact uok_other hex h.1

/-- The condition on the digits before the point. -/
def lead (hex : Bool) (a : Bytes) : Bool := if hex then good false a else clean a

theorem uok_all {hex : Bool} {m r a b t : Bytes} {n : Nat} {y : Int} (hm : RawMant (baseOf hex) m n a b) (hr : RawExp hex r y t) :
    uokLoop hex (if hex then .digit else .start) (m ++ r) = (lead hex a && clean b && clean t) := by
  have first : ∀ (a r' : Bytes) (i : Nat), val (baseOf hex) 0 a = some i → Stop (baseOf hex) r' →
      uokLoop hex (if hex then .digit else .start) (a ++ r') = (lead hex a && uokTail hex r') := by
    intro a r' i h1 h2
    cases hex with
    | true => simpa [lead] using uok_run true a r' 0 i false h1 h2
    | false => simpa [lead, clean] using uok_first false a r' 0 i .start (.inl rfl) h1 h2
  cases hm with
  | whole h =>
    rw [first _ r n h (rawExp_stop hr).1, uokTail_exp hr]
    simp [clean]
  | @point _ i _ _ h1 h2 =>
    rw [List.append_assoc, List.cons_append, first a _ i h1 (stop46 _ _)]
    have : uokTail hex (46 :: (b ++ r)) = uokLoop hex .other (b ++ r) := rfl
    rw [this, uok_first hex b r i n .other (.inr rfl) h2 (rawExp_stop hr).1, uokTail_exp hr, Bool.and_assoc]
    rfl

theorem good_true_no {t : Bytes} (h : 95 ∉ t) (hn : t ≠ []) : good true t = true := by
  cases t with
  | nil => exact absurd rfl hn
  | cons c s =>
    simp at h
    rw [good, if_neg (fun e => h.1 e.symm)]
    exact good_no h.2

theorem clean_no {t : Bytes} (h : 95 ∉ t) : clean t = true := by
  unfold clean
  by_cases hn : t = []
  · simp [hn]
  · simp [good_true_no h hn]

/-- The middle part of `readBody`. -/
def readCore (hex uok : Bool) (s : Bytes) : Option (Nat × Int) :=
  let mr := mantLoop (baseOf hex) ⟨0, 0, false, false, false⟩ s
  if !mr.1.dig then none
  else match readExp hex mr.1.us mr.2 with
    | none => none
    | some (e, us) => if us && !uok then none else some (mr.1.n, e - (if hex then 4 * mr.1.frac else mr.1.frac))

theorem readBody_core (t : Bytes) : readBody t = (readCore (prefixOf t).1 (underscoreOK t) (prefixOf t).2).map fun p => ((prefixOf t).1, p.1, p.2) := by
  unfold readBody readCore
  have hb : (if (prefixOf t).1 then 16 else 10) = baseOf (prefixOf t).1 := rfl
  simp only [hb]
  generalize mantLoop (baseOf (prefixOf t).1) ⟨0, 0, false, false, false⟩ (prefixOf t).2 = mr
  cases mr.1.dig with
  | false => rfl
  | true =>
    simp only [Bool.not_true, Bool.false_eq_true, if_false]
    cases readExp (prefixOf t).1 mr.1.us mr.2 with
    | none => rfl
    | some p =>
      obtain ⟨e, us⟩ := p
      simp only
      split <;> rfl

theorem readCore_iff (hex uok : Bool) (s : Bytes) (huok : ∀ m r a b t n y, s = m ++ r → RawMant (baseOf hex) m n a b → RawExp hex r y t → uok = (lead hex a && clean b && clean t))
    (n : Nat) (x : Int) : readCore hex uok s = some (n, x) ↔
      ∃ m r a b t y, s = m ++ r ∧ RawMant (baseOf hex) m n a b ∧ RawExp hex r y t ∧ 0 < count a + count b ∧ lead hex a = true ∧ clean b = true ∧ clean t = true ∧
        x = clipInt y - (if hex then 4 * count b else count b) := by
  constructor
  · intro h
    obtain ⟨m, k, a, b, r, h1, h2, h3, h4, dot, h5⟩ := mant_iff (baseOf hex) s
    unfold readCore at h
    rw [h5] at h
    simp only at h
    split at h
    · simp at h
    · rename_i hdig
      split at h
      · simp at h
      · rename_i e us he
        obtain ⟨y, t, h6, rfl, rfl⟩ := (readExp_iff _ _ _ _ _).1 he
        split at h
        · simp at h
        · rename_i hu
          simp only [Option.some.injEq, Prod.mk.injEq] at h
          obtain ⟨rfl, rfl⟩ := h
          have hU := huok m r a b t k y h1 h2 h6
          have hall : (lead hex a && clean b && clean t) = true := by
            by_cases hus : 95 ∈ a ++ b ∨ 95 ∈ t
            · rw [← hU]
              cases huv : uok with
              | true => rfl
              | false =>
                exfalso; apply hu
                rw [huv]
                rcases hus with h | h <;> simp_all
            · simp only [List.mem_append, not_or] at hus
              have : lead hex a = true := by
                unfold lead
                cases hex with
                | true => simpa using good_no hus.1.1
                | false => simpa using clean_no hus.1.1
              rw [this, clean_no hus.1.2, clean_no hus.2]; rfl
          simp only [Bool.and_eq_true] at hall
          refine ⟨m, r, a, b, t, y, h1, h2, h6, by simp at hdig; omega, hall.1.1, hall.1.2, hall.2, ?_⟩
          cases hex <;> simp
  · rintro ⟨m, r, a, b, t, y, rfl, h2, h3, h4, h5, h6, h7, rfl⟩
    obtain ⟨dot, h8⟩ := mant_of_raw (baseOf hex) h2 (rawExp_stop h3).1 (rawExp_stop h3).2
    unfold readCore
    rw [h8]
    simp only
    rw [if_neg (by simp; omega), (readExp_iff hex (decide (95 ∈ a ++ b)) r (clipInt y) _).2 ⟨y, t, h3, rfl, rfl⟩]
    simp only
    have hU := huok m r a b t n y rfl h2 h3
    rw [h5, h6, h7] at hU
    rw [if_neg (by rw [hU]; simp)]

/-! ### The grammar -/

theorem count_pos {base n m : Nat} {t : Bytes} (hb : base ≤ 16) (h : LitDigits base n t m) : 0 < count t := by
  obtain ⟨c, r, d, rfl, hd⟩ := Conf.litDigits_head h
  rw [count_cons, if_neg (Conf.digitOf_ne hd)]; omega

theorem mantissa_iff (base : Nat) (hb : base ≤ 16) (m : Bytes) (n f : Nat) : Mantissa base m n f ↔
    ∃ a b, RawMant base m n a b ∧ f = count b ∧ clean a = true ∧ clean b = true ∧ 0 < count a + count b := by
  have lit := fun t acc n => litDigits_iff hb t acc n
  have cl : ∀ {t acc n}, LitDigits base acc t n → clean t = true := by
    intro t acc n h; simp [clean, ((lit _ _ _).1 h).1]
  constructor
  · intro h
    cases h with
    | whole h => exact ⟨m, [], .whole ((lit _ _ _).1 h).2, rfl, cl h, rfl, by have := count_pos hb h; omega⟩
    | @point t _ h => exact ⟨t, [], .point ((lit _ _ _).1 h).2 rfl, rfl, cl h, rfl, by have := count_pos hb h; omega⟩
    | @both t i u _ h1 h2 => exact ⟨t, u, .point ((lit _ _ _).1 h1).2 ((lit _ _ _).1 h2).2, rfl, cl h1, cl h2, by have := count_pos hb h1; omega⟩
    | @frac u _ h => exact ⟨[], u, .point (a := []) rfl ((lit _ _ _).1 h).2, rfl, rfl, cl h, by have := count_pos hb h; omega⟩
  · rintro ⟨a, b, h1, rfl, h3, h4, h5⟩
    simp only [clean, Bool.or_eq_true, decide_eq_true_eq] at h3 h4
    cases h1 with
    | whole h =>
      rcases h3 with rfl | h3
      · simp [count] at h5
      · exact .whole ((lit _ _ _).2 ⟨h3, h⟩)
    | @point _ i _ _ h1 h2 =>
      rcases h3 with rfl | h3
      · rcases h4 with rfl | h4
        · simp [count] at h5
        · simp [val] at h1; subst h1
          exact .frac ((lit _ _ _).2 ⟨h4, h2⟩)
      · rcases h4 with rfl | h4
        · simp [val] at h2; subst h2
          exact .point ((lit _ _ _).2 ⟨h3, h1⟩)
        · exact .both ((lit _ _ _).2 ⟨h3, h1⟩) ((lit _ _ _).2 ⟨h4, h2⟩)

theorem val_us (base n : Nat) (t : Bytes) : val base n (95 :: t) = val base n t := by rw [val, if_pos rfl]

theorem hexMant_iff (s : Bytes) (n f : Nat) : (∃ u m, s = u ++ m ∧ (u = [] ∨ u = [95] ∧ m.head? ≠ some 46) ∧ Mantissa 16 m n f) ↔
    ∃ a b, RawMant 16 s n a b ∧ f = count b ∧ good false a = true ∧ clean b = true ∧ 0 < count a + count b := by
  constructor
  · rintro ⟨u, m, rfl, hu, hm⟩
    obtain ⟨a, b, h1, h2, h3, h4, h5⟩ := (mantissa_iff 16 (by omega) _ _ _).1 hm
    rcases hu with rfl | ⟨rfl, hh⟩
    · refine ⟨a, b, h1, h2, ?_, h4, h5⟩
      simp only [clean, Bool.or_eq_true, decide_eq_true_eq] at h3
      rcases h3 with rfl | h3
      · rfl
      · by_cases ha : a = []
        · subst ha; rfl
        · exact (good_false ha).2 ⟨[], a, rfl, .inl rfl, h3⟩
    · have hne : a ≠ [] := by
        rintro rfl
        cases h1 with
        | whole h =>
          simp [clean] at h4
          simp [count] at h5
        | point h1 h2 => simp at hh
      simp only [clean, Bool.or_eq_true, decide_eq_true_eq] at h3
      rcases h3 with h3 | h3
      · exact absurd h3 hne
      · refine ⟨95 :: a, b, ?_, h2, (good_false (by simp)).2 ⟨[95], a, rfl, .inr rfl, h3⟩, h4, ?_⟩
        · cases h1 with
          | whole h => exact .whole (a := 95 :: m) (by rw [val_us]; exact h)
          | point h h' => exact .point (a := 95 :: a) (by rw [val_us]; exact h) h'
        · rw [count_cons]; simp; omega
  · rintro ⟨a, b, h1, h2, h3, h4, h5⟩
    by_cases ha : a = []
    · exact ⟨[], s, rfl, .inl rfl, (mantissa_iff 16 (by omega) _ _ _).2 ⟨a, b, h1, h2, by simp [clean, ha], h4, h5⟩⟩
    · obtain ⟨u, r, rfl, hu, hg⟩ := (good_false ha).1 h3
      rcases hu with rfl | rfl
      · exact ⟨[], s, rfl, .inl rfl, (mantissa_iff 16 (by omega) _ _ _).2 ⟨_, b, h1, h2, by simp [clean, hg], h4, h5⟩⟩
      · have hr : ∃ c r', r = c :: r' := by
          cases r with
          | nil => simp [good] at hg
          | cons c r' => exact ⟨c, r', rfl⟩
        obtain ⟨c, r', rfl⟩ := hr
        have hc46 : ∀ i, val 16 0 (c :: r') = some i → c ≠ 46 := by
          intro i h e
          subst e
          rw [val, if_neg (by decide), digit46] at h
          simp at h
        have hcnt : count ([95] ++ c :: r') = count (c :: r') := by
          show count (95 :: c :: r') = _
          rw [count_cons]; simp
        cases h1 with
        | whole h =>
          have h : val 16 0 (95 :: c :: r') = some n := h
          rw [val_us] at h
          exact ⟨[95], c :: r', rfl, .inr ⟨rfl, by simpa using hc46 _ h⟩,
            (mantissa_iff 16 (by omega) _ _ _).2 ⟨c :: r', [], .whole h, h2, by simp [clean, hg], h4, by rw [hcnt] at h5; exact h5⟩⟩
        | @point _ i _ _ h h' =>
          have h : val 16 0 (95 :: c :: r') = some i := h
          rw [val_us] at h
          exact ⟨[95], c :: r' ++ 46 :: b, rfl, .inr ⟨rfl, by simpa using hc46 _ h⟩,
            (mantissa_iff 16 (by omega) _ _ _).2 ⟨c :: r', b, .point h h', h2, by simp [clean, hg], h4, by rw [hcnt] at h5; exact h5⟩⟩

theorem exponent_iff (hex : Bool) (r : Bytes) (y : Int) : (∃ t, RawExp hex r y t ∧ clean t = true) ↔
    (hex = false ∧ r = [] ∧ y = 0) ∨ Exponent (if hex then 112 else 101) (if hex then 80 else 69) r y := by
  have lit := fun t n => litDigits_iff (base := 10) (by omega) t 0 n
  have run : ∀ {t n}, LitDigits 10 0 t n → Run t n ∧ clean t = true := by
    intro t n h
    obtain ⟨h1, h2⟩ := (lit t n).1 h
    obtain ⟨c, r, d, rfl, hd⟩ := Conf.litDigits_head h
    obtain ⟨h3, h4⟩ := (Conf.digitVal_iff 10 (by omega) c d).1 hd
    exact ⟨⟨h2, c, r, rfl, (digit_range c).2 ⟨d, h3, h4⟩⟩, by simp [clean, h1]⟩
  have back : ∀ {t n}, Run t n → clean t = true → LitDigits 10 0 t n := by
    rintro t n ⟨h1, c, s, rfl, -⟩ h2
    simp [clean] at h2
    exact (lit _ _).2 ⟨h2, h1⟩
  constructor
  · rintro ⟨t, h, hc⟩
    cases h with
    | none h => exact .inl ⟨h, rfl, rfl⟩
    | plain h1 h2 => exact .inr (.plain h1 (back h2 hc))
    | plus h1 h2 => exact .inr (.plus h1 (back h2 hc))
    | minus h1 h2 => exact .inr (.minus h1 (back h2 hc))
  · rintro (⟨h, rfl, rfl⟩ | h)
    · exact ⟨[], .none h, rfl⟩
    · cases h with
      | plain h1 h2 => exact ⟨_, .plain h1 (run h2).1, (run h2).2⟩
      | plus h1 h2 => exact ⟨_, .plus h1 (run h2).1, (run h2).2⟩
      | minus h1 h2 => exact ⟨_, .minus h1 (run h2).1, (run h2).2⟩

/-! ### `readBody` reads the literals of the grammar -/

/-- Bytes of decimal literals. -/
def DecByte (c : UInt8) : Prop := (48 ≤ c ∧ c ≤ 57) ∨ c = 95 ∨ c = 46 ∨ c = 101 ∨ c = 69 ∨ c = 43 ∨ c = 45

instance (c : UInt8) : Decidable (DecByte c) := by unfold DecByte; infer_instance

theorem val_bytes : ∀ (t : Bytes) (acc n : Nat), val 10 acc t = some n → ∀ c ∈ t, DecByte c
  | [], _, _, _ => by simp
  | c :: t, acc, n, h => by
    rw [val] at h
    intro x hx
    by_cases hc : c = 95
    · rw [if_pos hc] at h
      rcases List.mem_cons.1 hx with rfl | hx
      · exact .inr (.inl hc)
      · exact val_bytes t _ _ h x hx
    · rw [if_neg hc] at h
      cases hd : digitVal c with
      | none => rw [hd] at h; simp at h
      | some d =>
        rw [hd] at h
        simp only at h
        by_cases hlt : d < 10
        · rw [if_pos hlt] at h
          rcases List.mem_cons.1 hx with rfl | hx
          · exact .inl ((digit_range _).2 ⟨d, hd, hlt⟩)
          · exact val_bytes t _ _ h x hx
        · rw [if_neg hlt] at h; simp at h

theorem dec_bytes {m r a b t : Bytes} {n : Nat} {y : Int} (hm : RawMant 10 m n a b) (hr : RawExp false r y t) : ∀ c ∈ m ++ r, DecByte c := by
  intro c hc
  rcases List.mem_append.1 hc with hc | hc
  · cases hm with
    | whole h => exact val_bytes _ _ _ h c hc
    | point h1 h2 =>
      rcases List.mem_append.1 hc with hc | hc
      · exact val_bytes _ _ _ h1 c hc
      · rcases List.mem_cons.1 hc with rfl | hc
        · exact .inr (.inr (.inl rfl))
        · exact val_bytes _ _ _ h2 c hc
  · cases hr with
    | none => simp at hc
    | plain h1 h2 =>
      rcases List.mem_cons.1 hc with rfl | hc
      · rcases h1 with h1 | h1 <;> simp at h1 <;> simp [DecByte, h1]
      · exact val_bytes _ _ _ h2.1 c hc
    | plus h1 h2 =>
      rcases List.mem_cons.1 hc with rfl | hc
      · rcases h1 with h1 | h1 <;> simp at h1 <;> simp [DecByte, h1]
      · rcases List.mem_cons.1 hc with rfl | hc
        · simp [DecByte]
        · exact val_bytes _ _ _ h2.1 c hc
    | minus h1 h2 =>
      rcases List.mem_cons.1 hc with rfl | hc
      · rcases h1 with h1 | h1 <;> simp at h1 <;> simp [DecByte, h1]
      · rcases List.mem_cons.1 hc with rfl | hc
        · simp [DecByte]
        · exact val_bytes _ _ _ h2.1 c hc

theorem decByte_lower (c : UInt8) (h : DecByte c) : ¬ (lowerByte c = 98 ∨ lowerByte c = 111 ∨ lowerByte c = 120) := by
  have key : ∀ c : Fin 256, DecByte (UInt8.ofFin c) → ¬ (lowerByte (UInt8.ofFin c) = 98 ∨ lowerByte (UInt8.ofFin c) = 111 ∨ lowerByte (UInt8.ofFin c) = 120) := by
    decide +kernel
  exact key c.toFin h

theorem uok_dec {t : Bytes} (h : ∀ c ∈ t, DecByte c) : underscoreOK t = uokLoop false .start t := by
  unfold underscoreOK
  split
  · rename_i p s
    rw [if_neg (decByte_lower p (h p (by simp)))]
  · rfl

theorem prefix_cases (t : Bytes) : (∃ p s, t = 48 :: p :: s ∧ s ≠ [] ∧ lowerByte p = 120 ∧ prefixOf t = (true, s)) ∨ prefixOf t = (false, t) := by
  unfold prefixOf
  split
  · rename_i p c r
    by_cases h : lowerByte p = 120
    · exact .inl ⟨p, c :: r, rfl, by simp, h, by rw [if_pos h]⟩
    · exact .inr (by rw [if_neg h])
  · exact .inr rfl

theorem prefix_dec {t : Bytes} (h : ∀ c ∈ t, DecByte c) : prefixOf t = (false, t) := by
  rcases prefix_cases t with ⟨p, s, rfl, -, h2, -⟩ | h
  · exact absurd (.inr (.inr h2)) (decByte_lower p (h p (by simp)))
  · exact h

theorem lower_x (p : UInt8) : lowerByte p = 120 ↔ p = 120 ∨ p = 88 := by
  have key : ∀ c : Fin 256, lowerByte (UInt8.ofFin c) = 120 ↔ UInt8.ofFin c = 120 ∨ UInt8.ofFin c = 88 := by decide +kernel
  exact key p.toFin

theorem readBody_dec (t : Bytes) (n : Nat) (x : Int) (hp : prefixOf t = (false, t)) :
    readBody t = some (false, n, x) ↔ ∃ f y, Body t false n f y ∧ x = clipInt y - f := by
  rw [readBody_core, hp]
  have hcore := readCore_iff false (underscoreOK t) t (by
    intro m r a b t' k y hs hm hr
    subst hs
    rw [uok_dec (dec_bytes hm hr)]
    exact uok_all hm hr) n x
  constructor
  · intro h
    simp only [Option.map_eq_some_iff, Prod.mk.injEq, true_and] at h
    obtain ⟨⟨n', x'⟩, h, rfl, rfl⟩ := h
    obtain ⟨m, r, a, b, t', y, rfl, h1, h2, h3, h4, h5, h6, rfl⟩ := hcore.1 h
    have hm := (mantissa_iff 10 (by omega) m n' (count b)).2 ⟨a, b, h1, rfl, by simpa [lead] using h4, h5, h3⟩
    refine ⟨count b, y, ?_, by simp⟩
    rcases (exponent_iff false r y).1 ⟨t', h2, h6⟩ with ⟨-, rfl, rfl⟩ | he
    · rw [List.append_nil]; exact .dec hm
    · exact .decExp hm he
  · rintro ⟨f, y, hb, rfl⟩
    rw [Option.map_eq_some_iff]
    refine ⟨(n, clipInt y - f), hcore.2 ?_, rfl⟩
    cases hb with
    | dec hm =>
      obtain ⟨a, b, h1, rfl, h3, h4, h5⟩ := (mantissa_iff 10 (by omega) _ _ _).1 hm
      exact ⟨t, [], a, b, [], 0, by simp, h1, .none rfl, h5, by simpa [lead] using h3, h4, rfl, by simp⟩
    | decExp hm he =>
      obtain ⟨a, b, h1, rfl, h3, h4, h5⟩ := (mantissa_iff 10 (by omega) _ _ _).1 hm
      obtain ⟨t', h6, h7⟩ := (exponent_iff false _ _).2 (.inr he)
      exact ⟨_, _, a, b, t', y, rfl, h1, h6, h5, by simpa [lead] using h3, h4, h7, by simp⟩

theorem readBody_hex (p : UInt8) (s : Bytes) (n : Nat) (x : Int) (hx : lowerByte p = 120) (hp : prefixOf (48 :: p :: s) = (true, s)) :
    readBody (48 :: p :: s) = some (true, n, x) ↔ ∃ f y, Body (48 :: p :: s) true n f y ∧ x = clipInt y - 4 * f := by
  rw [readBody_core, hp]
  have huok : underscoreOK (48 :: p :: s) = uokLoop true .digit s := by
    simp [underscoreOK, hx]
  have hcore := readCore_iff true (underscoreOK (48 :: p :: s)) s (by
    intro m r a b t' k y hs hm hr
    subst hs
    rw [huok]
    exact uok_all hm hr) n x
  constructor
  · intro h
    simp only [Option.map_eq_some_iff, Prod.mk.injEq, true_and] at h
    obtain ⟨⟨n', x'⟩, h, rfl, rfl⟩ := h
    obtain ⟨m, r, a, b, t', y, rfl, h1, h2, h3, h4, h5, h6, rfl⟩ := hcore.1 h
    obtain ⟨u, m', rfl, hu, hm⟩ := (hexMant_iff m n' (count b)).2 ⟨a, b, h1, rfl, by simpa [lead] using h4, h5, h3⟩
    refine ⟨count b, y, ?_, by simp⟩
    rcases (exponent_iff true r y).1 ⟨t', h2, h6⟩ with ⟨h, -⟩ | he
    · simp at h
    · have := Body.hex ((lower_x p).1 hx) hu hm he
      simpa using this
  · rintro ⟨f, y, hb, rfl⟩
    rw [Option.map_eq_some_iff]
    refine ⟨(n, clipInt y - 4 * f), hcore.2 ?_, rfl⟩
    generalize ht : 48 :: p :: s = t at hb
    cases hb with
    | @hex p' u m _ _ e _ h1 h2 h3 h4 =>
      simp only [List.cons_append, List.cons.injEq, true_and] at ht
      obtain ⟨rfl, rfl⟩ := ht
      obtain ⟨a, b, h5, rfl, h6, h7, h8⟩ := (hexMant_iff (u ++ m) n f).1 ⟨u, m, rfl, h2, h3⟩
      obtain ⟨t', h9, h10⟩ := (exponent_iff true _ _).2 (.inr h4)
      exact ⟨u ++ m, e, a, b, t', y, rfl, h5, h9, h8, by simpa [lead] using h6, h7, h10, by simp⟩

theorem mantissa_ne {base : Nat} {m : Bytes} {n f : Nat} (h : Mantissa base m n f) : m ≠ [] := by
  cases h with
  | whole h => obtain ⟨c, r, d, rfl, -⟩ := Conf.litDigits_head h; simp
  | point => simp
  | both => simp
  | frac => simp

/-- `readBody` accepts exactly the literals of the grammar. -/
theorem readBody_iff (t : Bytes) (hex : Bool) (n : Nat) (x : Int) :
    readBody t = some (hex, n, x) ↔ ∃ f y, Body t hex n f y ∧ x = clipInt y - (if hex then 4 * f else f : Nat) := by
  have hfst : ∀ {q}, readBody t = some q → q.1 = (prefixOf t).1 := by
    intro q h
    rw [readBody_core, Option.map_eq_some_iff] at h
    obtain ⟨a, -, rfl⟩ := h
    rfl
  cases hex with
  | true =>
    constructor
    · intro h
      have h1 := hfst h
      rcases prefix_cases t with ⟨p, s, rfl, h2, h3, h4⟩ | h2
      · obtain ⟨f, y, h5, h6⟩ := (readBody_hex p s n x h3 h4).1 h
        exact ⟨f, y, h5, by simpa using h6⟩
      · rw [h2] at h1; simp at h1
    · rintro ⟨f, y, hb, rfl⟩
      have hb' := hb
      generalize ht : t = t' at hb
      cases hb with
      | @hex p u m _ _ e _ h1 h2 h3 h4 =>
        subst ht
        have hne : u ++ m ++ e ≠ [] := by simp [mantissa_ne h3]
        have hp : prefixOf (48 :: p :: (u ++ m ++ e)) = (true, u ++ m ++ e) := by
          generalize u ++ m ++ e = s at hne
          cases s with
          | nil => exact absurd rfl hne
          | cons c r => simp [prefixOf, (lower_x p).2 h1]
        have := (readBody_hex p (u ++ m ++ e) n (clipInt y - 4 * f) ((lower_x p).2 h1) hp).2 ⟨f, y, by simpa using hb', rfl⟩
        simpa using this
  | false =>
    constructor
    · intro h
      have h1 := hfst h
      rcases prefix_cases t with ⟨p, s, rfl, h2, h3, h4⟩ | h2
      · rw [h4] at h1; simp at h1
      · obtain ⟨f, y, h5, h6⟩ := (readBody_dec t n x h2).1 h
        exact ⟨f, y, h5, by simpa using h6⟩
    · rintro ⟨f, y, hb, rfl⟩
      have hp : prefixOf t = (false, t) := by
        apply prefix_dec
        cases hb with
        | dec hm =>
          obtain ⟨a, b, h1, -⟩ := (mantissa_iff 10 (by omega) _ _ _).1 hm
          have := dec_bytes h1 (.none rfl)
          simpa using this
        | decExp hm he =>
          obtain ⟨a, b, h1, -⟩ := (mantissa_iff 10 (by omega) _ _ _).1 hm
          obtain ⟨t', h2, -⟩ := (exponent_iff false _ _).2 (.inr he)
          exact dec_bytes h1 h2
      have := (readBody_dec t n (clipInt y - f) hp).2 ⟨f, y, hb, rfl⟩
      simpa using this

/-! ## `ParseFloat` -/

/-- An optional sign before t; true: minus. -/
inductive Sign : Bytes → Bool → Bytes → Prop where
  | none {t} : Sign t false t
  | plus {t} : Sign (43 :: t) false t
  | minus {t} : Sign (45 :: t) true t

/-- Capital letters of ASCII become small. -/
def low (c : UInt8) : UInt8 := if 65 ≤ c ∧ c ≤ 90 then c + 32 else c

/-- The number that the digits n, the last f of them after the point, and the exponent y stand for.  A hexadecimal digit is four bits. -/
def value (hex : Bool) (n f : Nat) (y : Int) : ℚ := if hex then n * 2 ^ (y - 4 * f) else n * 10 ^ (y - f)

/-- The texts of floats: words, and literals of numbers that are not too large after rounding.  `2 ^ 1074` turns them into the units of `V`. -/
inductive Text : Bytes → F64 → Prop where
  | nan {s} : s.map low = Str.ascii "nan" → Text s .nan
  | inf {s neg t} : Sign s neg t → t.map low = Str.ascii "inf" ∨ t.map low = Str.ascii "infinity" → Text s (.inf neg)
  | num {s neg t hex n f y b} : Sign s neg t → Body t hex n f y → Nearest (value hex n f (clipInt y) * 2 ^ 1074) b → b < infMag → Text s ⟨neg, b⟩

theorem prefixLen_le : ∀ (s p : Bytes) (k : Nat), k ≤ prefixLen s p ↔ k ≤ s.length ∧ k ≤ p.length ∧ (s.take k).map low = p.take k
  | [], p, k => by
    simp [prefixLen]
    intro h; subst h; simp
  | c :: s, [], k => by
    simp [prefixLen]
    intro h; subst h; simp
  | c :: s, q :: p, 0 => by simp
  | c :: s, q :: p, k + 1 => by
    rw [prefixLen]
    have hl : (if 65 ≤ c ∧ c ≤ 90 then c + 32 else c) = low c := rfl
    rw [hl]
    by_cases h : low c = q
    · rw [if_pos h]
      have := prefixLen_le s p k
      simp [h, this]
    · rw [if_neg h]
      simp [h]

theorem prefix_all {s p : Bytes} (h : s.length = p.length) : prefixLen s p = p.length ↔ s.map low = p := by
  have h1 := (prefixLen_le s p p.length)
  have h2 := (prefixLen_le s p (prefixLen s p)).1 (Nat.le_refl _)
  rw [List.take_of_length_le (by omega), List.take_of_length_le (by omega)] at h1
  constructor
  · intro h3; exact (h1.1 (by omega)).2.2
  · intro h3; have := h1.2 ⟨by omega, by omega, h3⟩; omega

theorem infinity_length : (Str.ascii "infinity").length = 8 := by decide
theorem inf_length : (Str.ascii "inf").length = 3 := by decide
theorem nan_length : (Str.ascii "nan").length = 3 := by decide
theorem infinity_take : (Str.ascii "infinity").take 3 = Str.ascii "inf" := by decide

/-- The part of `special` that reads infinity. -/
def specialInf (neg : Bool) (k : Nat) (t : Bytes) : Option (F64 × Nat) :=
  let n := prefixLen t (Str.ascii "infinity")
  let n := if 3 < n ∧ n < 8 then 3 else n
  if n = 3 ∨ n = 8 then some (.inf neg, k + n) else none

theorem special_eq (c : UInt8) (s : Bytes) : special (c :: s) =
    if c = 43 ∨ c = 45 then specialInf (c = 45) 1 s
    else if c = 105 ∨ c = 73 then specialInf false 0 (c :: s)
    else if c = 110 ∨ c = 78 then (if prefixLen (c :: s) (Str.ascii "nan") = 3 then some (.nan, 3) else none)
    else none := rfl

theorem specialInf_iff (neg : Bool) (k : Nat) (t : Bytes) (x : F64) : specialInf neg k t = some (x, k + t.length) ↔
    x = .inf neg ∧ (t.map low = Str.ascii "inf" ∨ t.map low = Str.ascii "infinity") := by
  have hle := (prefixLen_le t (Str.ascii "infinity") (prefixLen t (Str.ascii "infinity"))).1 (Nat.le_refl _)
  rw [infinity_length] at hle
  have h3 := prefixLen_le t (Str.ascii "infinity") 3
  rw [infinity_length, infinity_take] at h3
  have h8 := prefixLen_le t (Str.ascii "infinity") 8
  rw [infinity_length, List.take_of_length_le (Nat.le_of_eq infinity_length)] at h8
  have e3 : t.map low = Str.ascii "inf" → t.length = 3 := by intro h; have := congrArg List.length h; simpa [inf_length] using this
  have e8 : t.map low = Str.ascii "infinity" → t.length = 8 := by intro h; have := congrArg List.length h; simpa [infinity_length] using this
  unfold specialInf
  simp only
  generalize prefixLen t (Str.ascii "infinity") = n at *
  constructor
  · intro h
    by_cases hm : 3 < n ∧ n < 8
    · rw [if_pos hm, if_pos (.inl rfl)] at h
      simp only [Option.some.injEq, Prod.mk.injEq] at h
      refine ⟨h.1.symm, .inl ?_⟩
      have := (h3.1 (by omega)).2.2
      rwa [List.take_of_length_le (by omega)] at this
    · rw [if_neg hm] at h
      by_cases hn : n = 3 ∨ n = 8
      · rw [if_pos hn] at h
        simp only [Option.some.injEq, Prod.mk.injEq] at h
        refine ⟨h.1.symm, ?_⟩
        rcases hn with rfl | rfl
        · have := (h3.1 (by omega)).2.2
          rw [List.take_of_length_le (by omega)] at this
          exact .inl this
        · have := (h8.1 (by omega)).2.2
          rw [List.take_of_length_le (by omega)] at this
          exact .inr this
      · rw [if_neg hn] at h; simp at h
  · rintro ⟨rfl, h | h⟩
    · have hl := e3 h
      have : 3 ≤ n := h3.2 ⟨by omega, by omega, by rw [List.take_of_length_le (by omega)]; exact h⟩
      have : n = 3 := by omega
      simp [this, hl]
    · have hl := e8 h
      have : 8 ≤ n := h8.2 ⟨by omega, by omega, by rw [List.take_of_length_le (by omega)]; exact h⟩
      have : n = 8 := by omega
      simp [this, hl]

theorem specialInf_head {neg : Bool} {k : Nat} {t : Bytes} {q : F64 × Nat} (h : specialInf neg k t = some q) : ∃ c s, t = c :: s ∧ low c = 105 := by
  have h1 := prefixLen_le t (Str.ascii "infinity") 1
  unfold specialInf at h
  simp only at h
  generalize prefixLen t (Str.ascii "infinity") = n at *
  have : 1 ≤ n := by
    by_contra hn
    have : n = 0 := by omega
    subst this
    simp at h
  have := h1.1 this
  cases t with
  | nil => simp at this
  | cons c s =>
    refine ⟨c, s, rfl, ?_⟩
    have h2 : (Str.ascii "infinity").take 1 = [105] := by decide
    rw [h2] at this
    simpa using this.2.2

theorem body_head {t : Bytes} {hex : Bool} {n f : Nat} {y : Int} (h : Body t hex n f y) : ∃ c r, t = c :: r ∧ ((48 ≤ c ∧ c ≤ 57) ∨ c = 46) := by
  have hm : ∀ {m n f}, Mantissa 10 m n f → ∃ c r, m = c :: r ∧ ((48 ≤ c ∧ c ≤ 57) ∨ c = 46) := by
    have hd : ∀ {t n m}, LitDigits 10 n t m → ∃ c r, t = c :: r ∧ (48 ≤ c ∧ c ≤ 57) := by
      intro t n m h
      obtain ⟨c, r, d, rfl, hd⟩ := Conf.litDigits_head h
      exact ⟨c, r, rfl, (digit_range c).2 ⟨d, (Conf.digitVal_iff 10 (by omega) c d).1 hd⟩⟩
    intro m n f h
    cases h with
    | whole h => obtain ⟨c, r, rfl, hc⟩ := hd h; exact ⟨c, r, rfl, .inl hc⟩
    | point h => obtain ⟨c, r, rfl, hc⟩ := hd h; exact ⟨c, _, rfl, .inl hc⟩
    | both h _ => obtain ⟨c, r, rfl, hc⟩ := hd h; exact ⟨c, _, rfl, .inl hc⟩
    | frac h => exact ⟨_, _, rfl, .inr rfl⟩
  cases h with
  | dec h => exact hm h
  | decExp h _ => obtain ⟨c, r, rfl, hc⟩ := hm h; exact ⟨c, _, rfl, hc⟩
  | hex => exact ⟨48, _, rfl, .inl (by decide)⟩

theorem head_table (c : UInt8) (h : (48 ≤ c ∧ c ≤ 57) ∨ c = 46) : c ≠ 43 ∧ c ≠ 45 ∧ c ≠ 105 ∧ c ≠ 73 ∧ c ≠ 110 ∧ c ≠ 78 ∧ low c ≠ 105 := by
  have key : ∀ c : Fin 256, ((48 ≤ UInt8.ofFin c ∧ UInt8.ofFin c ≤ 57) ∨ UInt8.ofFin c = 46) →
      UInt8.ofFin c ≠ 43 ∧ UInt8.ofFin c ≠ 45 ∧ UInt8.ofFin c ≠ 105 ∧ UInt8.ofFin c ≠ 73 ∧ UInt8.ofFin c ≠ 110 ∧ UInt8.ofFin c ≠ 78 ∧ low (UInt8.ofFin c) ≠ 105 := by
    decide +kernel
  exact key c.toFin h

theorem low_table (c : UInt8) : (low c = 105 ↔ c = 105 ∨ c = 73) ∧ (low c = 110 ↔ c = 110 ∨ c = 78) := by
  have key : ∀ c : Fin 256, (low (UInt8.ofFin c) = 105 ↔ UInt8.ofFin c = 105 ∨ UInt8.ofFin c = 73) ∧
      (low (UInt8.ofFin c) = 110 ↔ UInt8.ofFin c = 110 ∨ UInt8.ofFin c = 78) := by decide +kernel
  exact key c.toFin

theorem special_body {s t : Bytes} {neg hex : Bool} {n f : Nat} {y : Int} (hs : Sign s neg t) (hb : Body t hex n f y) :
    special s = none ∧ signOf s = (neg, t) := by
  obtain ⟨c, r, rfl, hc⟩ := body_head hb
  obtain ⟨h1, h2, h3, h4, h5, h6, h7⟩ := head_table c hc
  have hinf : ∀ g k, specialInf g k (c :: r) = none := by
    intro g k
    cases h : specialInf g k (c :: r) with
    | none => rfl
    | some q =>
      obtain ⟨c', s', he, hl⟩ := specialInf_head h
      simp at he
      exact absurd (he.1 ▸ hl) h7
  cases hs with
  | none =>
    refine ⟨?_, ?_⟩
    · rw [special_eq]; simp [h1, h2, h3, h4, h5, h6]
    · rcases signOf_cases (c :: r) with ⟨t, h, -⟩ | ⟨t, h, -⟩ | ⟨-, -, h⟩
      · simp [h1] at h
      · simp [h2] at h
      · exact h
  | plus => exact ⟨by rw [special_eq, if_pos (.inl rfl)]; exact hinf _ _, rfl⟩
  | minus => exact ⟨by rw [special_eq, if_pos (.inr rfl)]; exact hinf _ _, rfl⟩

theorem special_iff (s : Bytes) (x : F64) : special s = some (x, s.length) ↔
    (s.map low = Str.ascii "nan" ∧ x = .nan) ∨ ∃ neg t, Sign s neg t ∧ (t.map low = Str.ascii "inf" ∨ t.map low = Str.ascii "infinity") ∧ x = .inf neg := by
  have hhead : ∀ {c s p q}, (c :: s : Bytes).map low = p :: q → low c = p := by intro c s p q h; simp at h; exact h.1
  have ei : Str.ascii "inf" = 105 :: Str.ascii "nf" := by decide
  have ey : Str.ascii "infinity" = 105 :: Str.ascii "nfinity" := by decide
  have en : Str.ascii "nan" = 110 :: Str.ascii "an" := by decide
  cases s with
  | nil =>
    simp only [special, reduceCtorEq, false_iff, not_or]
    refine ⟨by simp [en], ?_⟩
    rintro ⟨neg, t, h, h2, -⟩
    cases h
    rcases h2 with h2 | h2 <;> simp [ei, ey] at h2
  | cons c s =>
    rw [special_eq]
    obtain ⟨l1, l2⟩ := low_table c
    by_cases hsg : c = 43 ∨ c = 45
    · rw [if_pos hsg]
      have hl := specialInf_iff (decide (c = 45)) 1 s x
      rw [List.length_cons, Nat.add_comm s.length 1, hl]
      have hc : low c ≠ 105 ∧ low c ≠ 110 := by rcases hsg with rfl | rfl <;> decide
      constructor
      · rintro ⟨rfl, h⟩
        rcases hsg with rfl | rfl
        · exact .inr ⟨false, s, .plus, h, by simp⟩
        · exact .inr ⟨true, s, .minus, h, by simp⟩
      · rintro (⟨h, -⟩ | ⟨neg, t, h, h2, rfl⟩)
        · rw [en] at h; exact absurd (hhead h) hc.2
        · cases h with
          | none => rcases h2 with h2 | h2 <;> (first | rw [ei] at h2 | rw [ey] at h2) <;> exact absurd (hhead h2) hc.1
          | plus => exact ⟨by simp, h2⟩
          | minus => exact ⟨by simp, h2⟩
    · rw [if_neg hsg]
      have hsign : ∀ {neg t}, Sign (c :: s) neg t → neg = false ∧ t = c :: s := by
        intro neg t h
        cases h with
        | none => exact ⟨rfl, rfl⟩
        | plus => exact absurd (.inl rfl) hsg
        | minus => exact absurd (.inr rfl) hsg
      by_cases hi : c = 105 ∨ c = 73
      · rw [if_pos hi]
        have hl := specialInf_iff false 0 (c :: s) x
        rw [Nat.zero_add] at hl
        rw [hl]
        constructor
        · rintro ⟨rfl, h⟩
          exact .inr ⟨false, c :: s, .none, h, rfl⟩
        · rintro (⟨h, -⟩ | ⟨neg, t, h, h2, rfl⟩)
          · rw [en] at h
            rcases hi with rfl | rfl <;> exact absurd (hhead h) (by decide)
          · obtain ⟨rfl, rfl⟩ := hsign h
            exact ⟨rfl, h2⟩
      · rw [if_neg hi]
        have hninf : ¬ ∃ neg t, Sign (c :: s) neg t ∧ (t.map low = Str.ascii "inf" ∨ t.map low = Str.ascii "infinity") ∧ x = .inf neg := by
          rintro ⟨neg, t, h, h2, -⟩
          obtain ⟨rfl, rfl⟩ := hsign h
          rcases h2 with h2 | h2
          · rw [ei] at h2; exact hi (l1.1 (hhead h2))
          · rw [ey] at h2; exact hi (l1.1 (hhead h2))
        by_cases hn : c = 110 ∨ c = 78
        · rw [if_pos hn]
          constructor
          · intro h
            split at h
            · rename_i hp
              simp only [Option.some.injEq, Prod.mk.injEq] at h
              exact .inl ⟨(prefix_all (by rw [nan_length]; exact h.2.symm)).1 (by rw [nan_length]; exact hp), h.1.symm⟩
            · simp at h
          · rintro (⟨h, rfl⟩ | h)
            · have hl : (c :: s).length = 3 := by have := congrArg List.length h; simpa [nan_length] using this
              rw [if_pos (by have := (prefix_all (by rw [nan_length]; exact hl)).2 h; rwa [nan_length] at this), hl]
            · exact absurd h hninf
        · rw [if_neg hn]
          simp only [reduceCtorEq, false_iff, not_or]
          exact ⟨fun h => hn (l2.1 (hhead (en ▸ h.1))), hninf⟩

theorem mag_value (n base : Nat) (z : Int) (hb : 0 < base) :
    ((n * base ^ z.toNat * 2 ^ 1074 : Nat) : ℚ) / (base ^ (-z).toNat : Nat) = n * (base : ℚ) ^ z * 2 ^ 1074 := by
  have hb' : (base : ℚ) ≠ 0 := by exact_mod_cast hb.ne'
  rcases Int.le_total 0 z with hz | hz
  · have h1 : (-z).toNat = 0 := by omega
    have h2 : (base : ℚ) ^ z = (base : ℚ) ^ z.toNat := by rw [← zpow_natCast, Int.toNat_of_nonneg hz]
    rw [h1, h2]; push_cast; simp
  · have h1 : z.toNat = 0 := by omega
    have h2 : (base : ℚ) ^ z = ((base : ℚ) ^ (-z).toNat)⁻¹ := by rw [← zpow_natCast, Int.toNat_of_nonneg (by omega), zpow_neg, inv_inv]
    rw [h1, h2]; push_cast; field_simp

theorem mag_iff (n base : Nat) (z : Int) (b : Nat) (hb : 0 < base) : mag base n z = b ↔ Nearest (n * (base : ℚ) ^ z * 2 ^ 1074) b := by
  rw [← mag_value n base z hb]
  exact nearest_iff _ _ _ (by positivity)

theorem scale_iff (neg hex : Bool) (n f : Nat) (y : Int) (x : F64) : scale neg (if hex then 2 else 10) n (y - (if hex then 4 * f else f : Nat)) = some x ↔
    ∃ b, Nearest (value hex n f y * 2 ^ 1074) b ∧ b < infMag ∧ x = ⟨neg, b⟩ := by
  have hv : value hex n f y * 2 ^ 1074 = ((n * (if hex then 2 else 10) ^ (y - (if hex then 4 * f else f : Nat)).toNat * 2 ^ 1074 : Nat) : ℚ) /
      ((if hex then 2 else 10) ^ (-(y - (if hex then 4 * f else f : Nat))).toNat : Nat) := by
    rw [mag_value _ _ _ (by cases hex <;> simp)]
    cases hex <;> simp [value]
  rw [hv]
  unfold scale mag
  simp only
  generalize (n * (if hex then 2 else 10) ^ (y - (if hex then 4 * f else f : Nat)).toNat * 2 ^ 1074 : Nat) = N
  have hD : 0 < (if hex then 2 else 10) ^ (-(y - (if hex then 4 * f else f : Nat))).toNat := by cases hex <;> positivity
  generalize ((if hex then 2 else 10) ^ (-(y - (if hex then 4 * f else f : Nat))).toNat : Nat) = D at hD
  constructor
  · intro h
    split at h
    · simp at h
    · rename_i hlt
      simp at h
      exact ⟨_, (nearest_iff N D _ hD).1 rfl, by omega, h.symm⟩
  · rintro ⟨b, h1, h2, rfl⟩
    have := (nearest_iff N D b hD).2 h1
    rw [this, if_neg (by omega)]

/-- `ParseFloat` reads exactly the texts of floats. -/
theorem parse_iff (s : Bytes) (x : F64) : parseFloat s = some x ↔ Text s x := by
  unfold parseFloat
  constructor
  · intro h
    split at h
    · rename_i x' n hsp
      split at h
      · rename_i hn
        simp at h
        subst h hn
        rcases (special_iff s x').1 hsp with ⟨h, rfl⟩ | ⟨neg, t, h1, h2, rfl⟩
        · exact .nan h
        · exact .inf h1 h2
      · simp at h
    · split at h
      · simp at h
      · rename_i hex n z hb
        obtain ⟨f, y, hbody, rfl⟩ := (readBody_iff _ _ _ _).1 hb
        obtain ⟨b, h1, h2, rfl⟩ := (scale_iff _ _ _ _ _ _).1 h
        refine .num ?_ hbody h1 h2
        rcases signOf_cases s with ⟨t, rfl, h⟩ | ⟨t, rfl, h⟩ | ⟨-, -, h⟩
        · exact .plus
        · exact .minus
        · rw [h]; exact .none
  · intro h
    cases h with
    | nan h => rw [(special_iff s _).2 (.inl ⟨h, rfl⟩)]; simp
    | inf h1 h2 => rw [(special_iff s _).2 (.inr ⟨_, _, h1, h2, rfl⟩)]; simp
    | num h1 h2 h3 h4 =>
      obtain ⟨h5, h6⟩ := special_body h1 h2
      rw [h5, h6, (readBody_iff _ _ _ _).2 ⟨_, _, h2, rfl⟩]
      exact (scale_iff _ _ _ _ _ _).2 ⟨_, h3, h4, rfl⟩

end Gears.Strconv
