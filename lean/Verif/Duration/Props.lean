import Verif.Duration.Lemmas

namespace Gears.Duration

open Gears.Str
open Gears.Procs (wrap wrap_of horner horner_mono horner_bound horner_snoc of_digit ParseProc)

/-! ## Specification: the texts of durations

A text is an optional sign and then terms: digits, possibly a fraction, and a unit.  (`horner 0` is the number that a string of
digits stands for, Procs/Props.lean.) -/

/-- The units and their nanoseconds.  The micro sign can be written as U+00B5 or U+03BC, in UTF-8. -/
def IsUnit (u : Bytes) (n : Int) : Prop :=
  (u = ascii "ns" ∧ n = 1) ∨ (u = ascii "us" ∧ n = 10 ^ 3) ∨ (u = [0xC2, 0xB5, 115] ∧ n = 10 ^ 3) ∨ (u = [0xCE, 0xBC, 115] ∧ n = 10 ^ 3) ∨
  (u = ascii "ms" ∧ n = 10 ^ 6) ∨ (u = ascii "s" ∧ n = 10 ^ 9) ∨ (u = ascii "m" ∧ n = 60 * 10 ^ 9) ∨ (u = ascii "h" ∧ n = 3600 * 10 ^ 9)

structure Term where
  ip   : Bytes
  dot  : Bool
  fp   : Bytes
  u    : Bytes
  unit : Int

def Term.text (t : Term) : Bytes := t.ip ++ (if t.dot then 46 :: t.fp else []) ++ t.u

structure Term.WF (t : Term) : Prop where
  ip : t.ip.all isDigit = true
  fp : t.fp.all isDigit = true
  dot : t.dot = false → t.fp = []
  some : t.ip ≠ [] ∨ t.fp ≠ []
  unit : IsUnit t.u t.unit

/-- The nanoseconds that a term stands for. -/
def Term.exact (t : Term) : ℚ := ((horner 0 t.ip : ℚ) + (horner 0 t.fp : ℚ) / 10 ^ t.fp.length) * t.unit

def text (ts : List Term) : Bytes := ts.flatMap Term.text

def exact (ts : List Term) : ℚ := (ts.map Term.exact).sum

/-! ## One term -/

/-- The nanoseconds that the program computes for the fraction of a term. -/
def Term.frac (t : Term) : Int :=
  if 0 < (leadingFraction 0 1 false t.fp).1 then fraction (leadingFraction 0 1 false t.fp).1 t.unit (leadingFraction 0 1 false t.fp).2.1 else 0

def Term.nanos (t : Term) : Int := (horner 0 t.ip : Int) * t.unit + t.frac

theorem isUnit_iff (u : Bytes) (n : Int) : IsUnit u n ↔ unitMap.lookup u = some n := by
  constructor
  · rintro (⟨rfl, rfl⟩ | ⟨rfl, rfl⟩ | ⟨rfl, rfl⟩ | ⟨rfl, rfl⟩ | ⟨rfl, rfl⟩ | ⟨rfl, rfl⟩ | ⟨rfl, rfl⟩ | ⟨rfl, rfl⟩) <;> decide
  · intro h
    have := List.lookup_eq_some_iff.1 h
    obtain ⟨l1, l2, h1, -⟩ := this
    have hm : (u, n) ∈ unitMap := by rw [h1]; simp
    simp only [unitMap, List.mem_cons, Prod.mk.injEq, List.not_mem_nil, or_false] at hm
    unfold IsUnit
    norm_num
    exact hm

theorem unit_bounds {u : Bytes} {n : Int} (h : IsUnit u n) : 0 < n ∧ n ≤ 3600000000000 := by
  rcases h with ⟨-, rfl⟩ | ⟨-, rfl⟩ | ⟨-, rfl⟩ | ⟨-, rfl⟩ | ⟨-, rfl⟩ | ⟨-, rfl⟩ | ⟨-, rfl⟩ | ⟨-, rfl⟩ <;> norm_num

theorem unit_chars {u : Bytes} {n : Int} (h : IsUnit u n) : u ≠ [] ∧ ∀ c ∈ u, ¬ (c = 46 ∨ isDigit c = true) := by
  rcases h with ⟨rfl, -⟩ | ⟨rfl, -⟩ | ⟨rfl, -⟩ | ⟨rfl, -⟩ | ⟨rfl, -⟩ | ⟨rfl, -⟩ | ⟨rfl, -⟩ | ⟨rfl, -⟩ <;> decide

theorem noDigit_nil : NoDigit [] := by simp [NoDigit]

theorem noDigit_unit {u r : Bytes} {n : Int} (h : IsUnit u n) : NoDigit (u ++ r) := by
  obtain ⟨h1, h2⟩ := unit_chars h
  intro c l e
  cases u with
  | nil => exact absurd rfl h1
  | cons d u =>
    simp at e
    have := h2 d (by simp)
    rw [← e.1]
    simpa using (fun hd => this (.inr hd))

/-- What is known about the digits of a fraction that fit. -/
theorem frac_digits {fp : Bytes} (h : fp.all isDigit = true) : ∃ k, k ≤ fp.length ∧
    (∀ r, NoDigit r → leadingFraction 0 1 false (fp ++ r) = ((horner 0 (fp.take k) : Int), 10 ^ k, r)) ∧
    horner 0 (fp.take k) < 2 ^ 63 ∧ (k < fp.length → 2 ^ 63 ≤ horner 0 (fp.take (k + 1))) := by
  obtain ⟨k, h1, h2, h3, h4⟩ := leadingFraction_digits noDigit_nil fp 0 1 h (by norm_num)
  refine ⟨k, h1, fun r hr => ?_, h3, h4⟩
  obtain ⟨k', h1', h2', h3', h4'⟩ := leadingFraction_digits hr fp 0 1 h (by norm_num)
  have : k' = k := by
    have mono : ∀ i j, i ≤ j → horner 0 (fp.take i) ≤ horner 0 (fp.take j) := by
      intro i j hij
      have e : fp.take j = fp.take i ++ (fp.take j).drop i := by
        conv_lhs => rw [← List.take_append_drop i (fp.take j)]
        rw [List.take_take, Nat.min_eq_left hij]
      rw [e]
      have : ∀ (a b : Bytes) n, horner n a ≤ horner n (a ++ b) := by
        intro a
        induction a with
        | nil => intro b n; exact horner_mono b n
        | cons c a ih => intro b n; exact ih b _
      exact this _ _ _
    rcases Nat.lt_trichotomy k' k with h | h | h
    · have := h4' (by omega); have := mono (k' + 1) k (by omega); omega
    · exact h
    · have := h4 (by omega); have := mono (k + 1) k' (by omega); omega
  subst this
  simpa using h2'

theorem take_all {l : Bytes} (h : l.all isDigit = true) (k : Nat) : (l.take k).all isDigit = true := by
  rw [List.all_eq_true] at h ⊢
  exact fun x hx => h x (List.mem_of_mem_take hx)

theorem horner_lt {l : Bytes} (h : l.all isDigit = true) : horner 0 l < 10 ^ l.length := by
  have := horner_bound l (by rwa [isDigit_eq] at h) 0
  simpa using this

theorem horner_append (a b : Bytes) : ∀ n, horner n (a ++ b) = horner n a * 10 ^ b.length + horner 0 b := by
  have key : ∀ (b : Bytes) n, horner n b = n * 10 ^ b.length + horner 0 b := by
    intro b
    induction b with
    | nil => intro n; simp [horner]
    | cons c b ih =>
      intro n
      simp only [horner, List.length_cons]
      rw [ih (10 * n + (c - 48).toNat), ih (10 * 0 + (c - 48).toNat)]
      ring
  induction a with
  | nil => intro n; exact key b n
  | cons c a ih => intro n; exact ih _

theorem horner_take_succ {l : Bytes} (h : l.all isDigit = true) {k : Nat} (hk : k < l.length) :
    horner 0 (l.take (k + 1)) ≤ 10 * horner 0 (l.take k) + 9 := by
  rw [List.take_succ_eq_append_getElem hk, horner_snoc]
  rw [List.all_eq_true] at h
  have := (of_digit _ (h l[k] (List.getElem_mem hk))).1
  omega

theorem frac_bounds {t : Term} (h : t.WF) : 0 ≤ t.frac ∧ t.frac < 2 ^ 62 ∧
    |(t.frac : ℚ) - (horner 0 t.fp : ℚ) / 10 ^ t.fp.length * t.unit| ≤ 101 / 100 := by
  obtain ⟨k, hk, hl, hlt, hmore⟩ := frac_digits h.fp
  have hl0 := hl [] noDigit_nil
  rw [List.append_nil] at hl0
  obtain ⟨hu1, hu2⟩ := unit_bounds h.unit
  have hlen : (t.fp.take k).length = k := by simp [hk]
  have hf : horner 0 (t.fp.take k) < 10 ^ k := by
    have := horner_lt (take_all h.fp k); rwa [hlen] at this
  have hk18 : k < t.fp.length → 18 ≤ k ∧ 0 < horner 0 (t.fp.take k) := by
    intro hkl
    have h1 := hmore hkl
    have h2 := horner_take_succ h.fp hkl
    refine ⟨?_, by omega⟩
    by_contra hlt'
    have : 10 ^ k ≤ 10 ^ 17 := Nat.pow_le_pow_right (by norm_num) (by omega)
    omega
  set f := horner 0 (t.fp.take k) with hfd
  set g := horner 0 (t.fp.drop k) with hgd
  have hsum : horner 0 t.fp = f * 10 ^ (t.fp.length - k) + g := by
    have := horner_append (t.fp.take k) (t.fp.drop k) 0
    rwa [List.take_append_drop, List.length_drop] at this
  have hg : g < 10 ^ (t.fp.length - k) := by
    have : (t.fp.drop k).all isDigit = true := by
      have := h.fp
      rw [List.all_eq_true] at this ⊢
      exact fun x hx => this x (List.mem_of_mem_drop hx)
    have := horner_lt this
    rwa [List.length_drop] at this
  have hq : (horner 0 t.fp : ℚ) / 10 ^ t.fp.length = (f : ℚ) / 10 ^ k + (g : ℚ) / 10 ^ t.fp.length := by
    rw [hsum]; push_cast
    have : (10 : ℚ) ^ t.fp.length = 10 ^ (t.fp.length - k) * 10 ^ k := by rw [← pow_add]; congr 1; omega
    rw [this]; field_simp
  have hunitQ : (0 : ℚ) < t.unit := by exact_mod_cast hu1
  have hunitQ2 : (t.unit : ℚ) ≤ 3600000000000 := by exact_mod_cast hu2
  have hrest : 0 ≤ (g : ℚ) / 10 ^ t.fp.length * t.unit ∧ (g : ℚ) / 10 ^ t.fp.length * t.unit ≤ 1 / 1000 := by
    refine ⟨by positivity, ?_⟩
    by_cases hkl : k < t.fp.length
    · obtain ⟨h18, -⟩ := hk18 hkl
      have h1 : (g : ℚ) / 10 ^ t.fp.length ≤ 1 / 10 ^ 18 := by
        rw [div_le_div_iff₀ (by positivity) (by positivity)]
        have : g * 10 ^ 18 ≤ 1 * 10 ^ t.fp.length := by
          calc g * 10 ^ 18 ≤ 10 ^ (t.fp.length - k) * 10 ^ k :=
                Nat.mul_le_mul (by omega) (Nat.pow_le_pow_right (by norm_num) h18)
            _ = 10 ^ t.fp.length := by rw [← pow_add]; congr 1; omega
            _ = _ := by ring
        exact_mod_cast this
      calc (g : ℚ) / 10 ^ t.fp.length * t.unit ≤ 1 / 10 ^ 18 * 3600000000000 :=
            mul_le_mul h1 hunitQ2 hunitQ.le (by positivity)
        _ ≤ 1 / 1000 := by norm_num
    · have : t.fp.drop k = [] := by rw [List.drop_eq_nil_iff]; omega
      rw [hgd, this]; simp [horner]
  unfold Term.frac
  rw [hl0]
  simp only
  by_cases hf0 : f = 0
  · have hkl : ¬ k < t.fp.length := fun hkl => by have := (hk18 hkl).2; omega
    have hg0 : g = 0 := by
      have : t.fp.drop k = [] := by rw [List.drop_eq_nil_iff]; omega
      rw [hgd, this]; rfl
    rw [hsum, hf0, hg0]; simp; norm_num
  · rw [if_pos (by omega)]
    have herr := fraction_err (f := (f : Int)) (unit := t.unit) (scale := 10 ^ k) (by omega) (by exact_mod_cast hf) hu1 hu2
    have hfl1 := Int.floor_le (fractionFloat (f : Int) t.unit (10 ^ k))
    have hfl2 := Int.lt_floor_add_one (fractionFloat (f : Int) t.unit (10 ^ k))
    have hfe : fraction (f : Int) t.unit (10 ^ k) = ⌊fractionFloat (f : Int) t.unit (10 ^ k)⌋ := rfl
    rw [hfe]
    set x := fractionFloat (f : Int) t.unit (10 ^ k) with hx
    push_cast at herr
    rw [abs_le] at herr
    have hle : (f : ℚ) * t.unit / 10 ^ k ≤ 3600000000000 := by
      rw [div_le_iff₀ (by positivity)]
      have : (f : ℚ) ≤ 10 ^ k := by exact_mod_cast hf.le
      nlinarith
    refine ⟨?_, ?_, ?_⟩
    · rw [Int.floor_nonneg]
      exact rnd_nonneg (mul_nonneg (rnd_nonneg (by positivity)) (rnd_nonneg (by
        have : (0 : ℚ) ≤ Float64.ofInt t.unit := rnd_nonneg hunitQ.le
        positivity)))
    · rw [Int.floor_lt]
      push_cast
      have : x ≤ 3600000000000 + 1 / 500 := by linarith [herr.2]
      exact lt_of_le_of_lt this (by norm_num)
    · rw [hq, add_mul]
      have e : (f : ℚ) / 10 ^ k * t.unit = f * t.unit / 10 ^ k := by ring
      rw [e, abs_le]
      constructor <;> linarith [herr.1, herr.2, hrest.1, hrest.2]

theorem term_cons {t : Term} (h : t.WF) (r : Bytes) : ∃ c l, t.text ++ r = c :: l ∧ (c = 46 ∨ isDigit c = true) := by
  unfold Term.text
  match hi : t.ip with
  | c :: l =>
    have := h.ip
    rw [hi] at this
    simp only [List.all_cons, Bool.and_eq_true] at this
    exact ⟨c, _, rfl, .inr this.1⟩
  | [] =>
    have hf : t.fp ≠ [] := by rcases h.some with h1 | h1 <;> [exact absurd hi h1; exact h1]
    have hd : t.dot = true := by
      cases hd : t.dot
      · exact absurd (h.dot hd) hf
      · rfl
    simp [hd]

/-- The end of `part`, for the number `v` and the fraction of `t`. -/
theorem unitPart_term {t : Term} (h : t.WF) {r : Bytes} (hr : UnitEnds r) (_hv : horner 0 t.ip < 2 ^ 63) :
    unitPart (horner 0 t.ip) (leadingFraction 0 1 false t.fp).1 (leadingFraction 0 1 false t.fp).2.1 (t.u ++ r) =
      if t.nanos < 2 ^ 63 then some (t.nanos, r) else none := by
  obtain ⟨h1, h2⟩ := unit_chars h.unit
  obtain ⟨hu1, hu2⟩ := unit_bounds h.unit
  obtain ⟨hf1, hf2, -⟩ := frac_bounds h
  simp only [unitPart, takeUnit_append h2 hr, h1, if_false, (isUnit_iff _ _).1 h.unit]
  have hmul : ((2 : Int) ^ 63 - 1) / t.unit < horner 0 t.ip ↔ 2 ^ 63 ≤ (horner 0 t.ip : Int) * t.unit := by
    rw [Int.ediv_lt_iff_lt_mul hu1]; omega
  unfold Term.nanos
  unfold Term.frac at hf1 hf2 ⊢
  by_cases hb : ((2 : Int) ^ 63 - 1) / t.unit < horner 0 t.ip
  · rw [if_pos hb, if_neg (by have := hmul.1 hb; omega)]
  · have hlt : (horner 0 t.ip : Int) * t.unit < 2 ^ 63 := by
      by_contra hc; exact hb (hmul.2 (by omega))
    have hge : 0 ≤ (horner 0 t.ip : Int) * t.unit := by positivity
    rw [if_neg hb, wrap_of (by omega) hlt]
    split
    · rename_i hp
      simp only [hp, if_true] at hf1 hf2
      have hw := wrap_cases (x := (horner 0 t.ip : Int) * t.unit + fraction (leadingFraction 0 1 false t.fp).1 t.unit (leadingFraction 0 1 false t.fp).2.1)
        (by omega) (by omega)
      by_cases hc : (horner 0 t.ip : Int) * t.unit + fraction (leadingFraction 0 1 false t.fp).1 t.unit (leadingFraction 0 1 false t.fp).2.1 < 2 ^ 63
      · rw [if_pos hc, if_neg (by rw [hw.1]; omega), hw.2 hc]
      · rw [if_neg hc, if_pos (hw.1.2 (by omega))]
    · rw [if_pos (by omega)]
      simp

theorem dot_noDigit (r : Bytes) : NoDigit (46 :: r) := by
  rintro c l ⟨⟩; decide

theorem part_term {t : Term} (h : t.WF) {r : Bytes} (hr : UnitEnds r) :
    part (t.text ++ r) = if t.nanos < 2 ^ 63 then some (t.nanos, r) else none := by
  obtain ⟨hu1, hu2⟩ := unit_bounds h.unit
  obtain ⟨hf1, hf2, -⟩ := frac_bounds h
  obtain ⟨c, l, hc, hc2⟩ := term_cons h r
  have hlead : leadingInt 0 (t.text ++ r) = if horner 0 t.ip < 2 ^ 63 then
      some ((horner 0 t.ip : Int), (if t.dot then 46 :: t.fp else []) ++ (t.u ++ r)) else none := by
    unfold Term.text
    rw [List.append_assoc, List.append_assoc]
    refine leadingInt_digits ?_ t.ip 0 h.ip (by norm_num)
    cases hd : t.dot
    · simpa using noDigit_unit h.unit
    · simpa using dot_noDigit _
  have e : part (t.text ++ r) = match leadingInt 0 (t.text ++ r) with
      | none => none
      | some (v, s1) =>
        let pre := (t.text ++ r).length ≠ s1.length
        let fr := fractionPart s1
        if ¬ pre ∧ ¬ fr.2.2.2 then none else unitPart v fr.1 fr.2.1 fr.2.2.1 := by
    rw [hc]
    simp only [part, hc2, not_true, if_false]
    rfl
  rw [e, hlead]
  by_cases hv : horner 0 t.ip < 2 ^ 63
  · simp only [hv, if_true]
    have hfr : fractionPart ((if t.dot then 46 :: t.fp else []) ++ (t.u ++ r)) =
        ((leadingFraction 0 1 false t.fp).1, (leadingFraction 0 1 false t.fp).2.1, t.u ++ r, decide (t.fp ≠ [])) := by
      cases hd : t.dot
      · have hfp := h.dot hd
        simp only [Bool.false_eq_true, if_false, List.nil_append, hfp]
        have hh := (unit_chars h.unit)
        match hu : t.u with
        | [] => exact absurd hu hh.1
        | c :: u =>
          have hc46 : c ≠ 46 := fun e => hh.2 c (by rw [hu]; simp) (.inl e)
          unfold fractionPart
          split
          · rename_i heq; simp at heq; exact absurd heq.1 hc46
          · simp [leadingFraction]
      · obtain ⟨k, hk, hl, -, -⟩ := frac_digits h.fp
        have h1 := hl _ (noDigit_unit (r := r) h.unit)
        have h2 := hl [] noDigit_nil
        rw [List.append_nil] at h2
        simp only [if_true, List.cons_append, fractionPart, h1, h2, List.length_append]
        congr 3
        have : t.fp.length + (t.u.length + r.length) ≠ t.u.length + r.length ↔ t.fp ≠ [] := by
          rw [Ne, Ne, ← List.length_eq_zero_iff]; omega
        simp [this]
    rw [hfr]
    simp only
    rw [if_neg, unitPart_term h hr hv]
    rintro ⟨hpre, hpost⟩
    have hfp : t.fp = [] := by simpa using hpost
    have hip : t.ip ≠ [] := by rcases h.some with h1 | h1 <;> [exact h1; exact absurd hfp h1]
    apply hpre
    unfold Term.text
    simp only [List.length_append]
    have : 0 < t.ip.length := List.length_pos_iff.2 hip
    omega
  · simp only [hv, if_false]
    rw [if_neg]
    unfold Term.nanos
    have : (2 : Int) ^ 63 ≤ horner 0 t.ip := by omega
    nlinarith

theorem part_some {s r : Bytes} {v : Int} (h : part s = some (v, r)) : ∃ t : Term, t.WF ∧ s = t.text ++ r ∧ v = t.nanos ∧ v < 2 ^ 63 ∧ UnitEnds r := by
  -- the digits, the fraction and the unit
  obtain ⟨ip, s1, rfl, hip, hs1⟩ := digits_prefix s
  have hlead := leadingInt_digits hs1 ip 0 hip (by norm_num)
  rw [Nat.cast_zero] at hlead
  have hshape : ∃ t : Term, t.WF ∧ ∃ r', ip ++ s1 = t.text ++ r' ∧ UnitEnds r' := by
    match hs : ip ++ s1 with
    | [] => rw [hs] at h; simp [part] at h
    | c :: rest =>
      rw [hs] at h hlead
      simp only [part] at h
      split at h
      · simp at h
      · rw [hlead] at h
        split at h
        · simp at h
        · rename_i v' s1' heq
          split at heq
          swap
          · simp at heq
          · simp only [Option.some.injEq, Prod.mk.injEq] at heq
            obtain ⟨rfl, rfl⟩ := heq
            split at h
            · simp at h
            · rename_i hne
              -- the fraction
              have hfr : ∃ (dot : Bool) (fp s3 : Bytes), s1 = (if dot then 46 :: fp else []) ++ s3 ∧ fp.all isDigit = true ∧
                  (dot = false → fp = []) ∧ (fractionPart s1).2.2.1 = s3 ∧ ((fractionPart s1).2.2.2 = true → fp ≠ []) := by
                match hs1e : s1 with
                | [] => exact ⟨false, [], [], rfl, rfl, fun _ => rfl, rfl, by simp [fractionPart]⟩
                | c1 :: s2 =>
                  by_cases hc1 : c1 = 46
                  · subst hc1
                    obtain ⟨fp, s3, rfl, hfp, hs3⟩ := digits_prefix s2
                    obtain ⟨k, hk, hl, -, -⟩ := frac_digits hfp
                    refine ⟨true, fp, s3, rfl, hfp, by simp, by simp [fractionPart, hl s3 hs3], ?_⟩
                    simp only [fractionPart, hl s3 hs3, List.length_append, decide_eq_true_eq]
                    rintro h0 rfl
                    simp at h0
                  · refine ⟨false, [], c1 :: s2, rfl, rfl, fun _ => rfl, ?_, ?_⟩ <;>
                    · unfold fractionPart
                      split
                      · rename_i heq; simp at heq; exact absurd heq.1 hc1
                      · simp
              obtain ⟨dot, fp, s3, rfl, hfp, hdot, hs3, hpost⟩ := hfr
              rw [hs3] at h
              simp only [unitPart] at h
              split at h
              · simp at h
              · split at h
                · simp at h
                · rename_i hu0 unit hunit
                  obtain ⟨hu1, hu2, hu3⟩ := takeUnit_spec s3
                  refine ⟨⟨ip, dot, fp, (takeUnit s3).1, unit⟩, ⟨hip, hfp, hdot, ?_, (isUnit_iff _ _).2 hunit⟩, (takeUnit s3).2, ?_, hu2⟩
                  · by_cases hpre : ip = []
                    · right
                      apply hpost
                      by_contra hc
                      apply hne
                      subst hpre
                      refine ⟨?_, by simpa using hc⟩
                      rw [← hs]; simp
                    · exact .inl hpre
                  · rw [← hs]
                    simp only [Term.text, List.append_assoc]
                    rw [← hu1]
  obtain ⟨t, ht, r', hr', hu⟩ := hshape
  rw [hr', part_term ht hu] at h
  split at h
  · simp only [Option.some.injEq, Prod.mk.injEq] at h
    obtain ⟨rfl, rfl⟩ := h
    exact ⟨t, ht, hr', rfl, by assumption, hu⟩
  · simp at h

/-! ## The loop -/

def nanos (ts : List Term) : Int := (ts.map Term.nanos).sum

theorem nanos_nonneg {t : Term} (h : t.WF) : 0 ≤ t.nanos := by
  have := (frac_bounds h).1
  have := (unit_bounds h.unit).1
  unfold Term.nanos
  positivity

theorem nanos_sum_nonneg {ts : List Term} (h : ∀ t ∈ ts, t.WF) : 0 ≤ nanos ts := by
  induction ts with
  | nil => simp [nanos]
  | cons t ts ih =>
    have h1 := nanos_nonneg (h t (by simp))
    have h2 := ih (fun t ht => h t (by simp [ht]))
    simp only [nanos, List.map_cons, List.sum_cons] at h2 ⊢
    omega

theorem text_ends {ts : List Term} (h : ∀ t ∈ ts, t.WF) : UnitEnds (text ts) := by
  cases ts with
  | nil => simp [text, UnitEnds]
  | cons t ts =>
    obtain ⟨c, l, hc, hc2⟩ := term_cons (h t (by simp)) (text ts)
    intro c' l' e
    rw [show text (t :: ts) = t.text ++ text ts by simp [text], hc] at e
    simp at e
    rw [← e.1]; exact hc2

theorem text_pos {t : Term} (h : t.WF) : 0 < t.text.length := by
  obtain ⟨c, l, hc, -⟩ := term_cons h []
  rw [List.append_nil] at hc
  rw [hc]; simp

theorem parts_terms : ∀ (ts : List Term) (fuel : Nat) (d : Int), (∀ t ∈ ts, t.WF) → (text ts).length ≤ fuel → 0 ≤ d → d < 2 ^ 63 →
    parts fuel d (text ts) = if d + nanos ts < 2 ^ 63 then some (d + nanos ts) else none := by
  intro ts
  induction ts with
  | nil =>
    intro fuel d _ _ h0 h1
    have : text [] = [] := rfl
    rw [this]
    simp [parts, nanos]; omega
  | cons t ts ih =>
    intro fuel d hwf hlen h0 h1
    have ht := hwf t (by simp)
    have hts : ∀ t ∈ ts, t.WF := fun t ht => hwf t (by simp [ht])
    have htext : text (t :: ts) = t.text ++ text ts := by simp [text]
    have hnan : nanos (t :: ts) = t.nanos + nanos ts := by simp [nanos]
    have hn0 := nanos_nonneg ht
    have hns := nanos_sum_nonneg hts
    obtain ⟨c, l, hc, hc2⟩ := term_cons ht (text ts)
    rw [htext] at hlen ⊢
    have hpos := text_pos ht
    rw [List.length_append] at hlen
    match fuel, hlen with
    | 0, hlen => omega
    | fuel + 1, hlen =>
      have hp := part_term ht (text_ends hts)
      have : parts (fuel + 1) d (t.text ++ text ts) = match part (t.text ++ text ts) with
          | none => none
          | some (v, s1) => if wrap (d + v) < 0 then none else parts fuel (wrap (d + v)) s1 := by
        rw [hc]; rfl
      rw [this, hp, hnan]
      by_cases hb : t.nanos < 2 ^ 63
      · simp only [hb, if_true]
        have hw := wrap_cases (x := d + t.nanos) (by omega) (by omega)
        by_cases hb2 : d + t.nanos < 2 ^ 63
        · rw [if_neg (by rw [hw.1]; omega), hw.2 hb2, ih fuel _ hts (by omega) (by omega) hb2]
          simp only [add_assoc]
        · rw [if_pos (hw.1.2 (by omega)), if_neg (by omega)]
      · simp only [hb, if_false]
        rw [if_neg (by omega)]

theorem parts_some : ∀ (fuel : Nat) (d e : Int) (s : Bytes), 0 ≤ d → d < 2 ^ 63 → parts fuel d s = some e →
    ∃ ts, (∀ t ∈ ts, Term.WF t) ∧ s = text ts ∧ e = d + nanos ts ∧ e < 2 ^ 63 := by
  intro fuel
  induction fuel with
  | zero =>
    intro d e s h0 h1 h
    cases s with
    | nil => simp [parts] at h; subst h; exact ⟨[], by simp, rfl, by simp [nanos], h1⟩
    | cons c s => simp [parts] at h
  | succ fuel ih =>
    intro d e s h0 h1 h
    cases s with
    | nil => simp [parts] at h; subst h; exact ⟨[], by simp, rfl, by simp [nanos], h1⟩
    | cons c s =>
      simp only [parts] at h
      split at h
      · simp at h
      · rename_i v s1 hp
        obtain ⟨t, ht, hs, hv, hv2, -⟩ := part_some hp
        have hn0 := nanos_nonneg ht
        split at h
        · simp at h
        · rename_i hw
          have hwc := wrap_cases (x := d + v) (by omega) (by omega)
          have hlt : d + v < 2 ^ 63 := by
            by_contra hc; exact hw (hwc.1.2 (by omega))
          rw [hwc.2 hlt] at h
          obtain ⟨ts, h1, h2, h3, h4⟩ := ih _ _ _ (by omega) hlt h
          refine ⟨t :: ts, ?_, ?_, ?_, h4⟩
          · intro t' ht'
            rcases List.mem_cons.1 ht' with rfl | ht'
            · exact ht
            · exact h1 t' ht'
          · rw [hs, h2]; simp [text]
          · rw [h3, hv]; simp [nanos]; ring

theorem nanos_err {ts : List Term} (h : ∀ t ∈ ts, t.WF) : |(nanos ts : ℚ) - exact ts| ≤ 101 / 100 * ts.length := by
  induction ts with
  | nil => simp [nanos, exact]
  | cons t ts ih =>
    have h1 := ih (fun t ht => h t (by simp [ht]))
    have h2 := (frac_bounds (h t (by simp))).2.2
    have e1 : (nanos (t :: ts) : ℚ) = (horner 0 t.ip : ℚ) * t.unit + t.frac + nanos ts := by
      simp [nanos, Term.nanos]
    have e2 : exact (t :: ts) = (horner 0 t.ip : ℚ) * t.unit + (horner 0 t.fp : ℚ) / 10 ^ t.fp.length * t.unit + exact ts := by
      simp [exact, Term.exact]; ring
    rw [e1, e2]
    rw [abs_le] at h1 h2 ⊢
    push_cast [List.length_cons]
    constructor <;> linarith [h1.1, h1.2, h2.1, h2.2]

/-- Without fractions there is no rounding. -/
theorem nanos_whole {ts : List Term} (h : ∀ t ∈ ts, t.fp = []) : (nanos ts : ℚ) = exact ts := by
  induction ts with
  | nil => simp [nanos, exact]
  | cons t ts ih =>
    have h1 := ih (fun t ht => h t (by simp [ht]))
    have h2 := h t (by simp)
    have : t.frac = 0 := by simp [Term.frac, h2, leadingFraction]
    simp only [nanos, exact, List.map_cons, List.sum_cons, Int.cast_add] at h1 ⊢
    rw [h1]
    simp [Term.nanos, Term.exact, this, h2, horner]

/-! ## C95 -/

/-- An optional sign. -/
inductive Sign : Bytes → Bool → Prop
  | none : Sign [] false
  | plus : Sign (ascii "+") false
  | minus : Sign (ascii "-") true

theorem takeSign_iff (s : Bytes) : ∃ sg, Sign sg (takeSign s).1 ∧ s = sg ++ (takeSign s).2 := by
  unfold takeSign
  split
  · exact ⟨_, .minus, rfl⟩
  · exact ⟨_, .plus, rfl⟩
  · exact ⟨_, .none, rfl⟩

theorem takeSign_text {sg : Bytes} {neg : Bool} (hs : Sign sg neg) {r : Bytes} (hr : UnitEnds r) : takeSign (sg ++ r) = (neg, r) := by
  cases hs with
  | plus => rfl
  | minus => rfl
  | none =>
    cases r with
    | nil => rfl
    | cons c r =>
      have := hr c r rfl
      unfold takeSign
      split
      · rename_i heq; simp at heq; rw [heq.1] at this; simp [isDigit] at this
      · rename_i heq; simp at heq; rw [heq.1] at this; simp [isDigit] at this
      · rfl

/-- **C95** (what is accepted): if ParseDuration accepts a text, then the text is "0" or consists of terms, with an optional
    sign, and the result is the sum of the terms, with an error of at most 1.01 ns for each term that has a fraction. -/
theorem C95_accepted (s : Bytes) (d : Int) (h : parse s = some d) : -2 ^ 63 < d ∧ d < 2 ^ 63 ∧ ∃ sg neg, Sign sg neg ∧
    ((s = sg ++ ascii "0" ∧ d = 0) ∨ ∃ ts : List Term, ts ≠ [] ∧ (∀ t ∈ ts, t.WF) ∧ s = sg ++ text ts ∧
      (0 ≤ if neg then -d else d) ∧
      |((if neg then -d else d : Int) : ℚ) - exact ts| ≤ 101 / 100 * ts.length ∧
      ((∀ t ∈ ts, t.fp = []) → ((if neg then -d else d : Int) : ℚ) = exact ts)) := by
  obtain ⟨sg, hsg, hs⟩ := takeSign_iff s
  simp only [parse] at h
  split at h
  · rename_i h0
    simp at h; subst h
    refine ⟨by norm_num, by norm_num, sg, _, hsg, .inl ⟨by rw [hs, h0], rfl⟩⟩
  · split at h
    · simp at h
    · rename_i h0 hne
      simp only [Option.map_eq_some_iff] at h
      obtain ⟨e, he, hd⟩ := h
      obtain ⟨ts, h1, h2, h3, h4⟩ := parts_some _ _ _ _ (by norm_num) (by norm_num) he
      have hn := nanos_sum_nonneg h1
      have hde : (if (takeSign s).1 = true then -d else d) = nanos ts := by
        rw [← hd]; split <;> omega
      refine ⟨by split at hd <;> omega, by split at hd <;> omega, sg, _, hsg, .inr ⟨ts, ?_, h1, by rw [hs, h2], by rw [hde]; exact hn, ?_, ?_⟩⟩
      · rintro rfl; exact hne h2
      · rw [hde]; exact nanos_err h1
      · rw [hde]; exact nanos_whole

theorem parse_terms {sg : Bytes} {neg : Bool} (hs : Sign sg neg) {ts : List Term} (hne : ts ≠ []) (hwf : ∀ t ∈ ts, t.WF)
    (hlt : nanos ts < 2 ^ 63) : parse (sg ++ text ts) = some (if neg then -nanos ts else nanos ts) := by
  have hparts := parts_terms ts _ 0 hwf (le_refl _) (by norm_num) (by norm_num)
  rw [if_pos (by omega), Int.zero_add] at hparts
  have hne2 : text ts ≠ [] := by
    cases ts with
    | nil => exact absurd rfl hne
    | cons t ts =>
      obtain ⟨c, l, hc, -⟩ := term_cons (hwf t (by simp)) (text ts)
      rw [show text (t :: ts) = t.text ++ text ts by simp [text], hc]
      simp
  have h0 : text ts ≠ ascii "0" := by
    intro h
    rw [h] at hparts
    have e1 : parts (ascii "0").length 0 (ascii "0") = none := by decide +kernel
    rw [e1] at hparts; simp at hparts
  simp only [parse, takeSign_text hs (text_ends hwf), h0, hne2, if_false, hparts, Option.map_some]

/-- **C95** (what must be accepted): all texts of this form whose value fits, with this value. -/
theorem C95_complete (sg : Bytes) (neg : Bool) (hs : Sign sg neg) (ts : List Term) (hne : ts ≠ []) (hwf : ∀ t ∈ ts, t.WF)
    (hfit : exact ts + 101 / 100 * ts.length < 2 ^ 63 ∨ ((∀ t ∈ ts, t.fp = []) ∧ exact ts < 2 ^ 63)) :
    ∃ d, parse (sg ++ text ts) = some d ∧ |((if neg then -d else d : Int) : ℚ) - exact ts| ≤ 101 / 100 * ts.length ∧
      ((∀ t ∈ ts, t.fp = []) → ((if neg then -d else d : Int) : ℚ) = exact ts) := by
  have hlt : nanos ts < 2 ^ 63 := by
    have : (nanos ts : ℚ) < 2 ^ 63 := by
      rcases hfit with h | ⟨h1, h2⟩
      · have := nanos_err hwf
        rw [abs_le] at this
        linarith [this.2]
      · rw [nanos_whole h1]; exact h2
    exact_mod_cast this
  have hde : (if neg = true then -(if neg = true then -nanos ts else nanos ts) else (if neg = true then -nanos ts else nanos ts)) = nanos ts := by
    split <;> omega
  exact ⟨_, parse_terms hs hne hwf hlt, by rw [hde]; exact nanos_err hwf, by rw [hde]; exact nanos_whole⟩

/-- "1h15m30.918s", "-.5s" and "1.s" are accepted; the unit is required. -/
example : parse (ascii "1h15m30s") = some 4530000000000 ∧ parse (ascii "-1.s") = some (-1000000000) ∧ parse (ascii "+0") = some 0 ∧
    parse (ascii "15") = none ∧ parse (ascii ".s") = none ∧ parse (ascii "1 s") = none := by
  decide +kernel

example : (⟨ascii "1", true, ascii "5", ascii "h", 3600 * 10 ^ 9⟩ : Term).WF ∧
    (⟨ascii "1", true, ascii "5", ascii "h", 3600 * 10 ^ 9⟩ : Term).exact = 5400000000000 := by
  refine ⟨⟨by decide, by decide, by decide, by decide, by simp [IsUnit]⟩, ?_⟩
  simp [Term.exact, horner, ascii]; norm_num

/-! ## C96 -/

theorem natDigits_spec (n : Nat) : (natDigits n).all isDigit = true ∧ horner 0 (natDigits n) = n ∧ natDigits n ≠ [] := by
  induction n using Nat.strongRecOn with
  | _ n ih =>
    rw [natDigits]
    split
    · rename_i h
      obtain ⟨h1, h2⟩ := Procs.digit_of n h
      refine ⟨by simp only [List.all_cons, List.all_nil, Bool.and_true]; exact h1, by simp only [horner, h2]; omega, by simp⟩
    · rename_i h
      obtain ⟨h1, h2⟩ := Procs.digit_of (n % 10) (by omega)
      obtain ⟨i1, i2, -⟩ := ih (n / 10) (by omega)
      refine ⟨by simp only [List.all_append, i1, List.all_cons, List.all_nil, Bool.and_true, Bool.true_and]; exact h1, ?_, by simp⟩
      rw [horner_snoc, i2, h2]; omega

theorem fmtFracLoop_spec : ∀ (n v : Nat) (acc : Bytes), acc.all isDigit = true →
    ∃ new, fmtFracLoop n v acc = (new ++ acc, v / 10 ^ n) ∧ new.all isDigit = true ∧
      (acc ≠ [] → new.length = n ∧ horner 0 new = v % 10 ^ n) ∧
      (acc = [] → new.length ≤ n ∧ horner 0 new * 10 ^ (n - new.length) = v % 10 ^ n) := by
  intro n
  induction n with
  | zero =>
    intro v acc _
    exact ⟨[], by simp [fmtFracLoop], rfl, by simp [horner, Nat.mod_one], by simp [horner, Nat.mod_one]⟩
  | succ n ih =>
    intro v acc hacc
    have hdiv : v / 10 / 10 ^ n = v / 10 ^ (n + 1) := by rw [Nat.div_div_eq_div_mul, pow_succ, Nat.mul_comm]
    have hmod : v % 10 ^ (n + 1) = 10 * (v / 10 % 10 ^ n) + v % 10 := by
      rw [pow_succ, Nat.mul_comm (10 ^ n) 10, Nat.mod_mul]; ring
    obtain ⟨hd1, hd2⟩ := Procs.digit_of (v % 10) (Nat.mod_lt _ (by norm_num))
    simp only [fmtFracLoop]
    split
    · rename_i hp
      obtain ⟨new, h1, h2, h3, -⟩ := ih (v / 10) (UInt8.ofNat (48 + v % 10) :: acc) (by simp only [List.all_cons, hacc, Bool.and_true]; exact hd1)
      obtain ⟨h3a, h3b⟩ := h3 (by simp)
      have hv : horner 0 (new ++ [UInt8.ofNat (48 + v % 10)]) = v % 10 ^ (n + 1) := by
        rw [horner_snoc, h3b, hd2, hmod]
      refine ⟨new ++ [UInt8.ofNat (48 + v % 10)], by rw [h1, hdiv]; simp, ?_, fun _ => ⟨by simp [h3a], hv⟩, fun _ => ⟨by simp [h3a], ?_⟩⟩
      · simp only [List.all_append, h2, List.all_cons, List.all_nil, Bool.and_true, Bool.true_and]; exact hd1
      · simp only [List.length_append, h3a, List.length_singleton, Nat.sub_self, pow_zero, Nat.mul_one]
        exact hv
    · rename_i hp
      simp only [not_or, not_not] at hp
      obtain ⟨rfl, hp2⟩ := hp
      obtain ⟨new, h1, h2, -, h4⟩ := ih (v / 10) [] rfl
      obtain ⟨h4a, h4b⟩ := h4 rfl
      refine ⟨new, by rw [h1, hdiv], h2, by simp, fun _ => ⟨by omega, ?_⟩⟩
      rw [hmod, hp2, ← h4b, show n + 1 - new.length = (n - new.length) + 1 by omega, pow_succ]; ring

theorem fmtFrac_spec (v prec : Nat) : ∃ fp, fmtFrac v prec = (if fp ≠ [] then 46 :: fp else [], v / 10 ^ prec) ∧ fp.all isDigit = true ∧
    fp.length ≤ prec ∧ horner 0 fp * 10 ^ (prec - fp.length) = v % 10 ^ prec := by
  obtain ⟨new, h1, h2, -, h4⟩ := fmtFracLoop_spec prec v [] rfl
  obtain ⟨h4a, h4b⟩ := h4 rfl
  refine ⟨new, ?_, h2, h4a, h4b⟩
  simp only [fmtFrac, h1, List.append_nil]

/-- A number with at most 9 decimals, of which the unit is a multiple. -/
theorem nanos_decimal {q prec : Nat} {fp u : Bytes} (hfp : fp.all isDigit = true) (hlen : fp.length ≤ prec) (hp : prec ≤ 9)
    (hu : IsUnit u (10 ^ prec)) :
    (⟨natDigits q, decide (fp ≠ []), fp, u, 10 ^ prec⟩ : Term).WF ∧
    (⟨natDigits q, decide (fp ≠ []), fp, u, 10 ^ prec⟩ : Term).nanos = q * 10 ^ prec + horner 0 fp * 10 ^ (prec - fp.length) := by
  obtain ⟨h1, h2, h3⟩ := natDigits_spec q
  refine ⟨⟨h1, hfp, by simp, .inl h3, hu⟩, ?_⟩
  have hlt := horner_lt hfp
  have h9 : 10 ^ fp.length ≤ 10 ^ 9 := Nat.pow_le_pow_right (by norm_num) (by omega)
  have hlf : leadingFraction 0 1 false fp = ((horner 0 fp : Int), 10 ^ fp.length, []) := by
    obtain ⟨k, hk, hl, -, hmore⟩ := frac_digits hfp
    have hk' : k = fp.length := by
      by_contra hne
      have hk1 : k < fp.length := by omega
      have h4 := hmore hk1
      have h5 := horner_lt (take_all hfp (k + 1))
      have h6 : (fp.take (k + 1)).length ≤ 9 := by simp; omega
      have : 10 ^ (fp.take (k + 1)).length ≤ 10 ^ 9 := Nat.pow_le_pow_right (by norm_num) h6
      omega
    have := hl [] noDigit_nil
    rw [List.append_nil, hk', List.take_length] at this
    exact this
  have hpow : (10 : Int) ^ prec = 10 ^ (prec - fp.length) * ((10 ^ fp.length : Nat) : Int) := by
    push_cast; rw [← pow_add]; congr 1; omega
  have hp9 : (10 : Int) ^ prec ≤ 10 ^ 9 := by
    have : 10 ^ prec ≤ 10 ^ 9 := Nat.pow_le_pow_right (by norm_num) hp
    exact_mod_cast this
  simp only [Term.nanos, Term.frac, hlf, h2]
  by_cases hf0 : 0 < (horner 0 fp : Int)
  · rw [if_pos hf0]
    congr 1
    have hm : (0 : Int) ≤ 10 ^ (prec - fp.length) := by positivity
    refine fraction_exact (by omega) (by omega) hpow (by positivity) hm ?_ (by omega)
    have : (horner 0 fp : Int) * 10 ^ (prec - fp.length) ≤ 10 ^ (prec - fp.length) * ((10 ^ fp.length : Nat) : Int) := by
      rw [Int.mul_comm]
      exact mul_le_mul_of_nonneg_left (by exact_mod_cast hlt.le) hm
    rw [← hpow] at this
    omega
  · rw [if_neg hf0]
    have : horner 0 fp = 0 := by omega
    simp [this]

theorem nanos_int {q : Nat} {u : Bytes} {unit : Int} (hu : IsUnit u unit) :
    (⟨natDigits q, false, [], u, unit⟩ : Term).WF ∧ (⟨natDigits q, false, [], u, unit⟩ : Term).nanos = q * unit := by
  obtain ⟨h1, h2, h3⟩ := natDigits_spec q
  refine ⟨⟨h1, rfl, by simp, .inl h3, hu⟩, ?_⟩
  simp [Term.nanos, Term.frac, leadingFraction, h2]

theorem small_spec {v prec : Nat} {u : Bytes} (hp : prec ≤ 9) (hu : IsUnit u (10 ^ prec)) :
    ∃ t : Term, t.WF ∧ small v prec u = t.text ∧ t.nanos = v := by
  obtain ⟨fp, h1, h2, h3, h4⟩ := fmtFrac_spec v prec
  obtain ⟨h5, h6⟩ := nanos_decimal (q := v / 10 ^ prec) h2 h3 hp hu
  refine ⟨_, h5, ?_, ?_⟩
  · simp only [small, h1, fmtInt, Term.text]
    congr 2
    by_cases hf : fp = [] <;> simp [hf]
  · rw [h6]
    have : (horner 0 fp : Int) * 10 ^ (prec - fp.length) = ((v % 10 ^ prec : Nat) : Int) := by rw [← h4]; push_cast; ring
    rw [this]
    have := Nat.div_add_mod v (10 ^ prec)
    have e : ((v / 10 ^ prec : Nat) : Int) * 10 ^ prec = ((10 ^ prec * (v / 10 ^ prec) : Nat) : Int) := by push_cast; ring
    rw [e]; exact_mod_cast this

theorem format_spec (u : Nat) : ∃ ts : List Term, ts ≠ [] ∧ (∀ t ∈ ts, t.WF) ∧ format u = text ts ∧ nanos ts = u := by
  have single : ∀ t : Term, t.WF → ∀ s, s = t.text → t.nanos = u → ∃ ts : List Term, ts ≠ [] ∧ (∀ t ∈ ts, t.WF) ∧ s = text ts ∧ nanos ts = u := by
    intro t h s hs hn
    exact ⟨[t], by simp, by simpa using h, by simp [text, hs], by simp [nanos, hn]⟩
  unfold format
  split
  · split
    · rename_i h0
      subst h0
      obtain ⟨h1, h2⟩ := nanos_int (q := 0) (u := ascii "s") (unit := 10 ^ 9) (by simp [IsUnit])
      exact single _ h1 _ (by rw [Term.text]; decide +kernel) (by rw [h2]; simp)
    · split
      · obtain ⟨t, h1, h2, h3⟩ := small_spec (v := u) (prec := 0) (u := ascii "ns") (by norm_num) (by simp [IsUnit])
        exact single t h1 _ h2 h3
      · split
        · obtain ⟨t, h1, h2, h3⟩ := small_spec (v := u) (prec := 3) (u := [0xC2, 0xB5, 115]) (by norm_num) (by simp [IsUnit])
          exact single t h1 _ h2 h3
        · obtain ⟨t, h1, h2, h3⟩ := small_spec (v := u) (prec := 6) (u := ascii "ms") (by norm_num) (by simp [IsUnit])
          exact single t h1 _ h2 h3
  · obtain ⟨fp, h1, h2, h3, h4⟩ := fmtFrac_spec u 9
    have hs : (fmtFrac u 9).2 = u / 10 ^ 9 := by rw [h1]
    have hf : (fmtFrac u 9).1 = if fp ≠ [] then 46 :: fp else [] := by rw [h1]
    simp only [hs, hf, fmtInt]
    obtain ⟨s1, s2⟩ := nanos_decimal (q := u / 10 ^ 9 % 60) (u := ascii "s") h2 h3 (by norm_num) (by simp [IsUnit])
    obtain ⟨m1, m2⟩ := nanos_int (q := u / 10 ^ 9 / 60 % 60) (u := ascii "m") (unit := 60 * 10 ^ 9) (by simp [IsUnit])
    obtain ⟨g1, g2⟩ := nanos_int (q := u / 10 ^ 9 / 60 / 60) (u := ascii "h") (unit := 3600 * 10 ^ 9) (by simp [IsUnit])
    have hfr : (horner 0 fp : Int) * 10 ^ (9 - fp.length) = ((u % 10 ^ 9 : Nat) : Int) := by rw [← h4]; push_cast; ring
    rw [hfr] at s2
    have hsec : natDigits (u / 10 ^ 9 % 60) ++ (if fp ≠ [] then 46 :: fp else []) ++ ascii "s" =
        (⟨natDigits (u / 10 ^ 9 % 60), decide (fp ≠ []), fp, ascii "s", 10 ^ 9⟩ : Term).text := by
      by_cases hf : fp = [] <;> simp [Term.text, hf]
    have hmin : natDigits (u / 10 ^ 9 / 60 % 60) ++ ascii "m" = (⟨natDigits (u / 10 ^ 9 / 60 % 60), false, [], ascii "m", 60 * 10 ^ 9⟩ : Term).text := by
      simp [Term.text]
    have hh : natDigits (u / 10 ^ 9 / 60 / 60) ++ ascii "h" = (⟨natDigits (u / 10 ^ 9 / 60 / 60), false, [], ascii "h", 3600 * 10 ^ 9⟩ : Term).text := by
      simp [Term.text]
    rw [hsec, hmin, hh]
    split
    · split
      · refine ⟨[_, _, _], by simp, ?_, by simp only [text, List.flatMap_cons, List.flatMap_nil, List.append_nil]; rfl, ?_⟩
        · intro t ht
          simp only [List.mem_cons, List.not_mem_nil, or_false] at ht
          rcases ht with rfl | rfl | rfl <;> assumption
        · simp only [nanos, List.map_cons, List.map_nil, List.sum_cons, List.sum_nil, s2, m2, g2]
          omega
      · refine ⟨[_, _], by simp, ?_, by simp only [text, List.flatMap_cons, List.flatMap_nil, List.append_nil]; rfl, ?_⟩
        · intro t ht
          simp only [List.mem_cons, List.not_mem_nil, or_false] at ht
          rcases ht with rfl | rfl <;> assumption
        · simp only [nanos, List.map_cons, List.map_nil, List.sum_cons, List.sum_nil, s2, m2]
          omega
    · exact single _ s1 _ rfl (by rw [s2]; omega)

/-- C96 in full: what is printed can be read. -/
def C96Claim : Prop := ∀ d : Int, -2 ^ 63 ≤ d → d < 2 ^ 63 → parse (toText d) = some d

/-- The Duration processor (confstore/procs.go:107-120). -/
def durationProc : ParseProc Int := ⟨fun s => match parse s with | none => .error "not duration value" | some d => .ok d, false⟩

/-- **C96** (partial): every duration except the least one can be read from its text; the processor accepts the text and
    converts it into the duration.  Missing: -2^63 ns. -/
theorem C96_partial (d : Int) (h1 : -2 ^ 63 < d) (h2 : d < 2 ^ 63) : parse (toText d) = some d ∧
    durationProc.validate (toText d) = none ∧ durationProc.convert (toText d) = some d := by
  have hp : parse (toText d) = some d := by
    obtain ⟨ts, hne, hwf, hf, hn⟩ := format_spec d.natAbs
    have hlt : nanos ts < 2 ^ 63 := by omega
    unfold toText
    split
    · have := parse_terms .minus hne hwf hlt
      rw [show ascii "-" ++ text ts = 45 :: text ts from rfl] at this
      rw [hf, this, if_pos rfl]
      congr 1; omega
    · have := parse_terms .none hne hwf hlt
      rw [List.nil_append] at this
      rw [hf, this, if_neg (by simp)]
      congr 1; omega
  refine ⟨hp, ?_, ?_⟩ <;> simp [ParseProc.validate, ParseProc.convert, durationProc, hp]

/-- **C96** (violated): the least duration is printed as a text that is not accepted (before Go 1.18). -/
theorem C96_violated : ¬ C96Claim := by
  intro h
  have h1 := h (-2 ^ 63) (by norm_num) (by norm_num)
  have := C95_accepted _ _ h1
  omega

example : toText (-5415000000001) = ascii "-1h30m15.000000001s" ∧ toText 1500 = [49, 46, 53, 0xC2, 0xB5, 115] := by
  decide +kernel

end Gears.Duration
