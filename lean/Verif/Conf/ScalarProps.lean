import Verif.Conf.YamlProps

/-
Property C117: what a scalar of a yaml file means, and what it stores in a field.
-/

namespace Gears.Conf.Yaml

/-! ## Specification -/

/-- The words with a meaning of their own. -/
inductive Word (L : Lib) (s : Bytes) : Res → Prop where
  | true : s ∈ ["true", "True", "TRUE"].map Str.ascii → Word L s (.bool true)
  | false : s ∈ ["false", "False", "FALSE"].map Str.ascii → Word L s (.bool false)
  | null : s ∈ ["", "~", "null", "Null", "NULL"].map Str.ascii → Word L s .null
  | nan {x} : s ∈ [".nan", ".NaN", ".NAN"].map Str.ascii → L.flt (Str.ascii "NaN") = some x → Word L s (.float x)
  | inf {x} : s ∈ [".inf", ".Inf", ".INF", "+.inf", "+.Inf", "+.INF"].map Str.ascii → L.flt (Str.ascii "+Inf") = some x → Word L s (.float x)
  | ninf {x} : s ∈ ["-.inf", "-.Inf", "-.INF"].map Str.ascii → L.flt (Str.ascii "-Inf") = some x → Word L s (.float x)

/-- One or more decimal digits. -/
def Digits (s : Bytes) : Prop := s ≠ [] ∧ ∀ c ∈ s, 48 ≤ c.toNat ∧ c.toNat ≤ 57

/-- An optional sign. -/
def Sign (g : Bytes) : Prop := g = [] ∨ g = [43] ∨ g = [45]

/-- `.digits`, `digits`, `digits.` or `digits.digits` -/
def Mantissa (m : Bytes) : Prop := (∃ d, Digits d ∧ m = 46 :: d) ∨ Digits m ∨ ∃ d f, Digits d ∧ (f = [] ∨ Digits f) ∧ m = d ++ 46 :: f

/-- Nothing, or `e` or `E` with digits that may have a sign. -/
def Exponent (e : Bytes) : Prop := e = [] ∨ ∃ c g d, e = c :: (g ++ d) ∧ (c = 101 ∨ c = 69) ∧ Sign g ∧ Digits d

/-- The decimal floats of YAML. -/
def FloatText (s : Bytes) : Prop := ∃ g m e, s = g ++ (m ++ e) ∧ Sign g ∧ Mantissa m ∧ Exponent e

/-- The text begins with a sign or a digit. -/
def Numeric (s : Bytes) : Prop := ∃ c t, s = c :: t ∧ (c = 43 ∨ c = 45 ∨ 48 ≤ c.toNat ∧ c.toNat ≤ 57)

/-- A timestamp: four digits, `-`, and whatever `time.Parse` accepts. -/
def TimeText (L : Lib) (s : Bytes) : Prop := (∃ d t, s = d ++ 45 :: t ∧ Digits d ∧ d.length = 4) ∧ L.stamp s = true

/-- The text without `_`. -/
def plain (s : Bytes) : Bytes := s.filter (· ≠ 95)

/-- A Go integer literal of 64 bits, or, without sign, of 64 bits unsigned. -/
def IntOk (s : Bytes) (z : Int) : Prop := IntText s z ∧ -2 ^ 63 ≤ z ∧ z < 2 ^ 63 ∨ ∃ n : Nat, Literal s n ∧ z = n ∧ n < 2 ^ 64

/-- A sign after the prefix `0b` or `0o`. -/
def SignInside (s : Bytes) (z : Int) : Prop := ∃ p base g t n, (p, base) ∈ [((98 : UInt8), 2), (111, 8)] ∧ s = 48 :: p :: g :: t ∧ LitDigits base 0 t n ∧
  (g = 43 ∧ z = n ∧ n < 2 ^ 63 ∨ g = 45 ∧ z = -n ∧ n ≤ 2 ^ 63)

/-- What a text that begins with a sign or a digit means, unless it is a word or a string. -/
inductive Number (L : Lib) (s : Bytes) : Res → Prop where
  | time : TimeText L s → Number L s .time
  | int {z} : ¬ TimeText L s → IntOk (plain s) z → Number L s (.int z)
  | float {x} : ¬ TimeText L s → (∀ z, ¬ IntOk (plain s) z) → FloatText (plain s) → L.flt (plain s) = some x → Number L s (.float x)
  | inside {z} : ¬ TimeText L s → SignInside (plain s) z → Number L s (.int z)

/-- What a plain scalar means, unless it is a string. -/
inductive Means (L : Lib) (s : Bytes) : Res → Prop where
  | word {r} : Word L s r → Means L s r
  | dot {t x} : (∀ r, ¬ Word L s r) → s = 46 :: t → L.flt s = some x → Means L s (.float x)
  | number {r} : (∀ r, ¬ Word L s r) → Numeric s → Number L s r → Means L s r

/-- What a scalar means; `quoted`: it has quotes, or is a block scalar, or has the tag `!!str`. -/
def Meaning (L : Lib) (quoted : Bool) (s : Bytes) (r : Res) : Prop :=
  quoted = true ∧ r = .str ∨ quoted = false ∧ (Means L s r ∨ r = .str ∧ ∀ r', ¬ Means L s r')

/-- What a scalar with the text `s` and the meaning `r` stores in a field of kind `k`. -/
inductive Stores (L : Lib) (s : Bytes) : Kind → Res → Int → Prop where
  | string {r} : Stores L s .string r (L.str s)
  | yes : Stores L s .bool (.bool true) 1
  | no : Stores L s .bool (.bool false) 0
  | oldYes : s ∈ ["y", "Y", "yes", "on"].map Str.ascii → Stores L s .bool .str 1
  | oldNo : s ∈ ["n", "N", "no", "off"].map Str.ascii → Stores L s .bool .str 0
  | int {k z} : k = .int ∨ k = .int64 → z < 2 ^ 63 → Stores L s k (.int z) z
  | whole {k x z} : k = .int ∨ k = .int64 → L.toInt x = some z → Stores L s k (.float x) z
  | uint {k z} : k = .uint ∨ k = .uint64 → 0 ≤ z → Stores L s k (.int z) z
  | wholeU {k x z} : k = .uint ∨ k = .uint64 → L.toUint x = some z → Stores L s k (.float x) z
  | ofInt {z} : Stores L s .float64 (.int z) (L.ofInt z)
  | float {x} : Stores L s .float64 (.float x) x
  | duration {d} : Duration.parse s = some d → Stores L s .duration .str d

/-! ## Lemmas -/

theorem isDig_iff (c : UInt8) : isDig c = true ↔ 48 ≤ c.toNat ∧ c.toNat ≤ 57 := by
  simp [isDig, UInt8.le_iff_toNat_le]

theorem digits_iff (s : Bytes) : Digits s ↔ s ≠ [] ∧ s.all isDig = true := by
  simp [Digits, isDig_iff]

/-- The longest run of digits. -/
theorem span_digits {d t : Bytes} (hd : ∀ c ∈ d, isDig c = true) (ht : ∀ c, t.head? = some c → isDig c = false) :
    (d ++ t).takeWhile isDig = d ∧ (d ++ t).dropWhile isDig = t := by
  induction d with
  | nil =>
    cases t with
    | nil => simp
    | cons c t => simp [ht c rfl]
  | cons c d ih =>
    have := ih (fun x hx => hd x (by simp [hx]))
    simp [hd c (by simp), this.1, this.2]

theorem takeWhile_digits (s : Bytes) : ∀ c ∈ s.takeWhile isDig, isDig c = true := fun c hc => by
  have := List.all_takeWhile (p := isDig) (l := s)
  exact List.all_eq_true.1 this c hc

theorem dropWhile_head (s : Bytes) : ∀ c, (s.dropWhile isDig).head? = some c → isDig c = false := by
  intro c hc
  have := List.head?_dropWhile_not isDig s
  rw [hc] at this
  simpa using this

/-- The exponent part of `yamlFloat`. -/
def expPart (s : Bytes) : Bool := match s with
    | [] => true
    | c :: s =>
      (c = 101 || c = 69) &&
      (let s := match s with | 45 :: s => s | 43 :: s => s | s => s
       s ≠ [] && s.all isDig)

/-- The optional sign of `yamlFloat`. -/
def unsign (s : Bytes) : Bytes := match s with | 45 :: s => s | 43 :: s => s | s => s

theorem unsign_spec (s : Bytes) : ∃ g, Sign g ∧ s = g ++ unsign s := by
  unfold unsign
  split
  · exact ⟨[45], .inr (.inr rfl), rfl⟩
  · exact ⟨[43], .inr (.inl rfl), rfl⟩
  · exact ⟨[], .inl rfl, rfl⟩

theorem unsign_sign {g t : Bytes} (hg : Sign g) (ht : ∀ c, t.head? = some c → c ≠ 43 ∧ c ≠ 45) : unsign (g ++ t) = t := by
  rcases hg with rfl | rfl | rfl
  · unfold unsign
    split
    · rename_i h; exact absurd rfl (ht 45 (by simp only [List.nil_append] at h; rw [h]; rfl)).2
    · rename_i h; exact absurd rfl (ht 43 (by simp only [List.nil_append] at h; rw [h]; rfl)).1
    · rfl
  · rfl
  · rfl

theorem digits_head {d t : Bytes} (h : Digits d) : ∀ c, (d ++ t).head? = some c → c ≠ 43 ∧ c ≠ 45 := by
  intro c hc
  obtain ⟨h1, h2⟩ := h
  cases d with
  | nil => exact absurd rfl h1
  | cons a d =>
    simp only [List.cons_append, List.head?_cons, Option.some.injEq] at hc
    subst hc
    have := h2 a (by simp)
    constructor <;> (rintro rfl; revert this; decide)

theorem expPart_iff (s : Bytes) : expPart s = true ↔ Exponent s := by
  cases s with
  | nil => simp [expPart, Exponent]
  | cons c s =>
    have e : expPart (c :: s) = ((c = 101 || c = 69) && (unsign s ≠ [] && (unsign s).all isDig)) := rfl
    rw [e]
    simp only [Bool.and_eq_true, Bool.or_eq_true, decide_eq_true_eq]
    constructor
    · rintro ⟨h1, h2⟩
      obtain ⟨g, hg, hs⟩ := unsign_spec s
      exact .inr ⟨c, g, unsign s, by rw [← hs], h1, hg, (digits_iff _).2 h2⟩
    · rintro (h | ⟨c', g, d, h, hc, hg, hd⟩)
      · simp at h
      · simp only [List.cons.injEq] at h
        obtain ⟨rfl, rfl⟩ := h
        rw [unsign_sign hg (by simpa using digits_head (t := []) hd)]
        exact ⟨hc, (digits_iff _).1 hd⟩

theorem exponent_head {e : Bytes} (h : Exponent e) : ∀ c, e.head? = some c → isDig c = false ∧ c ≠ 46 := by
  intro c hc
  rcases h with rfl | ⟨c', g, d, rfl, h, -, -⟩
  · simp at hc
  · simp only [List.head?_cons, Option.some.injEq] at hc
    subst hc
    rcases h with rfl | rfl <;> decide

/-- The mantissa part of `yamlFloat`. -/
def mantPart (s : Bytes) : Bool :=
  match s.takeWhile isDig, s.dropWhile isDig with
  | [], 46 :: s => s.takeWhile isDig ≠ [] && expPart (s.dropWhile isDig)
  | [], _ => false
  | _, 46 :: s => expPart (s.dropWhile isDig)
  | _, s => expPart s

theorem yamlFloat_eq (s : Bytes) : yamlFloat s = mantPart (unsign s) := rfl

theorem digits_of {s : Bytes} (h : s ≠ []) (h' : ∀ c ∈ s, isDig c = true) : Digits s := (digits_iff s).2 ⟨h, by simpa using h'⟩

theorem mantPart_iff (s : Bytes) : mantPart s = true ↔ ∃ m e, s = m ++ e ∧ Mantissa m ∧ Exponent e := by
  constructor
  · intro h
    have hs : s = s.takeWhile isDig ++ s.dropWhile isDig := (List.takeWhile_append_dropWhile).symm
    unfold mantPart at h
    split at h
    · rename_i t h1 h2
      simp only [Bool.and_eq_true, decide_eq_true_eq] at h
      refine ⟨46 :: t.takeWhile isDig, t.dropWhile isDig, ?_, .inl ⟨_, digits_of h.1 (takeWhile_digits t), rfl⟩, (expPart_iff _).1 h.2⟩
      rw [hs, h1, h2]
      simp
    · simp at h
    · rename_i t h2 h1
      refine ⟨s.takeWhile isDig ++ 46 :: t.takeWhile isDig, t.dropWhile isDig, ?_,
        .inr (.inr ⟨_, _, digits_of (fun hc => h1 hc) (takeWhile_digits s), ?_, rfl⟩), (expPart_iff _).1 h⟩
      · conv_lhs => rw [hs, h2]
        simp
      · by_cases ht : t.takeWhile isDig = []
        · exact .inl ht
        · exact .inr (digits_of ht (takeWhile_digits t))
    · rename_i h1 h2 h3
      exact ⟨_, _, hs, .inr (.inl (digits_of (fun hc => h1 hc) (takeWhile_digits s))), (expPart_iff _).1 h⟩
  · rintro ⟨m, e, rfl, hm, he⟩
    have hh := exponent_head he
    have he' := (expPart_iff e).2 he
    rcases hm with ⟨d, hd, rfl⟩ | hd | ⟨d, f, hd, hf, rfl⟩
    · obtain ⟨h1, h2⟩ := (digits_iff d).1 hd
      obtain ⟨e1, e2⟩ := span_digits (d := d) (t := e) (by simpa using h2) (fun c hc => (hh c hc).1)
      have : isDig 46 = false := by decide
      simp [mantPart, this, e1, e2, h1, he']
    · obtain ⟨h1, h2⟩ := (digits_iff m).1 hd
      obtain ⟨e1, e2⟩ := span_digits (d := m) (t := e) (by simpa using h2) (fun c hc => (hh c hc).1)
      unfold mantPart
      rw [e1, e2]
      split
      · exact absurd rfl h1
      · exact absurd rfl h1
      · exact absurd rfl (hh 46 rfl).2
      · exact he'
    · obtain ⟨h1, h2⟩ := (digits_iff d).1 hd
      have hf' : ∀ c ∈ f, isDig c = true := by
        rcases hf with rfl | hf
        · simp
        · simpa using ((digits_iff f).1 hf).2
      obtain ⟨e1, e2⟩ := span_digits (d := d) (t := 46 :: (f ++ e)) (by simpa using h2) (by simp; decide)
      obtain ⟨e3, e4⟩ := span_digits (d := f) (t := e) hf' (fun c hc => (hh c hc).1)
      have hx : d ++ 46 :: f ++ e = d ++ 46 :: (f ++ e) := by simp
      unfold mantPart
      rw [hx, e1, e2]
      split
      · exact absurd rfl h1
      · exact absurd rfl h1
      · rename_i h; simp only [List.cons.injEq, true_and] at h; rw [← h, e4]; exact he'
      · rename_i h _; exact absurd rfl (h _)

theorem yamlFloat_iff (s : Bytes) : yamlFloat s = true ↔ FloatText s := by
  rw [yamlFloat_eq, mantPart_iff]
  constructor
  · rintro ⟨m, e, h, hm, he⟩
    obtain ⟨g, hg, hs⟩ := unsign_spec s
    exact ⟨g, m, e, by rw [← h, ← hs], hg, hm, he⟩
  · rintro ⟨g, m, e, rfl, hg, hm, he⟩
    refine ⟨m, e, unsign_sign hg ?_, hm, he⟩
    rcases hm with ⟨d, hd, rfl⟩ | hd | ⟨d, f, hd, hf, rfl⟩
    · simp
    · exact digits_head hd
    · rw [List.append_assoc]; exact digits_head hd

theorem stampLike_iff (s : Bytes) : stampLike s = true ↔ ∃ d t, s = d ++ 45 :: t ∧ Digits d ∧ d.length = 4 := by
  simp only [stampLike, Bool.and_eq_true, decide_eq_true_eq]
  constructor
  · rintro ⟨h1, h2⟩
    refine ⟨s.takeWhile isDig, (s.dropWhile isDig).tail, ?_, digits_of (by rintro hc; simp [hc] at h1) (takeWhile_digits s), h1⟩
    have hs : s = s.takeWhile isDig ++ s.dropWhile isDig := (List.takeWhile_append_dropWhile).symm
    conv_lhs => rw [hs]
    congr 1
    cases hd : s.dropWhile isDig with
    | nil => simp [hd] at h2
    | cons c t => simp only [hd, List.head?_cons, Option.some.injEq] at h2; simp [h2]
  · rintro ⟨d, t, rfl, hd, hl⟩
    obtain ⟨e1, e2⟩ := span_digits (d := d) (t := 45 :: t) (by simpa using ((digits_iff d).1 hd).2) (by simp; decide)
    rw [e1, e2]
    exact ⟨hl, rfl⟩

theorem timeText_iff (L : Lib) (s : Bytes) : (stampLike s && L.stamp s) = true ↔ TimeText L s := by
  rw [Bool.and_eq_true, stampLike_iff, TimeText]

theorem intOk_iff (s : Bytes) (z : Int) : IntOk s z ↔ (parseInt0 s = some z ∨ ∃ n : Nat, parseUint s = some n ∧ z = n) := by
  constructor
  · rintro (h | ⟨n, h1, h2, h3⟩)
    · exact .inl ((parseInt0_iff s z).2 h)
    · exact .inr ⟨n, (parseUint_iff s n).2 ⟨h1, h3⟩, h2⟩
  · rintro (h | ⟨n, h, rfl⟩)
    · exact .inl ((parseInt0_iff s z).1 h)
    · have := (parseUint_iff s n).1 h
      exact .inr ⟨n, this.1, rfl, this.2⟩

theorem good_plain : ∀ {t : Bytes}, t ≠ [] → 95 ∉ t → good true t = true := by
  have key : ∀ (t : Bytes) (b : Bool), 95 ∉ t → (b = true → t ≠ []) → good b t = true := by
    intro t
    induction t with
    | nil => intro b _ h; cases b <;> simp_all [good]
    | cons c t ih =>
      intro b h hb
      simp only [List.mem_cons, not_or] at h
      have hc : c ≠ 95 := fun e => h.1 e.symm
      simp [good, hc, ih false h.2 (by simp)]
  exact fun {t} h1 h2 => key t true h2 (fun _ => h1)

theorem parseUintB_iff {base : Nat} (hb : 2 ≤ base) (hb' : base ≤ 16) {s : Bytes} (hs : 95 ∉ s) (n : Nat) :
    parseUintB base s = some n ↔ LitDigits base 0 s n ∧ n < 2 ^ 64 := by
  rw [litDigits_iff hb']
  unfold parseUintB
  by_cases h : s = []
  · subst h; simp [good]
  · rw [if_neg h, Option.map_eq_some_iff]
    constructor
    · rintro ⟨⟨m, us⟩, h1, rfl⟩
      have := (uintLoop_iff hb hb' s 0 false m us (by omega)).1 h1
      exact ⟨⟨good_plain h hs, this.1⟩, this.2.1⟩
    · rintro ⟨⟨-, h1⟩, h2⟩
      exact ⟨(n, _), (uintLoop_iff hb hb' s 0 false n _ (by omega)).2 ⟨h1, h2, rfl⟩, rfl⟩

theorem parseUintB_sign {base : Nat} {c : UInt8} {s : Bytes} (hc : c = 43 ∨ c = 45) : parseUintB base (c :: s) = none := by
  have e : digitVal c = none := by rcases hc with rfl | rfl <;> decide
  have e' : c ≠ 95 := by rcases hc with rfl | rfl <;> decide
  simp [parseUintB, uintLoop, e, e']

/-- The part of `resolveBased` that integer literals do not cover. -/
theorem resolveBased_iff {s : Bytes} (hs : 95 ∉ s) (hn : ∀ z, ¬ IntOk s z) (z : Int) : resolveBased s = some z ↔ SignInside s z := by
  have both : ∀ (p : UInt8) (base : Nat) (t : Bytes), (p, base) ∈ [((98 : UInt8), 2), (111, 8)] → s = 48 :: p :: t →
      (((parseIntB base t).or ((parseUintB base t).map Int.ofNat)) = some z ↔ SignInside s z) := by
    intro p base t hp hst
    have hb : 2 ≤ base ∧ base ≤ 16 ∧ (p, base) ∈ prefixes := by
      simp only [List.mem_cons, List.not_mem_nil, or_false, Prod.mk.injEq] at hp
      rcases hp with ⟨rfl, rfl⟩ | ⟨rfl, rfl⟩ <;> simp [prefixes]
    have ht : 95 ∉ t := by subst hst; simp only [List.mem_cons, not_or] at hs; exact hs.2.2
    have inj : ∀ {p' : UInt8} {base' : Nat}, (p', base') ∈ [((98 : UInt8), 2), (111, 8)] → p' = p → base' = base := by
      intro p' base' h e
      subst e
      simp only [List.mem_cons, List.not_mem_nil, or_false, Prod.mk.injEq] at hp h
      rcases hp with ⟨rfl, rfl⟩ | ⟨h1, rfl⟩ <;> rcases h with ⟨h2, rfl⟩ | ⟨h2, rfl⟩ <;> first | rfl | (rw [h1] at h2; simp at h2) | simp at h2
    have none_of : (∀ g u, t = g :: u → g ≠ 43 ∧ g ≠ 45) → parseUintB base t = none := by
      intro hg
      cases hx : parseUintB base t with
      | none => rfl
      | some n =>
        obtain ⟨h1, h2⟩ := (parseUintB_iff hb.1 hb.2.1 ht n).1 hx
        exact absurd (.inr ⟨n, by rw [hst]; exact Literal.based (u := []) hb.2.2 (.inl rfl) h1, rfl, h2⟩) (hn n)
    match t, ht, hst, none_of with
    | [], ht, hst, none_of =>
      constructor
      · intro h; simp [parseIntB, parseUintB] at h
      · rintro ⟨p', base', g, u, n, h1, h2, -⟩; rw [hst] at h2; simp at h2
    | g :: u, ht, hst, none_of =>
      have hu : 95 ∉ u := by simp only [List.mem_cons, not_or] at ht; exact ht.2
      by_cases hg : g = 43
      · subst hg
        rw [parseUintB_sign (.inl rfl)]
        simp only [parseIntB, Option.map_none, Option.or_none]
        rw [Option.bind_eq_some_iff]
        constructor
        · rintro ⟨n, h1, h2⟩
          split at h2
          · simp at h2
          · simp only [Option.some.injEq] at h2
            exact ⟨p, base, 43, u, n, hp, hst, ((parseUintB_iff hb.1 hb.2.1 hu n).1 h1).1, .inl ⟨rfl, h2.symm, by omega⟩⟩
        · rintro ⟨p', base', g, u', n, h1, h2, h3, h4⟩
          rw [hst] at h2
          simp only [List.cons.injEq, true_and] at h2
          obtain ⟨rfl, rfl, rfl⟩ := h2
          obtain rfl := inj h1 rfl
          rcases h4 with ⟨-, rfl, h4⟩ | ⟨h4, -⟩
          · exact ⟨n, (parseUintB_iff hb.1 hb.2.1 hu n).2 ⟨h3, by omega⟩, by rw [if_neg (by omega)]⟩
          · simp at h4
      · by_cases hg' : g = 45
        · subst hg'
          rw [parseUintB_sign (.inr rfl)]
          simp only [parseIntB, Option.map_none, Option.or_none]
          rw [Option.bind_eq_some_iff]
          constructor
          · rintro ⟨n, h1, h2⟩
            split at h2
            · simp at h2
            · simp only [Option.some.injEq] at h2
              exact ⟨p, base, 45, u, n, hp, hst, ((parseUintB_iff hb.1 hb.2.1 hu n).1 h1).1, .inr ⟨rfl, h2.symm, by omega⟩⟩
          · rintro ⟨p', base', g, u', n, h1, h2, h3, h4⟩
            rw [hst] at h2
            simp only [List.cons.injEq, true_and] at h2
            obtain ⟨rfl, rfl, rfl⟩ := h2
            obtain rfl := inj h1 rfl
            rcases h4 with ⟨h4, -⟩ | ⟨-, rfl, h4⟩
            · simp at h4
            · exact ⟨n, (parseUintB_iff hb.1 hb.2.1 hu n).2 ⟨h3, by omega⟩, by rw [if_neg (by omega)]⟩
        · have e := none_of (by intro g' u' h; simp only [List.cons.injEq] at h; obtain ⟨rfl, -⟩ := h; exact ⟨hg, hg'⟩)
          have e' : parseIntB base (g :: u) = none := by
            unfold parseIntB
            split
            · rename_i h; simp only [List.cons.injEq] at h; exact absurd h.1 hg
            · rename_i h; simp only [List.cons.injEq] at h; exact absurd h.1 hg'
            · rw [e]; rfl
          rw [e, e']
          simp only [Option.map_none, Option.or_none, reduceCtorEq, false_iff]
          rintro ⟨p', base', g', u', n, h1, h2, h3, h4⟩
          rw [hst] at h2
          simp only [List.cons.injEq, true_and] at h2
          obtain ⟨-, rfl, -⟩ := h2
          rcases h4 with ⟨h4, -⟩ | ⟨h4, -⟩
          · exact hg h4
          · exact hg' h4
  have neg : ∀ (p : UInt8) (base : Nat) (t : Bytes), (p, base) ∈ [((98 : UInt8), 2), (111, 8)] → s = 45 :: 48 :: p :: t →
      (parseIntB base (45 :: t) = some z ↔ SignInside s z) := by
    intro p base t hp hst
    have hb : 2 ≤ base ∧ base ≤ 16 ∧ (p, base) ∈ prefixes := by
      simp only [List.mem_cons, List.not_mem_nil, or_false, Prod.mk.injEq] at hp
      rcases hp with ⟨rfl, rfl⟩ | ⟨rfl, rfl⟩ <;> simp [prefixes]
    have ht : 95 ∉ t := by subst hst; simp only [List.mem_cons, not_or] at hs; exact hs.2.2.2
    constructor
    · intro h
      simp only [parseIntB] at h
      obtain ⟨n, h1, h2⟩ := Option.bind_eq_some_iff.1 h
      split at h2
      · simp at h2
      · obtain ⟨h3, h4⟩ := (parseUintB_iff hb.1 hb.2.1 ht n).1 h1
        refine absurd (.inl ⟨⟨48 :: p :: t, n, Literal.based (u := []) hb.2.2 (.inl rfl) h3, .inr (.inr ⟨hst, rfl⟩)⟩, ?_, ?_⟩) (hn (-n)) <;> omega
    · rintro ⟨p', base', g', u', n, h1, h2, h3, h4⟩
      rw [hst] at h2
      simp at h2
  unfold resolveBased
  simp only
  split
  · exact both 98 2 _ (by simp) rfl
  · exact neg 98 2 _ (by simp) rfl
  · exact both 111 8 _ (by simp) rfl
  · exact neg 111 8 _ (by simp) rfl
  · rename_i h1 h2 h3 h4
    simp only [reduceCtorEq, false_iff]
    rintro ⟨p, base, g, u, n, hp, rfl, -⟩
    simp only [List.mem_cons, List.not_mem_nil, or_false, Prod.mk.injEq] at hp
    rcases hp with ⟨rfl, rfl⟩ | ⟨rfl, rfl⟩
    · exact h1 _ rfl
    · exact h3 _ rfl

/-- `strconv.ParseFloat` accepts these names. -/
def Names (L : Lib) : Prop := ∀ w ∈ ["NaN", "+Inf", "-Inf"].map Str.ascii, ∃ x, L.flt w = some x

theorem resolveMap_iff {L : Lib} (hL : Names L) (s : Bytes) (r : Res) : resolveMap L s = some r ↔ Word L s r := by
  obtain ⟨xn, hn⟩ := hL (Str.ascii "NaN") (by simp)
  obtain ⟨xp, hp⟩ := hL (Str.ascii "+Inf") (by simp)
  obtain ⟨xm, hm⟩ := hL (Str.ascii "-Inf") (by simp)
  constructor
  · intro h
    unfold resolveMap at h
    simp only [hn, hp, hm, Option.getD_some] at h
    split at h
    · simp only [Option.some.injEq] at h; subst h; exact .true (by assumption)
    split at h
    · simp only [Option.some.injEq] at h; subst h; exact .false (by assumption)
    split at h
    · simp only [Option.some.injEq] at h; subst h; exact .null (by assumption)
    split at h
    · simp only [Option.some.injEq] at h; subst h; exact .nan (by assumption) hn
    split at h
    · simp only [Option.some.injEq] at h; subst h; exact .inf (by assumption) hp
    split at h
    · simp only [Option.some.injEq] at h; subst h; exact .ninf (by assumption) hm
    · simp at h
  · intro h
    cases h with
    | true h =>
      have : ∀ w ∈ ["true", "True", "TRUE"].map Str.ascii, resolveMap L w = some (.bool true) := by
        intro w hw; simp only [resolveMap]; rw [if_pos hw]
      exact this s h
    | false h =>
      have e : ∀ w ∈ ["false", "False", "FALSE"].map Str.ascii, w ∉ ["true", "True", "TRUE"].map Str.ascii := by decide +kernel
      simp only [resolveMap]; rw [if_neg (e s h), if_pos h]
    | null h =>
      have e : ∀ w ∈ ["", "~", "null", "Null", "NULL"].map Str.ascii, w ∉ ["true", "True", "TRUE"].map Str.ascii ∧ w ∉ ["false", "False", "FALSE"].map Str.ascii := by
        decide +kernel
      simp only [resolveMap]; rw [if_neg (e s h).1, if_neg (e s h).2, if_pos h]
    | nan h hx =>
      have e : ∀ w ∈ [".nan", ".NaN", ".NAN"].map Str.ascii, w ∉ ["true", "True", "TRUE"].map Str.ascii ∧ w ∉ ["false", "False", "FALSE"].map Str.ascii ∧
          w ∉ ["", "~", "null", "Null", "NULL"].map Str.ascii := by decide +kernel
      simp only [resolveMap]; rw [if_neg (e s h).1, if_neg (e s h).2.1, if_neg (e s h).2.2, if_pos h, hx]; rfl
    | inf h hx =>
      have e : ∀ w ∈ [".inf", ".Inf", ".INF", "+.inf", "+.Inf", "+.INF"].map Str.ascii, w ∉ ["true", "True", "TRUE"].map Str.ascii ∧
          w ∉ ["false", "False", "FALSE"].map Str.ascii ∧ w ∉ ["", "~", "null", "Null", "NULL"].map Str.ascii ∧ w ∉ [".nan", ".NaN", ".NAN"].map Str.ascii := by
        decide +kernel
      simp only [resolveMap]; rw [if_neg (e s h).1, if_neg (e s h).2.1, if_neg (e s h).2.2.1, if_neg (e s h).2.2.2, if_pos h, hx]; rfl
    | ninf h hx =>
      have e : ∀ w ∈ ["-.inf", "-.Inf", "-.INF"].map Str.ascii, w ∉ ["true", "True", "TRUE"].map Str.ascii ∧
          w ∉ ["false", "False", "FALSE"].map Str.ascii ∧ w ∉ ["", "~", "null", "Null", "NULL"].map Str.ascii ∧ w ∉ [".nan", ".NaN", ".NAN"].map Str.ascii ∧
          w ∉ [".inf", ".Inf", ".INF", "+.inf", "+.Inf", "+.INF"].map Str.ascii := by decide +kernel
      simp only [resolveMap]; rw [if_neg (e s h).1, if_neg (e s h).2.1, if_neg (e s h).2.2.1, if_neg (e s h).2.2.2.1, if_neg (e s h).2.2.2.2, if_pos h, hx]; rfl

theorem word_hint {L : Lib} {s : Bytes} {r : Res} (h : Word L s r) : hintOf s ≠ .none := by
  cases h with
  | true h => exact (by decide +kernel : ∀ w ∈ ["true", "True", "TRUE"].map Str.ascii, hintOf w ≠ .none) s h
  | false h => exact (by decide +kernel : ∀ w ∈ ["false", "False", "FALSE"].map Str.ascii, hintOf w ≠ .none) s h
  | null h => exact (by decide +kernel : ∀ w ∈ ["", "~", "null", "Null", "NULL"].map Str.ascii, hintOf w ≠ .none) s h
  | nan h _ => exact (by decide +kernel : ∀ w ∈ [".nan", ".NaN", ".NAN"].map Str.ascii, hintOf w ≠ .none) s h
  | inf h _ => exact (by decide +kernel : ∀ w ∈ [".inf", ".Inf", ".INF", "+.inf", "+.Inf", "+.INF"].map Str.ascii, hintOf w ≠ .none) s h
  | ninf h _ => exact (by decide +kernel : ∀ w ∈ ["-.inf", "-.Inf", "-.INF"].map Str.ascii, hintOf w ≠ .none) s h

theorem hintOf_cons (c : UInt8) (t : Bytes) : hintOf (c :: t) = if c = 43 ∨ c = 45 ∨ isDig c then .number
    else if c ∈ Str.ascii "yYnNtTfFoO~" then .map
    else if c = 46 then .dot
    else .none := rfl

theorem numeric_iff (s : Bytes) : hintOf s = .number ↔ Numeric s := by
  cases s with
  | nil => simp [hintOf, Numeric]
  | cons c t =>
    rw [hintOf_cons]
    constructor
    · intro h
      split at h
      · rename_i hc
        refine ⟨c, t, rfl, ?_⟩
        rwa [isDig_iff] at hc
      · split at h
        · simp at h
        · split at h <;> simp at h
    · rintro ⟨c', t', h, hc⟩
      simp only [List.cons.injEq] at h
      obtain ⟨rfl, rfl⟩ := h
      rw [if_pos (by rwa [isDig_iff])]

theorem dot_iff (s : Bytes) : hintOf s = .dot ↔ ∃ t, s = 46 :: t := by
  cases s with
  | nil => simp [hintOf]
  | cons c t =>
    rw [hintOf_cons]
    constructor
    · intro h
      split at h
      · simp at h
      · split at h
        · simp at h
        · split at h
          · rename_i hc; exact ⟨t, by rw [hc]⟩
          · simp at h
    · rintro ⟨t', h⟩
      simp only [List.cons.injEq] at h
      obtain ⟨rfl, rfl⟩ := h
      decide

theorem plain_no (s : Bytes) : 95 ∉ plain s := by simp [plain]

theorem float_inside {s : Bytes} {z : Int} (h : SignInside s z) : ¬ FloatText s := by
  obtain ⟨p, base, g, u, n, hp, rfl, -⟩ := h
  rw [← yamlFloat_iff]
  have d48 : isDig 48 = true := by decide
  simp only [List.mem_cons, List.not_mem_nil, or_false, Prod.mk.injEq] at hp
  rcases hp with ⟨rfl, rfl⟩ | ⟨rfl, rfl⟩
  · have d : isDig 98 = false := by decide
    simp [yamlFloat_eq, unsign, mantPart, d48, d, expPart]
  · have d : isDig 111 = false := by decide
    simp [yamlFloat_eq, unsign, mantPart, d48, d, expPart]

theorem literal_plus {t : Bytes} {n : Nat} (h : Literal t n) : 43 ∉ t := by
  have key : ∀ {base acc n : Nat} {t : Bytes}, LitDigits base acc t n → 43 ∉ t := by
    intro base acc n t h hm
    rcases litDigits_bytes h 43 hm with h | ⟨d, -, h⟩
    · simp at h
    · have : (43 : UInt8).toNat = 43 := rfl
      omega
  cases h with
  | zero => decide
  | decimal h1 h2 => exact key h1
  | octal h1 h2 =>
    have := key h2
    rcases h1 with rfl | rfl <;> simp [this]
  | based hp h1 h2 =>
    have := key h2
    have hp' : ∀ {p : UInt8} {base : Nat}, (p, base) ∈ prefixes → (43 : UInt8) ≠ p := fun h e => by
      subst e
      rw [prefix_iff] at h
      rcases h with ⟨h | h, -⟩ | ⟨h | h, -⟩ | ⟨h | h, -⟩ <;> simp at h
    have hp' := hp' hp
    rcases h1 with rfl | rfl <;> simp [this, hp']

theorem inside_int {s : Bytes} {z : Int} (h : SignInside s z) : ∀ y, ¬ IntOk s y := by
  obtain ⟨p, base, g, u, n, hp, rfl, -, hg⟩ := h
  have hg : g = 43 ∨ g = 45 := by tauto
  have hU : parseUint (48 :: p :: g :: u) = none := by
    cases hx : parseUint (48 :: p :: g :: u) with
    | none => rfl
    | some m =>
      have hl := ((parseUint_iff _ _).1 hx).1
      have hno : 43 ∉ (48 :: p :: g :: u) ∧ 45 ∉ (48 :: p :: g :: u) := ⟨literal_plus hl, literal_no_dash hl⟩
      simp only [List.mem_cons, not_or] at hno
      rcases hg with rfl | rfl
      · exact absurd rfl hno.1.2.2.1
      · exact absurd rfl hno.2.2.2.1
  intro y hy
  rcases (intOk_iff _ _).1 hy with h | ⟨m, h, -⟩
  · have : parseInt0 (48 :: p :: g :: u) = (parseUint (48 :: p :: g :: u)).bind fun n => if n ≥ 2 ^ 63 then none else some (n : Int) := by
      unfold parseInt0
      split
      · rename_i he; simp at he
      · rename_i he; simp at he
      · rfl
    rw [this, hU] at h
    simp at h
  · rw [hU] at h; simp at h

theorem intOk_unique {s : Bytes} {a b : Int} (ha : IntOk s a) (hb : IntOk s b) : a = b := by
  have cross : ∀ {a : Int} {n : Nat}, parseInt0 s = some a → parseUint s = some n → a = n := by
    intro a n h1 h2
    obtain ⟨c, r', hc, c1, c2⟩ := literal_head ((parseUint_iff _ _).1 h2).1
    rw [hc] at h1 h2
    unfold parseInt0 at h1
    split at h1
    · rename_i he; simp at he; exact absurd he.1 c1
    · rename_i he; simp at he; exact absurd he.1 c2
    · rw [h2] at h1
      simp only [Option.bind_some] at h1
      split at h1
      · simp at h1
      · simpa using h1.symm
  rcases (intOk_iff _ _).1 ha with h1 | ⟨n, h1, rfl⟩ <;> rcases (intOk_iff _ _).1 hb with h2 | ⟨m, h2, rfl⟩
  · rw [h1] at h2; simpa using h2
  · exact cross h1 h2
  · exact (cross h2 h1).symm
  · rw [h1] at h2; simpa using h2

/-- What the branch for signs and digits makes of a text. -/
theorem number_iff {L : Lib} (s : Bytes) (r : Res) (hr : r ≠ .str) :
    (if stampLike s && L.stamp s then .time
        else
          match parseInt0 (plain s) with
          | some i => .int i
          | none =>
            match parseUint (plain s) with
            | some n => .int n
            | none =>
              match (if yamlFloat (plain s) then L.flt (plain s) else none) with
              | some x => .float x
              | none =>
                match resolveBased (plain s) with
                | some i => .int i
                | none => .str) = r ↔ Number L s r := by
  by_cases ht : TimeText L s
  · rw [if_pos ((timeText_iff L s).2 ht)]
    constructor
    · rintro rfl; exact .time ht
    · intro h; cases h with
      | time => rfl
      | int h => exact absurd ht h
      | float h => exact absurd ht h
      | inside h => exact absurd ht h
  · rw [if_neg (fun h => ht ((timeText_iff L s).1 h))]
    by_cases hi : ∃ z, IntOk (plain s) z
    · obtain ⟨z, hz⟩ := hi
      have e : ∀ y, Number L s y → y = .int z := by
        intro y hy
        cases hy with
        | time h => exact absurd h ht
        | int _ h => rw [intOk_unique h hz]
        | float _ h => exact absurd hz (h z)
        | inside _ h => exact absurd hz (inside_int h z)
      have e' : ∀ (f : Res), (match parseInt0 (plain s) with
          | some i => .int i
          | none =>
            match parseUint (plain s) with
            | some n => .int n
            | none => f) = Res.int z := by
        intro f
        cases h1 : parseInt0 (plain s) with
        | some i => simp only [Res.int.injEq]; exact intOk_unique ((intOk_iff _ _).2 (.inl h1)) hz
        | none =>
          cases h2 : parseUint (plain s) with
          | some n => simp only [Res.int.injEq]; exact intOk_unique ((intOk_iff _ _).2 (.inr ⟨n, h2, rfl⟩)) hz
          | none =>
            rcases (intOk_iff _ _).1 hz with h | ⟨n, h, -⟩
            · rw [h1] at h; simp at h
            · rw [h2] at h; simp at h
      rw [e']
      constructor
      · rintro rfl; exact .int ht hz
      · intro h; exact (e r h).symm
    · have hi' : ∀ z, ¬ IntOk (plain s) z := fun z hz => hi ⟨z, hz⟩
      have h1 : parseInt0 (plain s) = none := by
        cases h : parseInt0 (plain s) with
        | none => rfl
        | some z => exact absurd ((intOk_iff _ _).2 (.inl h)) (hi' z)
      have h2 : parseUint (plain s) = none := by
        cases h : parseUint (plain s) with
        | none => rfl
        | some n => exact absurd ((intOk_iff _ _).2 (.inr ⟨n, h, rfl⟩)) (hi' n)
      rw [h1, h2]
      simp only
      by_cases hf : FloatText (plain s) ∧ ∃ x, L.flt (plain s) = some x
      · obtain ⟨hf, x, hx⟩ := hf
        rw [if_pos ((yamlFloat_iff _).2 hf), hx]
        simp only
        constructor
        · rintro rfl; exact .float ht hi' hf hx
        · intro h
          cases h with
          | time h => exact absurd h ht
          | int _ h => exact absurd h (hi' _)
          | float _ _ _ h => rw [hx] at h; simp at h; rw [h]
          | inside _ h => exact absurd hf (float_inside h)
      · have e : (if yamlFloat (plain s) = true then L.flt (plain s) else none) = none := by
          split
          · rename_i hy
            cases hx : L.flt (plain s) with
            | none => rfl
            | some x => exact absurd ⟨(yamlFloat_iff _).1 hy, x, hx⟩ hf
          · rfl
        rw [e]
        simp only
        constructor
        · intro h
          split at h
          · rename_i i hi2
            subst h
            exact .inside ht ((resolveBased_iff (plain_no s) hi' i).1 hi2)
          · exact absurd h.symm hr
        · intro h
          cases h with
          | time h => exact absurd h ht
          | int _ h => exact absurd h (hi' _)
          | float _ _ h1 h2 => exact absurd ⟨h1, _, h2⟩ hf
          | inside _ h => rw [(resolveBased_iff (plain_no s) hi' _).2 h]

theorem means_str {L : Lib} {s : Bytes} : ¬ Means L s .str := by
  intro h
  cases h with
  | word h => cases h
  | number _ _ h => cases h

theorem resolve_iff {L : Lib} (hL : Names L) (s : Bytes) (r : Res) (hr : r ≠ .str) : resolve L s = r ↔ Means L s r := by
  by_cases hw : ∃ r', Word L s r'
  · obtain ⟨r', hw⟩ := hw
    have hm := (resolveMap_iff hL s r').2 hw
    have hh := word_hint hw
    have e : resolve L s = r' := by
      unfold resolve
      split
      · rename_i h; exact absurd h hh
      · rw [hm]
    rw [e]
    constructor
    · rintro rfl; exact .word hw
    · intro h
      cases h with
      | word h => have := (resolveMap_iff hL s r).2 h; rw [hm] at this; simpa using this
      | dot h => exact absurd hw (h _)
      | number h => exact absurd hw (h _)
  · have hw' : ∀ r', ¬ Word L s r' := fun r' h => hw ⟨r', h⟩
    have hm : resolveMap L s = none := by
      cases h : resolveMap L s with
      | none => rfl
      | some r' => exact absurd ((resolveMap_iff hL s r').1 h) (hw' r')
    have other : hintOf s ≠ .dot → hintOf s ≠ .number → ¬ Means L s r := by
      intro h1 h2 h
      cases h with
      | word h => exact hw' _ h
      | dot _ h => exact h1 ((dot_iff s).2 ⟨_, h⟩)
      | number _ h => exact h2 ((numeric_iff s).2 h)
    cases hh : hintOf s with
    | none =>
      simp only [resolve, hh]
      exact ⟨fun h => absurd h.symm hr, fun h => absurd h (other (by simp [hh]) (by simp [hh]))⟩
    | map =>
      simp only [resolve, hh, hm]
      exact ⟨fun h => absurd h.symm hr, fun h => absurd h (other (by simp [hh]) (by simp [hh]))⟩
    | dot =>
      simp only [resolve, hh, hm]
      obtain ⟨t, ht⟩ := (dot_iff s).1 hh
      constructor
      · intro h
        split at h
        · rename_i x hx; subst h; exact .dot hw' ht hx
        · exact absurd h.symm hr
      · intro h
        cases h with
        | word h => exact absurd h (hw' _)
        | dot _ _ h => rw [h]
        | number _ h => rw [(numeric_iff s).2 h] at hh; simp at hh
    | number =>
      have e : resolve L s = r ↔ Number L s r := by
        rw [← number_iff s r hr]
        simp only [resolve, hh, hm]
        rfl
      rw [e]
      constructor
      · intro h; exact .number hw' ((numeric_iff s).1 hh) h
      · intro h
        cases h with
        | word h => exact absurd h (hw' _)
        | dot _ h => rw [(dot_iff s).2 ⟨_, h⟩] at hh; simp at hh
        | number _ _ h => exact h

/-! ## C117 -/

/-- **C117**: what a scalar means: a word, a timestamp, an integer, a float, or a string. -/
theorem C117_meaning {L : Lib} (hL : Names L) (quoted : Bool) (s : Bytes) (r : Res) : scalarRes L quoted s = r ↔ Meaning L quoted s r := by
  cases quoted with
  | true => simp [scalarRes, Meaning, eq_comm]
  | false =>
    simp only [scalarRes, Meaning, Bool.false_eq_true, if_false, false_and, true_and, false_or]
    by_cases hr : r = .str
    · subst hr
      constructor
      · intro h
        refine .inr ⟨rfl, fun r' hr' => ?_⟩
        have hne : r' ≠ .str := by rintro rfl; exact means_str hr'
        have := (resolve_iff hL s r' hne).2 hr'
        rw [h] at this
        exact hne this.symm
      · rintro (h | ⟨-, h⟩)
        · exact absurd h means_str
        · by_contra hc
          exact h _ ((resolve_iff hL s _ hc).1 rfl)
    · rw [resolve_iff hL s r hr]
      simp [hr]

theorem conv_iff (L : Lib) (k : Kind) (r : Res) (s : Bytes) (y : Int) : conv L k r s = some y ↔ Stores L s k r y := by
  constructor
  · intro h
    cases k <;> simp only [conv] at h
    case string => simp only [Option.some.injEq] at h; subst h; exact .string
    case bool =>
      split at h
      · rename_i b
        simp only [Option.some.injEq] at h
        subst h
        cases b
        · exact .no
        · exact .yes
      · split at h
        · simp only [Option.some.injEq] at h; subst h; exact .oldYes (by assumption)
        split at h
        · simp only [Option.some.injEq] at h; subst h; exact .oldNo (by assumption)
        · simp at h
      · simp at h
    case float64 =>
      split at h
      · simp only [Option.some.injEq] at h; subst h; exact .ofInt
      · simp only [Option.some.injEq] at h; subst h; exact .float
      · simp at h
    case duration =>
      split at h
      · exact .duration h
      · simp at h
    all_goals
      split at h
      · split at h
        · simp only [Option.some.injEq] at h; subst h
          first | exact .int (by simp) (by assumption) | exact .uint (by simp) (by assumption)
        · simp at h
      · first | exact .whole (by simp) h | exact .wholeU (by simp) h
      · simp at h
  · intro h
    cases h with
    | string => rfl
    | yes => rfl
    | no => rfl
    | oldYes h => simp only [conv]; rw [if_pos h]
    | oldNo h =>
      have e : ∀ w ∈ ["n", "N", "no", "off"].map Str.ascii, w ∉ ["y", "Y", "yes", "on"].map Str.ascii := by decide +kernel
      simp only [conv]; rw [if_neg (e s h), if_pos h]
    | int hk h => rcases hk with rfl | rfl <;> (simp only [conv]; rw [if_pos h])
    | whole hk h => rcases hk with rfl | rfl <;> simpa only [conv] using h
    | uint hk h => rcases hk with rfl | rfl <;> (simp only [conv]; rw [if_pos h])
    | wholeU hk h => rcases hk with rfl | rfl <;> simpa only [conv] using h
    | ofInt => rfl
    | float => rfl
    | duration h => simpa only [conv] using h

/-- **C117**: what a scalar stores in a field. -/
theorem C117_stored {L : Lib} (hL : Names L) (quoted : Bool) (s : Bytes) (k : Kind) (y : Int) :
    conv L k (scalarRes L quoted s) s = some y ↔ ∃ r, Meaning L quoted s r ∧ Stores L s k r y := by
  rw [conv_iff]
  constructor
  · intro h; exact ⟨_, (C117_meaning hL quoted s _).1 rfl, h⟩
  · rintro ⟨r, h1, h2⟩
    rwa [(C117_meaning hL quoted s r).2 h1]

/-- A library that knows `NaN`, the infinities, `0.5` and `08`. -/
def exScalars : Lib := { exLib with
  flt := fun s => if s = Str.ascii "08" then some 8 else if s = Str.ascii "0.5" then some 5
    else if s ∈ ["NaN", "+Inf", "-Inf"].map Str.ascii then some 0 else none
  toInt := fun x => if x = 8 then some 8 else none }

theorem exScalars_names : Names exScalars := fun w hw => ⟨0, (by decide +kernel : ∀ w ∈ ["NaN", "+Inf", "-Inf"].map Str.ascii, exScalars.flt w = some 0) w hw⟩

/-- `010` is eight, `08` is the float eight, and both are stored in an `int` field; `0b-1` is minus one; `0.5` is no `int`. -/
example : (∃ r, Meaning exScalars false (Str.ascii "010") r ∧ Stores exScalars (Str.ascii "010") .int r 8) ∧
    Meaning exScalars false (Str.ascii "08") (.float 8) ∧ (∃ r, Meaning exScalars false (Str.ascii "08") r ∧ Stores exScalars (Str.ascii "08") .int r 8) ∧
    Meaning exScalars false (Str.ascii "0b-1") (.int (-1)) ∧
    (¬ ∃ y r, Meaning exScalars false (Str.ascii "0.5") r ∧ Stores exScalars (Str.ascii "0.5") .int r y) ∧
    Meaning exScalars false (Str.ascii "80a") .str := by
  refine ⟨(C117_stored exScalars_names _ _ _ _).1 (by decide +kernel), (C117_meaning exScalars_names _ _ _).1 (by decide +kernel),
    (C117_stored exScalars_names _ _ _ _).1 (by decide +kernel), (C117_meaning exScalars_names _ _ _).1 (by decide +kernel), ?_,
    (C117_meaning exScalars_names _ _ _).1 (by decide +kernel)⟩
  rintro ⟨y, h⟩
  have := (C117_stored exScalars_names _ _ _ y).2 h
  rw [(by decide +kernel : conv exScalars .int (scalarRes exScalars false (Str.ascii "0.5")) (Str.ascii "0.5") = none)] at this
  simp at this

end Gears.Conf.Yaml
