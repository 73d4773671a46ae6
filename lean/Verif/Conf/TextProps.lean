import Verif.Conf.Text

/-
Property C163: yaml files in the style of the documentation.
-/

namespace Gears.Conf.Yaml.Text

open Gears.Conf.Yaml
open Gears.Str (ascii split join)

/-! ## Specification -/

def spaces (n : Nat) : Bytes := List.replicate n 32

/-- What may follow a value: nothing, spaces, or a comment after a space. -/
def Trailing (t : Bytes) : Prop := (∃ n, t = spaces n) ∨ ∃ n c, t = spaces (n + 1) ++ 35 :: c

/-- A value without quotes. -/
structure Plain (s : Bytes) : Prop where
  first   : begins s = true
  last    : s.getLast? ≠ some 32
  comment : ¬ ∃ u v, s = u ++ 32 :: 35 :: v
  colon   : ¬ ∃ u v, s = u ++ 58 :: 32 :: v
  ending  : s.getLast? ≠ some 58

/-- The text after `key:` and what it says. -/
inductive ValueText : Bytes → Option (Bool × Bytes) → Prop where
  | none {t : Bytes} : Trailing t → ValueText t none
  | plain {n : Nat} {s e : Bytes} : Plain s → Trailing e → ValueText (spaces (n + 1) ++ (s ++ e)) (some (false, s))
  | double {n : Nat} {s e : Bytes} : 34 ∉ s → 92 ∉ s → Trailing e → ValueText (spaces (n + 1) ++ (34 :: (s ++ 34 :: e))) (some (true, s))
  | single {n : Nat} {s e : Bytes} : 39 ∉ s → Trailing e → ValueText (spaces (n + 1) ++ (39 :: (s ++ 39 :: e))) (some (true, s))

/-- A line and what it says. -/
inductive LineText : Bytes → Option Item → Prop where
  | blank {n : Nat} : LineText (spaces n) none
  | comment {n : Nat} {c : Bytes} : LineText (spaces n ++ 35 :: c) none
  | entry {n : Nat} {k t : Bytes} {v : Option (Bool × Bytes)} : safeKey k = true → ValueText t v → LineText (spaces n ++ (k ++ 58 :: t)) (some ⟨n, k, v⟩)

/-- The line of a file: printable ASCII, maybe with `\r` at the end. -/
def IsLine (l : Bytes) (o : Option Item) : Prop := ∃ l', (l = l' ∨ l = l' ++ [13]) ∧ l'.all printable = true ∧ LineText l' o

/-- Entries that are written with indentation `k`; what belongs to a key is indented more. -/
inductive Writes : Nat → Entries → List Item → Prop where
  | nil {k : Nat} : Writes k .nil []
  | value {k : Nat} {key s : Bytes} {q : Bool} {es : Entries} {is : List Item} : Writes k es is →
      Writes k (.cons (.scalar false key) (.scalar q s) es) (⟨k, key, some (q, s)⟩ :: is)
  | empty {k : Nat} {key : Bytes} {es : Entries} {is : List Item} : Writes k es is →
      Writes k (.cons (.scalar false key) (.scalar false []) es) (⟨k, key, none⟩ :: is)
  | sub {k k' : Nat} {key : Bytes} {sub es : Entries} {is is' : List Item} : k < k' → is ≠ [] → Writes k' sub is → Writes k es is' →
      Writes k (.cons (.scalar false key) (.map sub) es) (⟨k, key, none⟩ :: (is ++ is'))

/-- The text of a file and the entries that it says. -/
def Says (text : Bytes) (es : Entries) : Prop :=
  ∃ (ls : List (Bytes × Option Item)) (k : Nat), ls ≠ [] ∧ text = join 10 (ls.map (·.1)) ∧ (∀ l ∈ ls, IsLine l.1 l.2) ∧ Writes k es (ls.filterMap (·.2))

/-! ## Bytes -/

theorem spaces_all (n : Nat) : ∀ c ∈ spaces n, c = 32 := fun c hc => (List.mem_replicate.1 hc).2

theorem take_spaces (n : Nat) {t : Bytes} (h : t.head? ≠ some 32) : (spaces n ++ t).takeWhile (· = 32) = spaces n ∧ (spaces n ++ t).dropWhile (· = 32) = t := by
  induction n with
  | zero =>
    cases t with
    | nil => simp [spaces]
    | cons c t =>
      have : c ≠ 32 := fun e => h (by simp [e])
      simp [spaces, this]
  | succ n ih =>
    obtain ⟨h1, h2⟩ := ih
    simp only [spaces, List.replicate_succ, List.cons_append] at h1 h2 ⊢
    simp only [List.takeWhile_cons, List.dropWhile_cons, decide_true, if_true]
    exact ⟨by rw [h1], h2⟩

theorem split_spaces (t : Bytes) : t = spaces (t.takeWhile (· = 32)).length ++ t.dropWhile (· = 32) ∧ (t.dropWhile (· = 32)).head? ≠ some 32 := by
  induction t with
  | nil => simp [spaces]
  | cons c t ih =>
    by_cases hc : c = 32
    · subst hc
      simp only [List.takeWhile_cons, List.dropWhile_cons, decide_true, if_true, List.length_cons, spaces, List.replicate_succ, List.cons_append]
      exact ⟨congrArg _ ih.1, ih.2⟩
    · simp [hc, spaces]

theorem ends_iff (t : Bytes) : ends t = true ↔ Trailing t := by
  obtain ⟨h1, h2⟩ := split_spaces t
  constructor
  · intro h
    cases t with
    | nil => exact .inl ⟨0, rfl⟩
    | cons c u =>
      simp only [ends, Bool.and_eq_true, decide_eq_true_eq] at h
      obtain ⟨hc, h⟩ := h
      cases hd : (c :: u).dropWhile (· = 32) with
      | nil => rw [hd, List.append_nil] at h1; exact .inl ⟨_, h1⟩
      | cons d v =>
        rw [hd] at h h1
        simp at h; subst h
        cases hn : ((c :: u).takeWhile (· = 32)).length with
        | zero => simp [List.takeWhile_cons, hc] at hn
        | succ n => rw [hn] at h1; exact .inr ⟨n, v, h1⟩
  · rintro (⟨n, rfl⟩ | ⟨n, c, rfl⟩)
    · cases n with
      | zero => rfl
      | succ n =>
        have := (take_spaces (n + 1) (t := []) (by simp)).2
        rw [List.append_nil] at this
        simp only [ends, spaces, List.replicate_succ] at this ⊢
        rw [this]; rfl
    · have := (take_spaces (n + 1) (t := 35 :: c) (by simp)).2
      simp only [ends, spaces, List.replicate_succ, List.cons_append] at this ⊢
      rw [this]; rfl

/-! ### Plain values -/

theorem trim_right (s : Bytes) : ∃ n, s = trimRight s ++ spaces n ∧ (trimRight s).getLast? ≠ some 32 := by
  obtain ⟨h1, h2⟩ := split_spaces s.reverse
  refine ⟨(s.reverse.takeWhile (· = 32)).length, ?_, ?_⟩
  · have := congrArg List.reverse h1
    rw [List.reverse_reverse, List.reverse_append] at this
    simp only [spaces, List.reverse_replicate] at this
    exact this
  · rw [trimRight, List.getLast?_reverse]; exact h2

theorem trim_spaces {s : Bytes} (h : s.getLast? ≠ some 32) (n : Nat) : trimRight (s ++ spaces n) = s := by
  rw [trimRight, List.reverse_append, show (spaces n).reverse = spaces n by simp [spaces],
    (take_spaces n (by rw [List.head?_reverse]; exact h)).2, List.reverse_reverse]

theorem uncomment_split : ∀ t : Bytes, (uncomment t = t ∧ ¬ ∃ u v, t = u ++ 32 :: 35 :: v) ∨ ∃ c, t = uncomment t ++ 32 :: 35 :: c ∧ ¬ ∃ u v, uncomment t = u ++ 32 :: 35 :: v
  | [] => .inl ⟨rfl, by rintro ⟨u, v, h⟩; cases u <;> simp at h⟩
  | [c] => .inl ⟨rfl, by rintro ⟨u, v, h⟩; cases u with | nil => simp at h | cons a u => cases u <;> simp at h⟩
  | c :: d :: t => by
    by_cases hc : c = 32 ∧ d = 35
    · rw [uncomment, if_pos hc]
      exact .inr ⟨t, by rw [hc.1, hc.2]; rfl, by rintro ⟨u, v, h⟩; cases u <;> simp at h⟩
    · rw [uncomment, if_neg hc]
      have hno : ∀ w : Bytes, (¬ ∃ u v, w = u ++ 32 :: 35 :: v) → (c = 32 → w.head? ≠ some 35) → ¬ ∃ u v, c :: w = u ++ 32 :: 35 :: v := by
        rintro w hw h1 ⟨u, v, h⟩
        cases u with
        | nil =>
          simp at h
          exact h1 h.1 (by rw [h.2]; rfl)
        | cons a u =>
          simp at h
          exact hw ⟨u, v, h.2⟩
      rcases uncomment_split (d :: t) with ⟨h1, h2⟩ | ⟨e, h1, h2⟩
      · rw [h1]
        exact .inl ⟨rfl, hno _ h2 fun hcs hd => hc ⟨hcs, by simpa using hd⟩⟩
      · refine .inr ⟨e, by rw [List.cons_append, ← h1], hno _ h2 fun hcs hd => ?_⟩
        cases hu : uncomment (d :: t) with
        | nil => rw [hu] at hd; simp at hd
        | cons a w =>
          rw [hu] at hd h1
          simp at hd h1
          exact hc ⟨hcs, by rw [h1.1, hd]⟩

theorem uncomment_free {t : Bytes} (h : ¬ ∃ u v, t = u ++ 32 :: 35 :: v) : uncomment t = t := by
  rcases uncomment_split t with ⟨h1, -⟩ | ⟨c, h1, -⟩
  · exact h1
  · exact absurd ⟨_, _, h1⟩ h

theorem uncomment_first {s : Bytes} (c : Bytes) (h : ¬ ∃ u v, s = u ++ 32 :: 35 :: v) : uncomment (s ++ 32 :: 35 :: c) = s := by
  induction s with
  | nil => simp [uncomment]
  | cons a s ih =>
    have hs : ¬ ∃ u v, s = u ++ 32 :: 35 :: v := by
      rintro ⟨u, v, e⟩; exact h ⟨a :: u, v, by rw [e]; rfl⟩
    have ih := ih hs
    cases s with
    | nil => simp [uncomment]
    | cons b s =>
      simp only [List.cons_append] at ih ⊢
      rw [uncomment, if_neg, ih]
      rintro ⟨rfl, rfl⟩
      exact h ⟨[], s, rfl⟩

theorem pair_append {s : Bytes} (h : ¬ ∃ u v, s = u ++ 32 :: 35 :: v) (n : Nat) : ¬ ∃ u v, s ++ spaces n = u ++ 32 :: 35 :: v := by
  rintro ⟨u, v, e⟩
  have h35 : ∀ m, 35 ∉ spaces m := fun m hm => absurd (spaces_all m _ hm) (by decide)
  rcases List.append_eq_append_iff.1 e with ⟨w, h1, h2⟩ | ⟨w, h1, h2⟩
  · exact h35 n (by rw [h2]; simp)
  · cases w with
    | nil => simp at h2; exact h35 n (by rw [← h2]; simp)
    | cons a w =>
      simp at h2
      cases w with
      | nil => simp at h2; exact h35 n (by rw [← h2.2]; simp)
      | cons b w =>
        simp at h2
        exact h ⟨u, w, by rw [h1, ← h2.1, ← h2.2.1]⟩

theorem noColon_iff (s : Bytes) : noColon s = true ↔ (¬ ∃ u v, s = u ++ 58 :: 32 :: v) ∧ s.getLast? ≠ some 58 := by
  match s with
  | [] => simp [noColon]
  | [c] =>
    simp only [noColon]
    constructor
    · intro h
      refine ⟨?_, by simpa using h⟩
      rintro ⟨u, v, h⟩; cases u with | nil => simp at h | cons a u => cases u <;> simp at h
    · rintro ⟨-, h⟩; simpa using h
  | c :: d :: t =>
    have ih := noColon_iff (d :: t)
    simp only [noColon, Bool.and_eq_true, ih, List.getLast?_cons_cons]
    constructor
    · rintro ⟨h1, h2, h3⟩
      refine ⟨?_, h3⟩
      rintro ⟨u, v, h⟩
      cases u with
      | nil => simp at h; simp [h.1, h.2.1] at h1
      | cons a u => simp at h; exact h2 ⟨u, v, h.2⟩
    · rintro ⟨h1, h2⟩
      refine ⟨?_, ?_, h2⟩
      · simp only [Bool.not_eq_true', Bool.and_eq_false_iff, decide_eq_false_iff_not]
        by_cases hc : c = 58
        · exact .inr fun hd => h1 ⟨[], t, by rw [hc, hd]; rfl⟩
        · exact .inl hc
      · rintro ⟨u, v, h⟩; exact h1 ⟨c :: u, v, by rw [h]; rfl⟩

/-- What the scanner takes for a plain value. -/
theorem plain_iff (t v : Bytes) : (trimRight (uncomment t) = v ∧ begins v = true ∧ noColon v = true) ↔ Plain v ∧ ∃ e, Trailing e ∧ t = v ++ e := by
  constructor
  · rintro ⟨rfl, h2, h3⟩
    obtain ⟨h4, h5⟩ := (noColon_iff _).1 h3
    obtain ⟨n, hn, hl⟩ := trim_right (uncomment t)
    have hsub : ∀ {w : Bytes}, w = trimRight (uncomment t) ++ spaces n → (¬ ∃ u v, w = u ++ 32 :: 35 :: v) → ¬ ∃ u v, trimRight (uncomment t) = u ++ 32 :: 35 :: v := by
      rintro w hw h ⟨u, v, e⟩
      exact h ⟨u, v ++ spaces n, by rw [hw, e]; simp⟩
    rcases uncomment_split t with ⟨h1, h6⟩ | ⟨c, h1, h6⟩
    · refine ⟨⟨h2, hl, hsub hn (by rw [h1]; exact h6), h4, h5⟩, spaces n, .inl ⟨n, rfl⟩, ?_⟩
      rw [← hn, h1]
    · refine ⟨⟨h2, hl, hsub hn h6, h4, h5⟩, spaces (n + 1) ++ 35 :: c, .inr ⟨n, c, rfl⟩, ?_⟩
      rw [show spaces (n + 1) = spaces n ++ [32] by simp [spaces, List.replicate_succ'], ← List.append_assoc, ← List.append_assoc, ← hn]
      simpa using h1
  · rintro ⟨⟨h1, h2, h3, h4, h5⟩, e, he, rfl⟩
    refine ⟨?_, h1, (noColon_iff v).2 ⟨h4, h5⟩⟩
    rcases he with ⟨n, rfl⟩ | ⟨n, c, rfl⟩
    · rw [uncomment_free (pair_append h3 n), trim_spaces h2]
    · rw [show spaces (n + 1) = spaces n ++ [32] by simp [spaces, List.replicate_succ'], List.append_assoc, ← List.append_assoc]
      rw [show ([32] ++ 35 :: c : Bytes) = 32 :: 35 :: c from rfl, uncomment_first c (pair_append h3 n), trim_spaces h2]

/-! ### Quoted values -/

theorem take_until {q : UInt8} {s : Bytes} (e : Bytes) (h : q ∉ s) :
    (s ++ q :: e).takeWhile (fun c => c ≠ q) = s ∧ (s ++ q :: e).dropWhile (fun c => c ≠ q) = q :: e := by
  induction s with
  | nil => simp
  | cons a s ih =>
    simp at h
    obtain ⟨h1, h2⟩ := ih h.2
    have ha : decide (a ≠ q) = true := by simpa using fun e => h.1 (Eq.symm e)
    rw [List.cons_append, List.takeWhile_cons_of_pos (p := fun c => decide (c ≠ q)) ha, List.dropWhile_cons_of_pos (p := fun c => decide (c ≠ q)) ha, h1, h2]
    exact ⟨rfl, rfl⟩

theorem until_free (q : UInt8) : ∀ t : Bytes, q ∉ t.takeWhile (fun c => c ≠ q)
  | [] => by simp
  | a :: t => by
    rw [List.takeWhile_cons]
    split
    · rename_i ha
      simp only [List.mem_cons, not_or]
      exact ⟨fun e => by simp [e] at ha, until_free q t⟩
    · simp

theorem until_head (q : UInt8) : ∀ t : Bytes, ∀ c e, t.dropWhile (fun c => c ≠ q) = c :: e → c = q
  | [], c, e, h => by simp at h
  | a :: t, c, e, h => by
    rw [List.dropWhile_cons] at h
    split at h
    · exact until_head q t c e h
    · rename_i ha
      simp at ha h
      rw [← h.1, ha]

theorem quoted_iff (q : UInt8) (s v : Bytes) : quoted q s = some v ↔ q ∉ v ∧ ∃ e, Trailing e ∧ s = v ++ q :: e := by
  unfold quoted
  constructor
  · intro h
    split at h
    · cases h
    · rename_i c e hd
      have hc := until_head q s c e hd
      subst hc
      split at h
      · rename_i he
        cases h
        refine ⟨until_free _ s, e, (ends_iff e).1 he, ?_⟩
        rw [← hd]; exact (List.takeWhile_append_dropWhile).symm
      · cases h
  · rintro ⟨hv, e, he, rfl⟩
    obtain ⟨h1, h2⟩ := take_until e hv
    rw [h1, h2]
    simp only [(ends_iff e).2 he, if_true]

theorem begins_plain {s : Bytes} (h : begins s = true) : s ≠ [] ∧ s.head? ≠ some 32 ∧ s.head? ≠ some 34 ∧ s.head? ≠ some 39 ∧ s.head? ≠ some 35 := by
  cases s with
  | nil => simp [begins] at h
  | cons c t =>
    refine ⟨by simp, ?_, ?_, ?_, ?_⟩ <;> intro hc <;> simp at hc <;> subst hc <;> revert h <;> simp [begins] <;> decide

theorem not_trailing {s : Bytes} (n : Nat) (h0 : s ≠ []) (h1 : s.head? ≠ some 32) (h2 : s.head? ≠ some 35) : ¬ Trailing (spaces n ++ s) := by
  intro h
  have hd := (take_spaces n h1).2
  rcases h with ⟨m, e⟩ | ⟨m, d, e⟩
  · have := (take_spaces m (t := []) (by simp)).2
    rw [List.append_nil, ← e, hd] at this
    exact h0 this
  · have := (take_spaces (m + 1) (t := 35 :: d) (by simp)).2
    rw [← e, hd] at this
    exact h2 (by rw [this]; rfl)

theorem readScalar_iff {t : Bytes} (x : Bool × Bytes) : readScalar t = some x ↔
    (x.1 = false ∧ Plain x.2 ∧ ∃ e, Trailing e ∧ t = x.2 ++ e) ∨ (x.1 = true ∧ 34 ∉ x.2 ∧ 92 ∉ x.2 ∧ ∃ e, Trailing e ∧ t = 34 :: (x.2 ++ 34 :: e)) ∨
    (x.1 = true ∧ 39 ∉ x.2 ∧ ∃ e, Trailing e ∧ t = 39 :: (x.2 ++ 39 :: e)) := by
  obtain ⟨q, v⟩ := x
  have hpl : Plain v → ∀ e, (v ++ e).head? ≠ some 34 ∧ (v ++ e).head? ≠ some 39 := by
    intro hp e
    obtain ⟨g1, g2, g3, g4, g5⟩ := begins_plain hp.first
    cases v with
    | nil => exact absurd rfl g1
    | cons c v => exact ⟨g3, g4⟩
  unfold readScalar
  constructor
  · intro h
    split at h
    · rename_i hh
      cases hq : quoted 34 t.tail with
      | none => rw [hq] at h; cases h
      | some w =>
        rw [hq, Option.bind_some] at h
        split at h
        · cases h
        · rename_i h92
          cases h
          obtain ⟨h1, e, h2, h3⟩ := (quoted_iff _ _ _).1 hq
          cases t with
          | nil => cases hh
          | cons c t => simp at hh h3; subst hh; exact .inr (.inl ⟨rfl, h1, h92, e, h2, by rw [h3]⟩)
    · split at h
      · rename_i hh
        cases hq : quoted 39 t.tail with
        | none => rw [hq] at h; cases h
        | some w =>
          rw [hq] at h
          cases h
          obtain ⟨h1, e, h2, h3⟩ := (quoted_iff _ _ _).1 hq
          cases t with
          | nil => cases hh
          | cons c t => simp at hh h3; subst hh; exact .inr (.inr ⟨rfl, h1, e, h2, by rw [h3]⟩)
      · split at h
        · rename_i hc
          cases h
          simp only [Bool.and_eq_true] at hc
          obtain ⟨h1, h2⟩ := (plain_iff t _).1 ⟨rfl, hc⟩
          exact .inl ⟨rfl, h1, h2⟩
        · cases h
  · rintro (⟨h1, hp, e, he, rfl⟩ | ⟨h1, h2, h3, e, he, rfl⟩ | ⟨h1, h2, e, he, rfl⟩) <;> simp only at h1 <;> subst h1
    · obtain ⟨g1, g2⟩ := hpl hp e
      obtain ⟨h1, h2, h3⟩ := (plain_iff _ v).2 ⟨hp, e, he, rfl⟩
      rw [if_neg g1, if_neg g2, h1, h2, h3]; rfl
    · simp only at h3
      rw [if_pos (by simp), List.tail_cons, (quoted_iff 34 _ v).2 ⟨h2, e, he, rfl⟩, Option.bind_some, if_neg h3]
    · rw [if_neg (by simp), if_pos (by simp), List.tail_cons, (quoted_iff 39 _ v).2 ⟨h2, e, he, rfl⟩]; rfl

theorem readValue_iff (t : Bytes) (v : Option (Bool × Bytes)) : readValue t = some v ↔ ValueText t v := by
  unfold readValue
  constructor
  · intro h
    split at h
    · rename_i he
      cases h
      exact .none ((ends_iff t).1 he)
    · split at h
      · rename_i hh
        obtain ⟨h1, h2⟩ := split_spaces t
        obtain ⟨n, hn⟩ : ∃ n, (t.takeWhile (· = 32)).length = n + 1 := by
          cases t with
          | nil => cases hh
          | cons c t => simp at hh; subst hh; exact ⟨_, by rw [List.takeWhile_cons_of_pos (by decide)]; rfl⟩
        rw [hn] at h1
        cases hs : readScalar (t.dropWhile (· = 32)) with
        | none => rw [hs] at h; cases h
        | some x =>
          rw [hs] at h
          cases h
          obtain ⟨q, v⟩ := x
          rcases (readScalar_iff _).1 hs with ⟨e1, hp, e, he, e2⟩ | ⟨e1, h3, h4, e, he, e2⟩ | ⟨e1, h3, e, he, e2⟩ <;> simp only at e1 <;> subst e1 <;> rw [h1, e2]
          · exact .plain hp he
          · exact .double h3 h4 he
          · exact .single h3 he
      · cases h
  · have key : ∀ (n : Nat) (s : Bytes) (x : Bool × Bytes), s ≠ [] → s.head? ≠ some 32 → s.head? ≠ some 35 → readScalar s = some x →
        (if ends (spaces (n + 1) ++ s) = true then some none else if (spaces (n + 1) ++ s).head? = some 32 then
          (readScalar ((spaces (n + 1) ++ s).dropWhile (· = 32))).map some else none) = some (some x) := by
      intro n s x h0 h1 h2 h3
      rw [if_neg (fun hh => not_trailing (n + 1) h0 h1 h2 ((ends_iff _).1 hh)), if_pos (by simp [spaces, List.replicate_succ]), (take_spaces (n + 1) h1).2, h3]
      rfl
    intro h
    cases h with
    | none ht => rw [if_pos ((ends_iff t).2 ht)]
    | @plain n s e hp he =>
      obtain ⟨g1, g2, g3, g4, g5⟩ := begins_plain hp.first
      obtain ⟨c, w, rfl⟩ := List.exists_cons_of_ne_nil g1
      exact key n _ _ (by simp) g2 g5 ((readScalar_iff _).2 (.inl ⟨rfl, hp, e, he, rfl⟩))
    | @double n s e h1 h2 he => exact key n _ _ (by simp) (by simp) (by simp) ((readScalar_iff _).2 (.inr (.inl ⟨rfl, h1, h2, e, he, rfl⟩)))
    | @single n s e h1 he => exact key n _ _ (by simp) (by simp) (by simp) ((readScalar_iff _).2 (.inr (.inr ⟨rfl, h1, e, he, rfl⟩)))

/-! ### Lines -/

theorem keyByte_colon : keyByte 58 = false := by decide

theorem take_key {k : Bytes} (t : Bytes) (h : k.all keyByte = true) : (k ++ 58 :: t).takeWhile keyByte = k ∧ (k ++ 58 :: t).dropWhile keyByte = 58 :: t := by
  induction k with
  | nil => simp [keyByte_colon]
  | cons a k ih =>
    simp only [List.all_cons, Bool.and_eq_true] at h
    obtain ⟨h1, h2⟩ := ih h.2
    simp only [List.cons_append, List.takeWhile_cons, List.dropWhile_cons, h.1, if_true]
    exact ⟨by rw [h1], h2⟩

theorem safeKey_head {k : Bytes} (h : safeKey k = true) : k ≠ [] ∧ k.head? ≠ some 32 ∧ k.head? ≠ some 35 ∧ k.all keyByte = true := by
  simp only [safeKey, Bool.and_eq_true] at h
  obtain ⟨⟨h1, h2⟩, -⟩ := h
  cases k with
  | nil => simp at h2
  | cons c k =>
    refine ⟨by simp, ?_, ?_, h1⟩ <;> intro hc <;> simp at hc <;> subst hc <;> simp only at h2 <;> revert h2 <;> decide

theorem readEntry_iff (n : Nat) (t : Bytes) (it : Item) : readEntry n t = some it ↔
    ∃ k e v, it = ⟨n, k, v⟩ ∧ t = k ++ 58 :: e ∧ safeKey k = true ∧ ValueText e v := by
  unfold readEntry
  constructor
  · intro h
    split at h
    · cases h
    · rename_i c e hk
      split at h
      · rename_i hc
        obtain ⟨rfl, hs⟩ := hc
        cases hv : readValue e with
        | none => rw [hv] at h; cases h
        | some v =>
          rw [hv] at h; cases h
          refine ⟨_, e, v, rfl, ?_, hs, (readValue_iff e v).1 hv⟩
          rw [← hk]; exact (List.takeWhile_append_dropWhile).symm
      · cases h
  · rintro ⟨k, e, v, rfl, rfl, hs, hv⟩
    obtain ⟨h1, h2⟩ := take_key e (safeKey_head hs).2.2.2
    rw [h1, h2]
    simp only [hs, and_self, if_true, (readValue_iff e v).2 hv, Option.map_some]

theorem readPlain_iff (l : Bytes) (o : Option Item) : readPlain l = some o ↔ LineText l o := by
  unfold readPlain
  constructor
  · intro h
    obtain ⟨h1, h2⟩ := split_spaces l
    split at h
    · rename_i hc
      cases h
      rcases hc with hc | hc
      · rw [h1, hc, List.append_nil]; exact .blank
      · cases hd : l.dropWhile (· = 32) with
        | nil => rw [hd] at hc; cases hc
        | cons c t => rw [hd] at hc; cases hc; rw [h1, hd]; exact .comment
    · cases he : readEntry (l.takeWhile (· = 32)).length (l.dropWhile (· = 32)) with
      | none => rw [he] at h; cases h
      | some it =>
        rw [he] at h; cases h
        obtain ⟨k, e, v, rfl, h3, hs, hv⟩ := (readEntry_iff _ _ _).1 he
        have := LineText.entry (n := (l.takeWhile (· = 32)).length) hs hv
        rw [← h3, ← h1] at this
        exact this
  · intro h
    cases h with
    | @blank n =>
      have := (take_spaces n (t := []) (by simp)).2
      rw [List.append_nil] at this
      rw [if_pos (.inl this)]
    | @comment n c => rw [if_pos (.inr (by rw [(take_spaces n (t := 35 :: c) (by simp)).2]; rfl))]
    | @entry n k t v hk hv =>
      obtain ⟨g1, g2, g3, g4⟩ := safeKey_head hk
      obtain ⟨c, w, rfl⟩ := List.exists_cons_of_ne_nil g1
      obtain ⟨h1, h2⟩ := take_spaces n (t := (c :: w) ++ 58 :: t) g2
      rw [h1, h2, if_neg (by rintro (h | h); cases h; exact g3 h), show (spaces n).length = n by simp [spaces], (readEntry_iff n _ _).2 ⟨c :: w, t, v, rfl, rfl, hk, hv⟩]
      rfl

/-- A line without `\r`. -/
theorem printable_last {l : Bytes} (h : l.all printable = true) : l.getLast? ≠ some 13 := by
  intro hl
  have := List.all_eq_true.1 h 13 (List.mem_of_getLast? hl)
  revert this; decide

theorem readLine_iff (l : Bytes) (o : Option Item) : readLine l = some o ↔ IsLine l o := by
  unfold readLine
  constructor
  · intro h
    split at h
    · rename_i hp
      refine ⟨unCR l, ?_, hp, (readPlain_iff _ _).1 h⟩
      unfold unCR
      split
      · rename_i hl
        right
        obtain ⟨a, ha⟩ := List.getLast?_eq_some_iff.1 hl
        rw [ha]; simp
      · exact .inl rfl
    · cases h
  · rintro ⟨l', hl, hp, ht⟩
    have e : unCR l = l' := by
      rcases hl with rfl | rfl
      · rw [unCR, if_neg (printable_last hp)]
      · simp [unCR]
    rw [e, if_pos hp]
    exact (readPlain_iff _ _).2 ht

/-! ### Nesting -/

/-- What follows a block is indented less. -/
def Less (k : Nat) (rest : List Item) : Prop := ∀ it, rest.head? = some it → it.indent < k

theorem writes_head {k : Nat} {es : Entries} {is : List Item} (h : Writes k es is) {it : Item} (hi : is.head? = some it) : it.indent = k := by
  cases h <;> simp at hi <;> subst hi <;> rfl

theorem block_writes : ∀ (fuel k : Nat) (items : List Item) (es : Entries) (rest : List Item), block fuel k items = some (es, rest) →
    ∃ is, items = is ++ rest ∧ Writes k es is ∧ Less k rest
  | 0, _, _, _, _, h => by simp [block] at h
  | fuel + 1, k, [], es, rest, h => by
    simp [block] at h
    obtain ⟨rfl, rfl⟩ := h
    exact ⟨[], rfl, .nil, by simp [Less]⟩
  | fuel + 1, k, it :: is, es, rest, h => by
    rw [block] at h
    split at h
    · rename_i hlt
      cases h
      exact ⟨[], rfl, .nil, by intro i hi; simp at hi; subst hi; exact hlt⟩
    · split at h
      · cases h
      · rename_i h1 h2
        obtain ⟨n, key, val⟩ := it
        have hk : n = k := by simp only at h1 h2; omega
        subst hk
        cases val with
        | some x =>
          obtain ⟨q, s⟩ := x
          simp only at h
          cases hb : block fuel n is with
          | none => rw [hb] at h; cases h
          | some r =>
            rw [hb] at h; simp at h; obtain ⟨rfl, rfl⟩ := h
            obtain ⟨is1, e1, w1, l1⟩ := block_writes fuel n is r.1 r.2 hb
            exact ⟨⟨n, key, some (q, s)⟩ :: is1, by rw [e1]; rfl, .value w1, l1⟩
        | none =>
          simp only at h
          split at h
          · rename_i hlt
            cases hb : block fuel (nextIndent is) is with
            | none => rw [hb] at h; cases h
            | some b =>
              rw [hb, Option.bind_some] at h
              obtain ⟨is1, e1, w1, l1⟩ := block_writes fuel _ _ b.1 b.2 hb
              cases hb2 : block fuel n b.2 with
              | none => rw [hb2] at h; cases h
              | some r =>
                rw [hb2] at h; simp at h; obtain ⟨rfl, rfl⟩ := h
                obtain ⟨is3, e3, w3, l3⟩ := block_writes fuel n b.2 r.1 r.2 hb2
                have hne : is1 ≠ [] := by
                  rintro rfl
                  rw [List.nil_append] at e1
                  cases is with
                  | nil => simp [nextIndent] at hlt
                  | cons i2 is =>
                    have := l1 i2 (by rw [← e1]; rfl)
                    simp only [nextIndent] at this
                    omega
                exact ⟨⟨n, key, none⟩ :: (is1 ++ is3), by rw [e1, e3]; simp, .sub hlt hne w1 w3, l3⟩
          · cases hb : block fuel n is with
            | none => rw [hb] at h; cases h
            | some r =>
              rw [hb] at h; simp at h; obtain ⟨rfl, rfl⟩ := h
              obtain ⟨is1, e1, w1, l1⟩ := block_writes fuel n is r.1 r.2 hb
              exact ⟨⟨n, key, none⟩ :: is1, by rw [e1]; rfl, .empty w1, l1⟩

theorem writes_block {k : Nat} {es : Entries} {is : List Item} (h : Writes k es is) : ∀ (fuel : Nat) (rest : List Item), Less k rest → is.length < fuel →
    block fuel k (is ++ rest) = some (es, rest) := by
  induction h with
  | nil =>
    intro fuel rest hl hf
    obtain ⟨f, rfl⟩ : ∃ f, fuel = f + 1 := ⟨fuel - 1, by omega⟩
    cases rest with
    | nil => rfl
    | cons r rest =>
      have := hl r rfl
      rw [List.nil_append, block]
      simp only [this, if_true]
  | value w ih =>
    intro fuel rest hl hf
    obtain ⟨f, rfl⟩ : ∃ f, fuel = f + 1 := ⟨fuel - 1, by omega⟩
    rw [List.cons_append, block]
    simp only [Nat.lt_irrefl, if_false]
    rw [ih f rest hl (by simp at hf; omega)]
    rfl
  | @empty k key es is w ih =>
    intro fuel rest hl hf
    obtain ⟨f, rfl⟩ : ∃ f, fuel = f + 1 := ⟨fuel - 1, by omega⟩
    rw [List.cons_append, block]
    simp only [Nat.lt_irrefl, if_false]
    have hb := ih f rest hl (by simp at hf; omega)
    rw [hb, if_neg]
    · rfl
    · intro hlt
      cases is with
      | nil =>
        rw [List.nil_append] at hlt
        cases rest with
        | nil => simp [nextIndent] at hlt
        | cons r rest =>
          have := hl r rfl
          simp only [nextIndent] at hlt
          omega
      | cons a is =>
        have := writes_head w (it := a) rfl
        simp only [List.cons_append, nextIndent] at hlt
        omega
  | @sub k k' key sub es is is' hlt hne w w' ih ih' =>
    intro fuel rest hl hf
    obtain ⟨f, rfl⟩ : ∃ f, fuel = f + 1 := ⟨fuel - 1, by omega⟩
    obtain ⟨a, u, rfl⟩ := List.exists_cons_of_ne_nil hne
    have ha := writes_head w (it := a) rfl
    rw [List.cons_append, block]
    simp only [Nat.lt_irrefl, if_false]
    simp at hf
    have h1 := ih f (is' ++ rest) (by
      intro it hi
      cases is' with
      | nil => have := hl it (by simpa using hi); omega
      | cons b is' =>
        simp at hi; subst hi
        have := writes_head w' (it := b) rfl
        omega) (by simp; omega)
    have h2 := ih' f rest hl (by omega)
    simp only [List.append_assoc, List.cons_append, nextIndent] at h1 ⊢
    rw [ha, if_pos hlt, h1, Option.bind_some, h2]
    rfl

/-! ### The whole text -/

theorem line_free {l : Bytes} {o : Option Item} (h : IsLine l o) : 10 ∉ l := by
  obtain ⟨l', hl, hp, -⟩ := h
  have h10 : 10 ∉ l' := by
    intro hm
    have := List.all_eq_true.1 hp 10 hm
    revert this; decide
  rcases hl with rfl | rfl
  · exact h10
  · simp [h10]

theorem mapM_lines : ∀ (ls : List (Bytes × Option Item)), (∀ l ∈ ls, IsLine l.1 l.2) → (ls.map (·.1)).mapM readLine = some (ls.map (·.2))
  | [], _ => rfl
  | l :: ls, h => by
    rw [List.map_cons, List.mapM_cons, (readLine_iff _ _).2 (h l (by simp)), mapM_lines ls fun x hx => h x (by simp [hx])]
    rfl

theorem lines_mapM : ∀ (ws : List Bytes) (os : List (Option Item)), ws.mapM readLine = some os →
    ∃ ls : List (Bytes × Option Item), ws = ls.map (·.1) ∧ os = ls.map (·.2) ∧ ∀ l ∈ ls, IsLine l.1 l.2
  | [], os, h => by cases h; exact ⟨[], rfl, rfl, by simp⟩
  | w :: ws, os, h => by
    rw [List.mapM_cons] at h
    cases hw : readLine w with
    | none => rw [hw] at h; cases h
    | some o =>
      rw [hw] at h
      cases hs : ws.mapM readLine with
      | none => rw [hs] at h; cases h
      | some os' =>
        rw [hs] at h; cases h
        obtain ⟨ls, h1, h2, h3⟩ := lines_mapM ws os' hs
        refine ⟨(w, o) :: ls, by rw [h1]; rfl, by rw [h2]; rfl, fun l hl => ?_⟩
        rcases List.mem_cons.1 hl with rfl | hl
        · exact (readLine_iff _ _).1 hw
        · exact h3 l hl

theorem items_eq (ls : List (Bytes × Option Item)) : (ls.map (·.2)).filterMap id = ls.filterMap (·.2) := by
  rw [List.filterMap_map]; rfl

/-- The items of a text are what `Says` has. -/
theorem says_iff (text : Bytes) (es : Entries) : Says text es ↔
    ∃ os, (split 10 text).mapM readLine = some os ∧ ∃ k, Writes k es (os.filterMap id) := by
  constructor
  · rintro ⟨ls, k, hne, rfl, hl, hw⟩
    refine ⟨ls.map (·.2), ?_, k, by rw [items_eq]; exact hw⟩
    rw [Str.split_join (by simpa using hne)]
    · exact mapM_lines ls hl
    · intro w hw
      obtain ⟨l, h1, rfl⟩ := List.mem_map.1 hw
      exact line_free (hl l h1)
  · rintro ⟨os, hm, k, hw⟩
    obtain ⟨ls, h1, h2, h3⟩ := lines_mapM _ _ hm
    refine ⟨ls, k, ?_, ?_, h3, by rw [h2, items_eq] at hw; exact hw⟩
    · rintro rfl
      exact Str.split_ne 10 text h1
    · rw [← h1, Str.join_split]

theorem writes_nil {k : Nat} {es : Entries} (h : Writes k es []) : es = .nil := by
  cases h; rfl

theorem writes_cons {k : Nat} {es : Entries} {it : Item} {is : List Item} (h : Writes k es (it :: is)) : es ≠ .nil ∧ k = it.indent := by
  refine ⟨?_, (writes_head h rfl).symm⟩
  rintro rfl
  cases h

/-! ## The property -/

/-- **C163.**  A text is read as a document exactly if it says the document, `none` standing for a text with comments and
empty lines only. -/
theorem C163_reads (text : Bytes) (d : Option Node) : parse text = some d ↔
    ∃ es, Says text es ∧ ((es = .nil ∧ d = none) ∨ (es ≠ .nil ∧ depthN (.map es) ≤ 10000 ∧ d = some (.map es))) := by
  unfold parse
  constructor
  · intro h
    split at h
    · cases h
    · rename_i os hm
      split at h
      · rename_i hi
        cases h
        exact ⟨.nil, (says_iff _ _).2 ⟨os, hm, 0, by rw [hi]; exact .nil⟩, .inl ⟨rfl, rfl⟩⟩
      · rename_i it is hi
        split at h
        · rename_i es hb
          split at h
          · rename_i hd
            cases h
            obtain ⟨is', e, w, -⟩ := block_writes _ _ _ _ _ hb
            rw [List.append_nil] at e
            subst e
            exact ⟨es, (says_iff _ _).2 ⟨os, hm, _, by rw [hi]; exact w⟩, .inr ⟨(writes_cons w).1, hd, rfl⟩⟩
          · cases h
        · cases h
  · rintro ⟨es, hs, hd⟩
    obtain ⟨os, hm, k, hw⟩ := (says_iff _ _).1 hs
    rw [hm]
    simp only
    split
    · rename_i hi
      rw [hi] at hw
      rcases hd with ⟨-, rfl⟩ | ⟨hne, -⟩
      · rfl
      · exact absurd (writes_nil hw) hne
    · rename_i it is hi
      rw [hi] at hw
      obtain ⟨hne, rfl⟩ := writes_cons hw
      have := writes_block hw (is.length + 2) [] (by simp [Less]) (by simp)
      rw [List.append_nil] at this
      rw [this]
      rcases hd with ⟨h, -⟩ | ⟨-, hd, rfl⟩
      · exact absurd h hne
      · simp only [hd, if_true]

/-- A text says one thing only. -/
theorem C163_unique {text : Bytes} {es es' : Entries} (h : Says text es) (h' : Says text es') : es = es' := by
  obtain ⟨os, hm, k, hw⟩ := (says_iff _ _).1 h
  obtain ⟨os', hm', k', hw'⟩ := (says_iff _ _).1 h'
  rw [hm] at hm'
  cases hm'
  generalize os.filterMap id = is at hw hw'
  cases is with
  | nil => rw [writes_nil hw, writes_nil hw']
  | cons it is =>
    obtain ⟨-, rfl⟩ := writes_cons hw
    obtain ⟨-, rfl⟩ := writes_cons hw'
    have h1 := writes_block hw ((it :: is).length + 1) [] (by simp [Less]) (by simp)
    have h2 := writes_block hw' ((it :: is).length + 1) [] (by simp [Less]) (by simp)
    rw [h1] at h2
    simp at h2
    exact h2

/-- Comments and empty lines may be anywhere. -/
theorem C163_comments {ls ls' : List (Bytes × Option Item)} {l : Bytes} {k : Nat} {es : Entries} (hl : IsLine l none)
    (h : ∀ x ∈ ls ++ ls', IsLine x.1 x.2) (hw : Writes k es ((ls ++ ls').filterMap (·.2))) :
    Says (join 10 ((ls ++ (l, none) :: ls').map (·.1))) es := by
  refine ⟨ls ++ (l, none) :: ls', k, by simp, rfl, fun x hx => ?_, by simpa using hw⟩
  simp only [List.mem_append, List.mem_cons] at hx h
  rcases hx with hx | rfl | hx
  · exact h x (.inl hx)
  · exact hl
  · exact h x (.inr hx)

/-! ## Writing -/

/-- A scalar that can be written in one line. -/
inductive Value : Bool → Bytes → Prop where
  | empty : Value false []
  | plain {s : Bytes} : Plain s → s.all printable = true → Value false s
  | double {s : Bytes} : 34 ∉ s → 92 ∉ s → s.all printable = true → Value true s
  | single {s : Bytes} : 39 ∉ s → s.all printable = true → Value true s

/-- Entries that can be written in this style. -/
inductive Writable : Entries → Prop where
  | nil : Writable .nil
  | value {key s : Bytes} {q : Bool} {es : Entries} : safeKey key = true → Value q s → Writable es → Writable (.cons (.scalar false key) (.scalar q s) es)
  | sub {key : Bytes} {sub es : Entries} : safeKey key = true → sub ≠ .nil → Writable sub → Writable es → Writable (.cons (.scalar false key) (.map sub) es)

theorem Value.text {q : Bool} {s : Bytes} (h : Value q s) : ∃ t v, t.all printable = true ∧ ValueText t v ∧
    ((v = some (q, s)) ∨ (v = none ∧ q = false ∧ s = [])) := by
  have hs : ∀ n, (spaces n).all printable = true := fun n => List.all_eq_true.2 fun c hc => by rw [spaces_all n c hc]; decide
  have h34 : printable 34 = true := by decide
  have h39 : printable 39 = true := by decide
  cases h with
  | empty => exact ⟨[], none, rfl, .none (.inl ⟨0, rfl⟩), .inr ⟨rfl, rfl, rfl⟩⟩
  | plain hp ha => exact ⟨_, _, by simp only [List.all_append, hs, ha]; rfl, .plain (n := 0) (e := []) hp (.inl ⟨0, rfl⟩), .inl rfl⟩
  | double h1 h2 ha => exact ⟨_, _, by simp only [List.all_append, List.all_cons, hs, ha, h34]; rfl, .double (n := 0) (e := []) h1 h2 (.inl ⟨0, rfl⟩), .inl rfl⟩
  | single h1 ha => exact ⟨_, _, by simp only [List.all_append, List.all_cons, hs, ha, h39]; rfl, .single (n := 0) (e := []) h1 (.inl ⟨0, rfl⟩), .inl rfl⟩

theorem entry_line (k : Nat) {key t : Bytes} {v : Option (Bool × Bytes)} (hk : safeKey key = true) (ht : t.all printable = true) (hv : ValueText t v) :
    IsLine (spaces k ++ (key ++ 58 :: t)) (some ⟨k, key, v⟩) := by
  refine ⟨_, .inl rfl, ?_, .entry hk hv⟩
  have h1 : (spaces k).all printable = true := List.all_eq_true.2 fun c hc => by rw [spaces_all k c hc]; decide
  have h2 : key.all printable = true := by
    refine List.all_eq_true.2 fun c hc => ?_
    have := List.all_eq_true.1 (safeKey_head hk).2.2.2 c hc
    simp only [keyByte, alnum, printable, Bool.or_eq_true, Bool.and_eq_true, decide_eq_true_eq, UInt8.le_iff_toNat_le, UInt8.reduceToNat] at this ⊢
    rcases this with (((h | h) | h) | h)
    · omega
    all_goals (subst h; decide)
  simp only [List.all_append, List.all_cons, h1, h2, ht, show printable 58 = true by decide]
  rfl

/-- What can be written in this style, can be written with any indentation: `step` spaces for each level. -/
theorem writable_lines (step : Nat) (hstep : 0 < step) {es : Entries} (h : Writable es) : ∀ k, ∃ ls : List (Bytes × Option Item),
    (∀ l ∈ ls, IsLine l.1 l.2) ∧ Writes k es (ls.filterMap (·.2)) ∧ (∀ l ∈ ls, ∀ it, l.2 = some it → ∃ m, it.indent = k + m * step) ∧ (es ≠ .nil → ls.filterMap (·.2) ≠ []) := by
  induction h with
  | nil => exact fun k => ⟨[], by simp, .nil, by simp, fun h => absurd rfl h⟩
  | @value key s q es hk hv _ ih =>
    intro k
    obtain ⟨ls, h1, h2, h3, -⟩ := ih k
    obtain ⟨t, v, ht, htv, hvv⟩ := hv.text
    refine ⟨(spaces k ++ (key ++ 58 :: t), some ⟨k, key, v⟩) :: ls, ?_, ?_, ?_, by simp⟩
    · intro l hl
      rcases List.mem_cons.1 hl with rfl | hl
      · exact entry_line k hk ht htv
      · exact h1 l hl
    · rcases hvv with rfl | ⟨rfl, rfl, rfl⟩
      · exact .value h2
      · exact .empty h2
    · intro l hl it hi
      rcases List.mem_cons.1 hl with rfl | hl
      · simp at hi; subst hi; exact ⟨0, by simp⟩
      · exact h3 l hl it hi
  | @sub key sub es hk hne _ _ ih ih' =>
    intro k
    obtain ⟨ls, h1, h2, h3, h4⟩ := ih (k + step)
    obtain ⟨ls', h1', h2', h3', -⟩ := ih' k
    refine ⟨(spaces k ++ (key ++ 58 :: []), some ⟨k, key, none⟩) :: (ls ++ ls'), ?_, ?_, ?_, by simp⟩
    · intro l hl
      rcases List.mem_cons.1 hl with rfl | hl
      · exact entry_line k hk rfl (.none (.inl ⟨0, rfl⟩))
      · rcases List.mem_append.1 hl with hl | hl
        · exact h1 l hl
        · exact h1' l hl
    · rw [List.filterMap_cons_some (f := fun x : Bytes × Option Item => x.2) rfl, List.filterMap_append]
      exact .sub (by omega) (h4 hne) h2 h2'
    · intro l hl it hi
      rcases List.mem_cons.1 hl with rfl | hl
      · simp at hi; subst hi; exact ⟨0, by simp⟩
      · rcases List.mem_append.1 hl with hl | hl
        · obtain ⟨m, hm⟩ := h3 l hl it hi
          exact ⟨m + 1, by rw [hm, Nat.add_mul]; omega⟩
        · exact h3' l hl it hi

/-- Whatever is made of such keys and values can be written in a file, which is then read as it. -/
theorem C163_writes {es : Entries} (h : Writable es) (hne : es ≠ .nil) (hd : depthN (.map es) ≤ 10000) : ∃ text, parse text = some (some (.map es)) := by
  obtain ⟨ls, h1, h2, -, h4⟩ := writable_lines 2 (by decide) h 0
  refine ⟨_, (C163_reads (join 10 (ls.map (·.1))) _).2 ⟨es, ⟨ls, 0, ?_, rfl, h1, h2⟩, .inr ⟨hne, hd, rfl⟩⟩⟩
  rintro rfl
  exact h4 hne rfl

/-! ## Load -/

/-- What is read of a file: if its text is of the form above, what the text says. -/
def ReadsText (contents : Bytes → Option Bytes) (read : Bytes → Option (Option Node)) : Prop :=
  ∀ file text, contents file = some text → ∀ d, parse text = some d → read file = some d

/-- `Load` with a file in this style: a field for which there is neither flag nor environment variable holds the value that the
text has under the names of the field, or its initial value. -/
theorem C163_load (L : Lib) (contents : Bytes → Option Bytes) (read : Bytes → Option (Option Node)) (hr : ReadsText contents read)
    (env : Nat → Ty) (fuel : Nat) (w : World) (yamlFlag : Bytes) (fs : Fields) (v' : Val) (m : Mem)
    (h : loadConf env fuel w yamlFlag (.struct fs) = some (.done v' m)) (hn : NamesOk v') (hw : w.yaml = fileEffects L env fuel read v') :
    ∃ isBool l, KnowsFlags w yamlFlag v' isBool ∧ ArgList isBool w.args l ∧
      ∀ loc names k nm x, IsField v' loc names k nm x → given l (flagOf names) = none → w.env (envOf names) = none →
        yamlFlag ≠ [] → ∀ file text es, given l yamlFlag = some file → file ≠ [] → contents file = some text → Says text es →
        (es = .nil → fieldAfter v' m loc = some x) ∧
        (es ≠ .nil → depthN (.map es) ≤ 10000 → (∀ is, visible false v' loc = some is → ∀ f ∈ is, Simple f) →
          (∀ p, p <+: names → ∀ n, reach L p (.map es) = some n → n.isNull L = false) →
          (reach L names (.map es) = none → fieldAfter v' m loc = some x) ∧
          (∀ n, reach L names (.map es) = some n →
            ∃ q s y, n = .scalar q s ∧ conv L k (scalarRes L q s) s = some y ∧ fieldAfter v' m loc = some y)) := by
  obtain ⟨isBool, l, h1, h2, h3⟩ := C107_load L read env fuel w yamlFlag fs v' m h hn hw
  refine ⟨isBool, l, h1, h2, fun loc names k nm x hf hg he hy file text es hfile hne hc hs => ?_⟩
  obtain ⟨-, h5⟩ := h3 loc names k nm x hf hg he
  have h6 := h5 hy file hfile hne
  constructor
  · rintro rfl
    have hrd := hr file text hc none ((C163_reads text none).2 ⟨.nil, hs, .inl ⟨rfl, rfl⟩⟩)
    rcases h6 with ⟨-, hfa⟩ | ⟨n, v'', hrn, -⟩
    · exact hfa
    · rw [hrd] at hrn; cases hrn
  · intro hes hd hsim hnull
    have hrd := hr file text hc _ ((C163_reads text _).2 ⟨es, hs, .inr ⟨hes, hd, rfl⟩⟩)
    rcases h6 with ⟨hrn, -⟩ | ⟨n, v'', hrn, hdec, hfa⟩
    · rw [hrd] at hrn; cases hrn
    · rw [hrd] at hrn
      cases hrn
      obtain ⟨g1, g2⟩ := C107_path_partial L env fuel (.map es) v' v'' hdec loc names k nm x hsim hf hnull
      refine ⟨fun hre => ?_, fun n hre => ?_⟩
      · rw [hfa, intAt, g1 hre]
      · obtain ⟨q, s, y, e1, e2, e3⟩ := g2 n hre
        exact ⟨q, s, y, e1, e2, by rw [hfa, intAt, e3]⟩

/-! ## Examples -/

def scalarAt (d : Option (Option Node)) (path : List Bytes) : Option (Bool × Bytes) :=
  match d with
  | some (some n) =>
    match reach exLib path n with
    | some (.scalar q s) => some (q, s)
    | _ => none
  | _ => none

/-- The file of the documentation. -/
example : scalarAt (parse docText) [ascii "Mysql", ascii "Port"] = some (false, ascii "3306") ∧
    scalarAt (parse docText) [ascii "Redis", ascii "Host"] = some (false, ascii "localhost") ∧
    scalarAt (parse docText) [ascii "Redis", ascii "Password"] = some (true, ascii "te#t") ∧
    scalarAt (parse docText) [ascii "Mysql", ascii "Password"] = none := by decide +kernel

example : ∃ es, Says docText es ∧ es ≠ .nil := by
  have h : (parse docText).isSome = true ∧ (scalarAt (parse docText) [ascii "Mysql", ascii "Port"]).isSome = true := by decide +kernel
  cases hp : parse docText with
  | none => rw [hp] at h; exact absurd h.1 (by decide)
  | some d =>
    cases d with
    | none => rw [hp] at h; exact absurd h.2 (by decide)
    | some n =>
      obtain ⟨es, hs, ⟨-, h1⟩ | ⟨h1, -, -⟩⟩ := (C163_reads _ _).1 hp
      · cases h1
      · exact ⟨es, hs, h1⟩

/-- `password: te#t` (no comment), `password: te #t` (a comment), `url: http://h:80` and `a: b: c` (not of this form). -/
example : readLine (ascii "password: te#t") = some (some ⟨0, ascii "password", some (false, ascii "te#t")⟩) ∧
    readLine (ascii "password: te #t") = some (some ⟨0, ascii "password", some (false, ascii "te")⟩) ∧
    readLine (ascii " url: http://h:80 ") = some (some ⟨1, ascii "url", some (false, ascii "http://h:80")⟩) ∧
    readLine (ascii "a: b: c") = none ∧ readLine (ascii "a:b") = none ∧ readLine (ascii "- a") = none := by decide +kernel

/-- A line that is indented by less than the first one, or between two levels, is not of this form; tabs are not either. -/
example : (parse (ascii "  a: 1\nb: 2")).isNone = true ∧ (parse (ascii "a:\n    b: 1\n  c: 2")).isNone = true ∧ (parse (ascii "a:\n\tb: 1")).isNone = true ∧
    (parse (ascii "a: 1\n  b: 1")).isNone = true := by decide +kernel

/-- Windows line endings. -/
example : scalarAt (parse (ascii "a:\r\n   b: 1\r\n\r\nc: x y  # z\r\n")) [ascii "C"] = some (false, ascii "x y") := by decide +kernel

/-- Something that can be written. -/
example : Writable (.cons (.scalar false (ascii "mysql")) (.map (.cons (.scalar false (ascii "port")) (.scalar false []) .nil))
    (.cons (.scalar false (ascii "b")) (.scalar true (ascii "it's: #1")) .nil)) :=
  .sub (by decide +kernel) (by simp) (.value (by decide +kernel) .empty .nil) (.value (by decide +kernel) (.double (by decide +kernel) (by decide +kernel) (by decide +kernel)) .nil)

end Gears.Conf.Yaml.Text
