import Verif.Dto.Parse
import Verif.Confs.Props

/-
The texts that `MarshalM` writes.
-/

namespace Gears.Dto

open Gears.Str Gears.Utf8

variable {F : Type}

/-! ## Strings -/

theorem valid_tail {r : Nat} {t : Bytes} (hr : Scalar r) (h : Valid (encodeRune r ++ t)) : Valid t := by
  obtain ⟨rs, h1, h2⟩ := h
  cases rs with
  | nil =>
    simp [utf8] at h2
    exact absurd h2.1 (encode_ne r)
  | cons r' rs =>
    have e1 := decode_encode hr t
    have hu : utf8 (r' :: rs) = encodeRune r' ++ utf8 rs := rfl
    rw [h2, hu, decode_encode (h1 r' (by simp))] at e1
    have : r' = r := congrArg Prod.fst e1
    subst this
    rw [hu] at h2
    exact ⟨rs, fun x hx => h1 x (by simp [hx]), List.append_cancel_left h2⟩

theorem clean_valid {s s' : Bytes} (h : Clean s s') : Valid s' := by
  induction h with
  | nil => exact ⟨[], by simp, rfl⟩
  | char hr _ ih => exact valid_cons hr ih
  | bad _ _ ih => exact valid_cons (by decide) ih

theorem clean_eq {s s' : Bytes} (h : Clean s s') : Valid s → s' = s := by
  induction h with
  | nil => intro _; rfl
  | char hr _ ih => intro hv; rw [ih (valid_tail hr hv)]
  | @bad b t s hb _ ih =>
    rintro ⟨rs, h1, h2⟩
    cases rs with
    | nil => simp [utf8] at h2
    | cons r rs => exact absurd h2 (hb r (utf8 rs) (h1 r (by simp)))

theorem hexDigit_spec : ∀ {n : Nat}, n < 16 → HexDigit (hexDigit n) n := by
  have : ∀ i : Fin 16, HexDigit (hexDigit i.1) i.1 := by unfold HexDigit hexDigit; decide
  intro n hn
  exact this ⟨n, hn⟩

theorem chars_escRune {r : Nat} {t s : Bytes} (hr : Scalar r) (h : Chars t s) : Chars (escRune r ++ t) (encodeRune r ++ s) := by
  unfold escRune
  split
  · rename_i h80
    rw [encode_ascii h80]
    split
    · rename_i he
      rcases he with rfl | rfl
      · exact .esc (by decide) h
      · exact .esc (by decide) h
    · split
      · rename_i he; subst he; exact .esc (by decide) h
      · split
        · rename_i he; subst he; exact .esc (by decide) h
        · split
          · rename_i he; subst he; exact .esc (by decide) h
          · split
            · rename_i h1 h2 h3 h4 he
              have hu : U4 [92, 117, 48, 48, hexDigit (r / 16), hexDigit (r % 16)] r :=
                ⟨48, 48, _, _, 0, 0, r / 16, r % 16, rfl, by unfold HexDigit; decide, by unfold HexDigit; decide,
                  hexDigit_spec (by omega), hexDigit_spec (by omega), by omega⟩
              have := Chars.uni hu (by unfold High; omega) (by unfold Low; omega) h
              rwa [encode_ascii h80] at this
            · rename_i h1 h2 h3 h4 he
              have := Chars.plain hr (by omega) (by omega) (by omega) h
              rwa [encode_ascii h80] at this
  · rename_i h80
    split
    · rename_i he
      have hu : U4 [92, 117, 50, 48, 50, hexDigit (r % 16)] r :=
        ⟨50, 48, 50, _, 2, 0, 2, r % 16, rfl, by unfold HexDigit; decide, by unfold HexDigit; decide, by unfold HexDigit; decide,
          hexDigit_spec (by omega), by omega⟩
      exact Chars.uni hu (by unfold High; omega) (by unfold Low; omega) h
    · exact Chars.plain hr (by omega) (by omega) (by omega) h

theorem quoteBody_chars : ∀ (n : Nat) (s : Bytes), s.length ≤ n → ∃ s', Clean s s' ∧ Chars (quoteBody n s) s'
  | 0, s, hn => by
    have : s = [] := List.length_eq_zero_iff.1 (by omega)
    subst this
    exact ⟨[], .nil, .nil⟩
  | n + 1, [], _ => ⟨[], .nil, .nil⟩
  | n + 1, b :: t, hn => by
    unfold quoteBody
    simp only
    by_cases hd : decodeRune (b :: t) = (0xFFFD, 1)
    · rw [if_pos hd, hd]
      obtain ⟨s', h1, h2⟩ := quoteBody_chars n t (by simp at hn; omega)
      refine ⟨encodeRune 0xFFFD ++ s', .bad (fun r t' hr => decode_bad hd hr t') h1, ?_⟩
      have hu : U4 [92, 117, 102, 102, 102, 100] 0xFFFD :=
        ⟨102, 102, 102, 100, 15, 15, 15, 13, rfl, by unfold HexDigit; decide, by unfold HexDigit; decide, by unfold HexDigit; decide,
          by unfold HexDigit; decide, rfl⟩
      exact Chars.uni hu (by unfold High; decide) (by unfold Low; decide) h2
    · rw [if_neg hd]
      rcases decode_cases (s := b :: t) (by simp) with he | ⟨r, rest, hr, he, hdr⟩
      · exact absurd he hd
      · rw [hdr, he]
        simp only [List.drop_left]
        have hl : 0 < (encodeRune r).length := List.length_pos_iff.2 (encode_ne r)
        have hle := congrArg List.length he
        simp only [List.length_append, List.length_cons] at hle hn
        obtain ⟨s', h1, h2⟩ := quoteBody_chars n rest (by omega)
        exact ⟨encodeRune r ++ s', .char hr h1, chars_escRune hr h2⟩

theorem quote_tok (s : Bytes) : ∃ s', Clean s s' ∧ TokText (quote s) (.str s') := by
  obtain ⟨s', h1, h2⟩ := quoteBody_chars s.length s (Nat.le_refl _)
  exact ⟨s', h1, quoteBody s.length s, rfl, h2⟩

/-! ## Integers -/

theorem natDigits_text (n : Nat) : natDigits n = [48] ∨ ∃ c ds, natDigits n = c :: ds ∧ 49 ≤ c ∧ c ≤ 57 ∧ ∀ d ∈ ds, Digit d := by
  have dig : ∀ i : Fin 10, Digit (UInt8.ofNat (48 + i.1)) := by unfold Digit; decide
  have big : ∀ i : Fin 10, i.1 ≠ 0 → 49 ≤ UInt8.ofNat (48 + i.1) ∧ UInt8.ofNat (48 + i.1) ≤ 57 := by decide
  have pos : ∀ n : Nat, n ≠ 0 → ∃ c ds, natDigits n = c :: ds ∧ 49 ≤ c ∧ c ≤ 57 ∧ ∀ d ∈ ds, Digit d := by
    intro n
    induction n using Nat.strongRecOn with
    | ind n ih =>
      intro h0
      rw [natDigits]
      split
      · rename_i h
        obtain ⟨h1, h2⟩ := big ⟨n, h⟩ h0
        exact ⟨_, [], rfl, h1, h2, by simp⟩
      · rename_i h
        obtain ⟨c, ds, he, h1, h2, h3⟩ := ih (n / 10) (by omega) (by omega)
        rw [he]
        refine ⟨c, ds ++ [_], rfl, h1, h2, fun d hd => ?_⟩
        rcases List.mem_append.1 hd with hd | hd
        · exact h3 d hd
        · simp only [List.mem_singleton] at hd
          rw [hd]
          exact dig ⟨n % 10, by omega⟩
  by_cases h0 : n = 0
  · subst h0; left; rw [natDigits]; rfl
  · exact .inr (pos n h0)

theorem itoa_num (z : Int) : NumText (itoa z) := by
  unfold itoa
  split
  · exact ⟨[45], natDigits z.natAbs, [], [], by simp, .inr rfl, natDigits_text _, .inl rfl, .inl rfl⟩
  · exact ⟨[], natDigits z.natAbs, [], [], by simp, .inl rfl, natDigits_text _, .inl rfl, .inl rfl⟩

/-! ## Order of keys -/

theorem sortEntries_spec {α : Type} : ∀ {l : List (Bytes × α)}, (l.map (·.1)).Nodup → Sorted (sortEntries l) ∧ ∀ e, e ∈ sortEntries l ↔ e ∈ l
  | [], _ => ⟨List.Pairwise.nil, fun e => Iff.rfl⟩
  | x :: l, h => by
    obtain ⟨h1, h2⟩ := List.nodup_cons.1 h
    obtain ⟨i1, i2⟩ := sortEntries_spec h2
    refine ⟨sorted_ins i1, fun e => ?_⟩
    show e ∈ ins x.1 x.2 (sortEntries l) ↔ _
    rw [mem_ins i1, i2, List.mem_cons]
    constructor
    · rintro (h | ⟨-, h⟩)
      · exact .inl h
      · exact .inr h
    · rintro (h | h)
      · exact .inl h
      · exact .inr ⟨fun he => h1 (by show x.1 ∈ _; rw [← he]; exact List.mem_map_of_mem h), h⟩

theorem sorted_nodup {α : Type} {m : List (Bytes × α)} (h : Sorted m) : (m.map (·.1)).Nodup := by
  unfold List.Nodup
  rw [List.pairwise_map]
  exact List.Pairwise.imp (fun hab he => by rw [he] at hab; exact less_irrefl _ hab) h

/-- Sorting undoes the order of iteration. -/
theorem sort_order {α : Type} {l m : List (Bytes × α)} (h : l.Perm m) (hm : Sorted m) : sortEntries l = m := by
  have hn : (l.map (·.1)).Nodup := (h.map (·.1)).nodup_iff.2 (sorted_nodup hm)
  obtain ⟨h1, h2⟩ := sortEntries_spec hn
  exact sorted_unique h1 hm fun e => by rw [h2, h.mem_iff]

/-! ## Depth of nesting -/

/-- The level after a token. -/
def next (c : Nat) : Tok → Nat
  | .lbrace | .lbrack => c + 1
  | .rbrace | .rbrack => c - 1
  | _ => c

/-- The highest level, beginning with c. -/
def peak : Nat → List Tok → Nat
  | c, [] => c
  | c, t :: ts => max c (peak (next c t) ts)

theorem peak_le (c : Nat) (ts : List Tok) : c ≤ peak c ts := by
  cases ts with
  | nil => exact Nat.le_refl _
  | cons t ts => unfold peak; omega

variable {pf : Bytes → Option F}

theorem means_peak {d : Nat} {v : G F} {ts : List Tok} (h : Means pf d v ts) :
    ∀ (c : Nat) (rest : List Tok), peak c (ts ++ rest) ≤ max (c + d) (peak c rest) := by
  have one : ∀ (t : Tok) (c d : Nat) (rest : List Tok), next c t = c → peak c ([t] ++ rest) ≤ max (c + d) (peak c rest) := by
    intro t c d rest h
    show max c (peak (next c t) rest) ≤ _
    rw [h]
    have := peak_le c rest
    omega
  induction h with
  | null => intro c rest; exact one _ _ _ _ rfl
  | true => intro c rest; exact one _ _ _ _ rfl
  | false => intro c rest; exact one _ _ _ _ rfl
  | str => intro c rest; exact one _ _ _ _ rfl
  | num hx => intro c rest; exact one _ _ _ _ rfl
  | @arr d es _ ih =>
    intro c rest
    have items : ∀ es : List (G F × List Tok), (∀ e ∈ es, ∀ (c : Nat) (rest : List Tok), peak c (e.2 ++ rest) ≤ max (c + d) (peak c rest)) →
        ∀ (c : Nat) (rest : List Tok), peak c (commas (es.map (·.2)) ++ rest) ≤ max (c + d) (peak c rest) := by
      intro es
      induction es with
      | nil => intro _ c rest; exact Nat.le_max_right _ _
      | cons e es ihs =>
        intro h c rest
        cases es with
        | nil => exact h e (by simp) c rest
        | cons e' es =>
          have h1 := h e (by simp) c (.comma :: (commas ((e' :: es).map (·.2)) ++ rest))
          have h2 := ihs (fun x hx => h x (by simp at hx ⊢; tauto)) c rest
          have h3 : peak c (.comma :: (commas ((e' :: es).map (·.2)) ++ rest)) = max c (peak c (commas ((e' :: es).map (·.2)) ++ rest)) := rfl
          have h4 : commas ((e :: e' :: es).map (·.2)) ++ rest = e.2 ++ .comma :: (commas ((e' :: es).map (·.2)) ++ rest) := by
            simp [commas]
          rw [h4]
          omega
    have h1 := items es ih (c + 1) (.rbrack :: rest)
    have h2 : peak (c + 1) (.rbrack :: rest) = max (c + 1) (peak c rest) := rfl
    have h3 : peak c (.lbrack :: commas (es.map (·.2)) ++ [.rbrack] ++ rest) = max c (peak (c + 1) (commas (es.map (·.2)) ++ .rbrack :: rest)) := by
      simp [peak, next]
    rw [h3]
    omega
  | @obj d m es _ _ ih =>
    intro c rest
    have items : ∀ es : List (Bytes × G F × List Tok), (∀ e ∈ es, ∀ (c : Nat) (rest : List Tok), peak c (e.2.2 ++ rest) ≤ max (c + d) (peak c rest)) →
        ∀ (c : Nat) (rest : List Tok), peak c (commas (es.map fun e => .str e.1 :: .colon :: e.2.2) ++ rest) ≤ max (c + d) (peak c rest) := by
      intro es
      induction es with
      | nil => intro _ c rest; exact Nat.le_max_right _ _
      | cons e es ihs =>
        intro h c rest
        have two : ∀ us : List Tok, peak c (.str e.1 :: .colon :: us) = max c (max c (peak c us)) := fun _ => rfl
        cases es with
        | nil =>
          have h1 := h e (by simp) c rest
          have h4 : commas (([e] : List (Bytes × G F × List Tok)).map fun e => .str e.1 :: .colon :: e.2.2) ++ rest = .str e.1 :: .colon :: (e.2.2 ++ rest) := by
            simp [commas]
          rw [h4, two]
          omega
        | cons e' es =>
          have h1 := h e (by simp) c (.comma :: (commas ((e' :: es).map fun e => .str e.1 :: .colon :: e.2.2) ++ rest))
          have h2 := ihs (fun x hx => h x (by simp at hx ⊢; tauto)) c rest
          have h3 : peak c (.comma :: (commas ((e' :: es).map fun e => .str e.1 :: .colon :: e.2.2) ++ rest)) =
            max c (peak c (commas ((e' :: es).map fun e => .str e.1 :: .colon :: e.2.2) ++ rest)) := rfl
          have h4 : commas ((e :: e' :: es).map fun e => .str e.1 :: .colon :: e.2.2) ++ rest =
              .str e.1 :: .colon :: (e.2.2 ++ .comma :: (commas ((e' :: es).map fun e => .str e.1 :: .colon :: e.2.2) ++ rest)) := by
            simp [commas]
          rw [h4, two]
          omega
    have h1 := items es ih (c + 1) (.rbrace :: rest)
    have h2 : peak (c + 1) (.rbrace :: rest) = max (c + 1) (peak c rest) := rfl
    have h3 : peak c (.lbrace :: commas (es.map fun e => .str e.1 :: .colon :: e.2.2) ++ [.rbrace] ++ rest) =
        max c (peak (c + 1) (commas (es.map fun e => .str e.1 :: .colon :: e.2.2) ++ .rbrace :: rest)) := by
      simp [peak, next]
    rw [h3]
    omega

theorem means_mono {d : Nat} {v : G F} {ts : List Tok} (h : Means pf d v ts) : ∀ d', d ≤ d' → Means pf d' v ts := by
  induction h with
  | null => intros; exact .null
  | true => intros; exact .true
  | false => intros; exact .false
  | str => intros; exact .str
  | num hx => intros; exact .num hx
  | arr es _ ih =>
    intro d' hd
    obtain ⟨d', rfl⟩ : ∃ n, d' = n + 1 := ⟨d' - 1, by omega⟩
    exact .arr es fun e he => ih e he d' (by omega)
  | obj es _ hm ih =>
    intro d' hd
    obtain ⟨d', rfl⟩ : ∃ n, d' = n + 1 := ⟨d' - 1, by omega⟩
    exact .obj es (fun e he => ih e he d' (by omega)) hm

/-! ## The text of a value -/

variable {fmt : F → Option Bytes} {ofInt : Int → F} {ord : List (Bytes × Bytes) → List (Bytes × Bytes)}

theorem encMap_keys : ∀ {m : List (Bytes × G F)} {es : List (Bytes × Bytes)}, encMap fmt ord m = some es → es.map (·.1) = m.map (·.1)
  | [], es, h => by simp [encMap] at h; subst h; rfl
  | (k, v) :: m, es, h => by
    unfold encMap at h
    split at h
    · rename_i t ts _ h2
      simp at h
      subst h
      simp [encMap_keys h2]
    · simp at h

theorem sorted_keys {α β : Type} {m : List (Bytes × α)} {n : List (Bytes × β)} (h : m.map (·.1) = n.map (·.1)) (hm : Sorted m) : Sorted n := by
  have : (m.map (·.1)).Pairwise Less := by rw [List.pairwise_map]; exact hm
  rw [h, List.pairwise_map] at this
  exact this

theorem encMap_order (ho : Order ord) {m : List (Bytes × G F)} {es : List (Bytes × Bytes)} (h : encMap fmt ord m = some es) (hm : Sorted m) :
    sortEntries (ord es) = es := sort_order (ho es) (sorted_keys (encMap_keys h).symm hm)

mutual
theorem enc_means (hl : FloatLaws fmt pf ofInt) (ho : Order ord) : ∀ (v : G F), Canon v → ∀ b, enc fmt ord v = some b →
    ∃ ts w, Spells ts b ∧ Seen ofInt v w ∧ Means pf (depth v) w ts ∧ ∀ c rest, peak c (ts ++ rest) = max (c + depth v) (peak c rest)
  | .nil, _, b, h => by
    simp [enc] at h; subst h
    refine ⟨[.null], .nil, spells_tok rfl, rfl, .null, fun c rest => ?_⟩
    have := peak_le c rest
    simp [peak, next, depth]
  | .bool x, _, b, h => by
    simp [enc] at h; subst h
    cases x with
    | true =>
      refine ⟨[.true], .bool true, spells_tok rfl, rfl, .true, fun c rest => ?_⟩
      simp [peak, next, depth]
    | false =>
      refine ⟨[.false], .bool false, spells_tok rfl, rfl, .false, fun c rest => ?_⟩
      simp [peak, next, depth]
  | .int n, hc, b, h => by
    simp [enc] at h; subst h
    refine ⟨[.num (itoa n)], .num (ofInt n), spells_tok ⟨rfl, itoa_num n⟩, rfl, .num (hl.int n hc.1 hc.2), fun c rest => ?_⟩
    simp [peak, next, depth]
  | .num x, _, b, h => by
    simp only [enc] at h
    obtain ⟨h1, h2⟩ := hl.num x b h
    refine ⟨[.num b], .num x, spells_tok ⟨rfl, h1⟩, rfl, .num h2, fun c rest => ?_⟩
    simp [peak, next, depth]
  | .str s, _, b, h => by
    simp [enc] at h; subst h
    obtain ⟨s', h1, h2⟩ := quote_tok s
    refine ⟨[.str s'], .str s', spells_tok h2, ⟨s', h1, rfl⟩, .str, fun c rest => ?_⟩
    simp [peak, next, depth]
  | .nilSlice, _, b, h => by
    simp [enc] at h; subst h
    refine ⟨[.null], .nil, spells_tok rfl, rfl, .null, fun c rest => ?_⟩
    simp [peak, next, depth]
  | .nilMap, _, b, h => by
    simp [enc] at h; subst h
    refine ⟨[.null], .nil, spells_tok rfl, rfl, .null, fun c rest => ?_⟩
    simp [peak, next, depth]
  | .slice l, hc, b, h => by
    simp only [enc, Option.map_eq_some_iff] at h
    obtain ⟨bs, hb, rfl⟩ := h
    obtain ⟨es, h1, h2, h3, h4⟩ := encList_means hl ho l hc bs hb
    refine ⟨.lbrack :: commas (es.map (·.2)) ++ [.rbrack], .slice (es.map (·.1)), ?_, ⟨_, h2, rfl⟩, by simp only [depth]; exact .arr es h3, fun c rest => ?_⟩
    · have a1 : Spells [.lbrack] [91] := spells_tok (t := .lbrack) rfl
      have a2 : Spells [.rbrack] [93] := spells_tok (t := .rbrack) rfl
      exact spells_append (spells_append a1 h1) a2
    · have e1 : peak c (.lbrack :: commas (es.map (·.2)) ++ [.rbrack] ++ rest) =
          max c (peak (c + 1) (commas (es.map (·.2)) ++ .rbrack :: rest)) := by simp [peak, next]
      have e2 : peak (c + 1) (.rbrack :: rest) = max (c + 1) (peak c rest) := rfl
      rw [e1, h4, e2]
      simp only [depth]
      omega
  | .map m, hc, b, h => by
    simp only [enc, Option.map_eq_some_iff] at h
    obtain ⟨bs, hb, rfl⟩ := h
    obtain ⟨es, h1, h2, h3, h4⟩ := encMap_means hl ho m hc.2 bs hb
    rw [encMap_order ho hb hc.1]
    refine ⟨.lbrace :: commas (es.map fun e => .str e.1 :: .colon :: e.2.2) ++ [.rbrace], .map (assign [] (es.map fun e => (e.1, e.2.1))), ?_,
      ⟨_, _, h2, isMap_assign _, rfl⟩, by simp only [depth]; exact .obj es h3 (isMap_assign _), fun c rest => ?_⟩
    · have a1 : Spells [.lbrace] [123] := spells_tok (t := .lbrace) rfl
      have a2 : Spells [.rbrace] [125] := spells_tok (t := .rbrace) rfl
      exact spells_append (spells_append a1 h1) a2
    · have e1 : peak c (.lbrace :: commas (es.map fun e => .str e.1 :: .colon :: e.2.2) ++ [.rbrace] ++ rest) =
          max c (peak (c + 1) (commas (es.map fun e => .str e.1 :: .colon :: e.2.2) ++ .rbrace :: rest)) := by simp [peak, next]
      have e2 : peak (c + 1) (.rbrace :: rest) = max (c + 1) (peak c rest) := rfl
      rw [e1, h4, e2]
      simp only [depth]
      omega

theorem encList_means (hl : FloatLaws fmt pf ofInt) (ho : Order ord) : ∀ (l : List (G F)), CanonL l → ∀ bs, encList fmt ord l = some bs →
    ∃ es : List (G F × List Tok), Spells (commas (es.map (·.2))) (join 44 bs) ∧ SeenL ofInt l (es.map (·.1)) ∧
      (∀ e ∈ es, Means pf (depthL l) e.1 e.2) ∧ ∀ c rest, peak c (commas (es.map (·.2)) ++ rest) = max (c + depthL l) (peak c rest)
  | [], _, bs, h => by
    simp [encList] at h; subst h
    refine ⟨[], .nil (by intro c hc; exact absurd hc List.not_mem_nil), rfl, by simp, fun c rest => ?_⟩
    have := peak_le c rest
    simp only [List.map_nil, commas, List.nil_append, depthL]
    omega
  | v :: l, hc, bs, h => by
    unfold encList at h
    split at h
    · rename_i t ts h1 h2
      simp at h
      subst h
      obtain ⟨us, w, a1, a2, a3, a4⟩ := enc_means hl ho v hc.1 t h1
      obtain ⟨es, b1, b2, b3, b4⟩ := encList_means hl ho l hc.2 ts h2
      refine ⟨(w, us) :: es, ?_, ⟨w, _, a2, b2, rfl⟩, ?_, ?_⟩
      · cases l with
        | nil =>
          simp [encList] at h2
          subst h2
          simp only [SeenL, List.map_eq_nil_iff] at b2
          subst b2
          exact a1
        | cons v' l =>
          have hts : ts ≠ [] := by
            unfold encList at h2
            split at h2
            · simp at h2; subst h2; simp
            · simp at h2
          obtain ⟨x, r, -, -, hes⟩ := b2
          cases es with
          | nil => simp at hes
          | cons e es =>
            rw [join_cons _ _ hts]
            have a : Spells [.comma] [44] := spells_tok (t := .comma) rfl
            exact spells_append a1 (spells_append a b1)
      · intro e he
        rcases List.mem_cons.1 he with rfl | he
        · exact means_mono a3 _ (by simp only [depthL]; omega)
        · exact means_mono (b3 e he) _ (by simp only [depthL]; omega)
      · intro c rest
        cases es with
        | nil =>
          have := b4 c rest
          simp only [List.map_nil, commas, List.nil_append] at this
          simp only [List.map_cons, List.map_nil, commas, depthL]
          rw [a4]
          omega
        | cons e es =>
          have e1 : commas (((w, us) :: e :: es).map (·.2)) ++ rest = us ++ .comma :: (commas ((e :: es).map (·.2)) ++ rest) := by simp [commas]
          have e2 : peak c (.comma :: (commas ((e :: es).map (·.2)) ++ rest)) = max c (peak c (commas ((e :: es).map (·.2)) ++ rest)) := rfl
          rw [e1, a4, e2, b4]
          simp only [depthL]
          omega
    · simp at h

theorem encMap_means (hl : FloatLaws fmt pf ofInt) (ho : Order ord) : ∀ (m : List (Bytes × G F)), CanonM m → ∀ bs, encMap fmt ord m = some bs →
    ∃ es : List (Bytes × G F × List Tok), Spells (commas (es.map fun e => .str e.1 :: .colon :: e.2.2)) (join 44 (bs.map fun e => quote e.1 ++ 58 :: e.2)) ∧
      SeenM ofInt m (es.map fun e => (e.1, e.2.1)) ∧ (∀ e ∈ es, Means pf (depthM m) e.2.1 e.2.2) ∧
      ∀ c rest, peak c (commas (es.map fun e => .str e.1 :: .colon :: e.2.2) ++ rest) = max (c + depthM m) (peak c rest)
  | [], _, bs, h => by
    simp [encMap] at h; subst h
    refine ⟨[], .nil (by intro c hc; exact absurd hc List.not_mem_nil), rfl, by simp, fun c rest => ?_⟩
    have := peak_le c rest
    simp only [List.map_nil, commas, List.nil_append, depthM]
    omega
  | (k, v) :: l, hc, bs, h => by
    unfold encMap at h
    split at h
    · rename_i t ts h1 h2
      simp at h
      subst h
      obtain ⟨us, w, a1, a2, a3, a4⟩ := enc_means hl ho v hc.1 t h1
      obtain ⟨es, b1, b2, b3, b4⟩ := encMap_means hl ho l hc.2 ts h2
      obtain ⟨k', hk1, hk2⟩ := quote_tok k
      have hmem : Spells (.str k' :: .colon :: us) (quote k ++ 58 :: t) := by
        have a : Spells [.colon] [58] := spells_tok (t := .colon) rfl
        exact spells_append (spells_tok hk2) (spells_append a a1)
      have two : ∀ (c : Nat) (us : List Tok), peak c (.str k' :: .colon :: us) = max c (max c (peak c us)) := fun _ _ => rfl
      refine ⟨(k', w, us) :: es, ?_, ⟨k', w, _, hk1, a2, b2, rfl⟩, ?_, ?_⟩
      · cases l with
        | nil =>
          simp [encMap] at h2
          subst h2
          simp only [SeenM, List.map_eq_nil_iff] at b2
          subst b2
          exact hmem
        | cons v' l =>
          have hts : (ts.map fun e => quote e.1 ++ 58 :: e.2) ≠ [] := by
            intro e
            have e' := List.map_eq_nil_iff.1 e
            subst e'
            have := encMap_keys h2
            simp at this
          obtain ⟨k2, x, r, -, -, -, hes⟩ := b2
          cases es with
          | nil => simp at hes
          | cons e es =>
            rw [List.map_cons (l := ts), join_cons _ _ hts]
            have a : Spells [.comma] [44] := spells_tok (t := .comma) rfl
            exact spells_append hmem (spells_append a b1)
      · intro e he
        rcases List.mem_cons.1 he with rfl | he
        · exact means_mono a3 _ (by simp only [depthM]; omega)
        · exact means_mono (b3 e he) _ (by simp only [depthM]; omega)
      · intro c rest
        cases es with
        | nil =>
          have := b4 c rest
          simp only [List.map_nil, commas, List.nil_append] at this
          simp only [List.map_cons, List.map_nil, commas, depthM, List.cons_append]
          rw [two, a4]
          omega
        | cons e es =>
          have e1 : commas (((k', w, us) :: e :: es).map fun e => .str e.1 :: .colon :: e.2.2) ++ rest =
            .str k' :: .colon :: (us ++ .comma :: (commas ((e :: es).map fun e => .str e.1 :: .colon :: e.2.2) ++ rest)) := by simp [commas]
          have e2 : peak c (.comma :: (commas ((e :: es).map fun e => .str e.1 :: .colon :: e.2.2) ++ rest)) =
            max c (peak c (commas ((e :: es).map fun e => .str e.1 :: .colon :: e.2.2) ++ rest)) := rfl
          rw [e1, two, a4, e2, b4]
          simp only [depthM]
          omega
    · simp at h
end

/-! ## When there is a text -/

mutual
theorem enc_finite : ∀ v : G F, enc fmt ord v ≠ none ↔ Finite fmt v
  | .nil => by simp [enc, Finite]
  | .bool _ => by simp [enc, Finite]
  | .int _ => by simp [enc, Finite]
  | .num x => by simp [enc, Finite]
  | .str _ => by simp [enc, Finite]
  | .nilSlice => by simp [enc, Finite]
  | .nilMap => by simp [enc, Finite]
  | .slice l => by simp only [enc, Finite, ne_eq, Option.map_eq_none_iff]; exact encList_finite l
  | .map m => by simp only [enc, Finite, ne_eq, Option.map_eq_none_iff]; exact encMap_finite m
theorem encList_finite : ∀ l : List (G F), encList fmt ord l ≠ none ↔ FiniteL fmt l
  | [] => by simp [encList, FiniteL]
  | v :: l => by
    simp only [FiniteL]
    rw [← enc_finite v, ← encList_finite l]
    rw [encList]
    cases enc fmt ord v <;> cases encList fmt ord l <;> simp
theorem encMap_finite : ∀ l : List (Bytes × G F), encMap fmt ord l ≠ none ↔ FiniteM fmt l
  | [] => by simp [encMap, FiniteM]
  | (k, v) :: l => by
    simp only [FiniteM]
    rw [← enc_finite v, ← encMap_finite l]
    rw [encMap]
    cases enc fmt ord v <;> cases encMap fmt ord l <;> simp
end

mutual
theorem enc_order {ord' : List (Bytes × Bytes) → List (Bytes × Bytes)} (ho : Order ord) (ho' : Order ord') : ∀ v : G F, Canon v →
    enc fmt ord v = enc fmt ord' v
  | .nil, _ => rfl
  | .bool _, _ => rfl
  | .int _, _ => rfl
  | .num x, _ => rfl
  | .str _, _ => rfl
  | .nilSlice, _ => rfl
  | .nilMap, _ => rfl
  | .slice l, h => by simp only [enc]; rw [encList_order ho ho' l h]
  | .map m, h => by
    simp only [enc]
    have e := encMap_order' ho ho' m h.2
    rw [← e]
    cases he : encMap fmt ord m with
    | none => rfl
    | some es => simp only [Option.map_some]; rw [encMap_order ho he h.1, encMap_order ho' (e ▸ he) h.1]
theorem encList_order {ord' : List (Bytes × Bytes) → List (Bytes × Bytes)} (ho : Order ord) (ho' : Order ord') : ∀ l : List (G F), CanonL l →
    encList fmt ord l = encList fmt ord' l
  | [], _ => rfl
  | v :: l, h => by unfold encList; rw [enc_order ho ho' v h.1, encList_order ho ho' l h.2]
theorem encMap_order' {ord' : List (Bytes × Bytes) → List (Bytes × Bytes)} (ho : Order ord) (ho' : Order ord') : ∀ l : List (Bytes × G F), CanonM l →
    encMap fmt ord l = encMap fmt ord' l
  | [], _ => rfl
  | (k, v) :: l, h => by unfold encMap; rw [enc_order ho ho' v h.1, encMap_order' ho ho' l h.2]
end

/-! ## What stays as it is -/

mutual
theorem seen_plain : ∀ (v w : G F), Plain v → Canon v → Seen ofInt v w → w = v
  | .nil, _, _, _, h => h
  | .bool _, _, _, _, h => h
  | .int _, _, h, _, _ => h.elim
  | .num _, _, _, _, h => h
  | .str s, w, hp, _, h => by obtain ⟨s', h1, rfl⟩ := h; rw [clean_eq h1 hp]
  | .nilSlice, _, h, _, _ => h.elim
  | .nilMap, _, h, _, _ => h.elim
  | .slice l, w, hp, hc, h => by obtain ⟨l', h1, rfl⟩ := h; rw [seen_plainL l l' hp hc h1]
  | .map m, w, hp, hc, h => by
    obtain ⟨l', m', h1, h2, rfl⟩ := h
    have := seen_plainM m l' hp hc.2 h1
    subst this
    rw [isMap_unique h2 (isMap_self hc.1)]
theorem seen_plainL : ∀ (l r : List (G F)), PlainL l → CanonL l → SeenL ofInt l r → r = l
  | [], _, _, _, h => h
  | v :: l, r, hp, hc, h => by
    obtain ⟨v', r', h1, h2, rfl⟩ := h
    rw [seen_plain v v' hp.1 hc.1 h1, seen_plainL l r' hp.2 hc.2 h2]
theorem seen_plainM : ∀ (l r : List (Bytes × G F)), PlainM l → CanonM l → SeenM ofInt l r → r = l
  | [], _, _, _, h => h
  | (k, v) :: l, r, hp, hc, h => by
    obtain ⟨k', v', r', h1, h2, h3, rfl⟩ := h
    rw [clean_eq h1 hp.1, seen_plain v v' hp.2.1 hc.1 h2, seen_plainM l r' hp.2.2 hc.2 h3]
end

theorem seenM_valid : ∀ (l r : List (Bytes × G F)), SeenM ofInt l r → ∀ e ∈ r, Valid e.1
  | [], r, h, e, he => by simp [SeenM] at h; subst h; simp at he
  | (k, v) :: l, r, h, e, he => by
    obtain ⟨k', v', r', h1, -, h3, rfl⟩ := h
    rcases List.mem_cons.1 he with rfl | he
    · exact clean_valid h1
    · exact seenM_valid l r' h3 e he

theorem seenM_keys : ∀ (l r : List (Bytes × G F)), SeenM ofInt l r → (∀ e ∈ l, Valid e.1) → r.map (·.1) = l.map (·.1)
  | [], r, h, _ => by simp [SeenM] at h; subst h; rfl
  | (k, v) :: l, r, h, hv => by
    obtain ⟨k', v', r', h1, -, h3, rfl⟩ := h
    simp only [List.map_cons]
    rw [clean_eq h1 (hv (k, v) (by simp)), seenM_keys l r' h3 fun e he => hv e (by simp [he])]

mutual
theorem seen_self : ∀ (v : G F), Seen ofInt v v → Plain v
  | .nil, _ => trivial
  | .bool _, _ => trivial
  | .int _, h => by simp [Seen] at h
  | .num _, _ => trivial
  | .str s, h => by obtain ⟨s', h1, h2⟩ := h; simp at h2; subst h2; exact clean_valid h1
  | .nilSlice, h => by simp [Seen] at h
  | .nilMap, h => by simp [Seen] at h
  | .slice l, h => by obtain ⟨l', h1, h2⟩ := h; simp at h2; subst h2; exact seen_selfL l h1
  | .map m, h => by
    obtain ⟨l', m', h1, h2, h3⟩ := h
    simp at h3
    subst h3
    have hv : ∀ e ∈ m, Valid e.1 := by
      intro e he
      obtain ⟨a, b, hl, -⟩ := (h2.2 e.1 e.2).1 he
      exact seenM_valid m l' h1 (e.1, e.2) (by rw [hl]; simp)
    have hk := seenM_keys m l' h1 hv
    have : m = l' := isMap_unique h2 (isMap_self (sorted_keys hk.symm h2.1))
    subst this
    exact seen_selfM m h1
theorem seen_selfL : ∀ (l : List (G F)), SeenL ofInt l l → PlainL l
  | [], _ => trivial
  | v :: l, h => by
    obtain ⟨v', r', h1, h2, h3⟩ := h
    simp at h3
    obtain ⟨rfl, rfl⟩ := h3
    exact ⟨seen_self v h1, seen_selfL l h2⟩
theorem seen_selfM : ∀ (l : List (Bytes × G F)), SeenM ofInt l l → PlainM l
  | [], _ => trivial
  | (k, v) :: l, h => by
    obtain ⟨k', v', r', h1, h2, h3, h4⟩ := h
    simp at h4
    obtain ⟨⟨rfl, rfl⟩, rfl⟩ := h4
    exact ⟨clean_valid h1, seen_self v h2, seen_selfM l h3⟩
end

/-! ## What is read -/

/-- Values as they are read. -/
theorem means_shape {d : Nat} {v : G F} {ts : List Tok} (hl : FloatLaws fmt pf ofInt) (h : Means pf d v ts) :
    (∀ s, .str s ∈ ts → Valid s) → Plain v ∧ Canon v ∧ Finite fmt v ∧ depth v ≤ d := by
  induction h with
  | null => intro _; simp [Plain, Canon, Finite, depth]
  | true => intro _; simp [Plain, Canon, Finite, depth]
  | false => intro _; simp [Plain, Canon, Finite, depth]
  | str => intro h; simp [Plain, Canon, Finite, depth]; exact h _ (by simp)
  | num hx => intro _; simp [Plain, Canon, Finite, depth]; exact hl.fin _ _ hx
  | @arr d es _ ih =>
    intro hv
    have sub : ∀ (es : List (G F × List Tok)) e, e ∈ es → ∀ t, t ∈ e.2 → t ∈ commas (es.map (·.2)) := by
      intro es
      induction es with
      | nil => intro e he; simp at he
      | cons x es ihs =>
        intro e he t ht
        cases es with
        | nil => simp at he; subst he; exact ht
        | cons y es =>
          show t ∈ x.2 ++ .comma :: commas ((y :: es).map (·.2))
          rcases List.mem_cons.1 he with rfl | he
          · exact List.mem_append_left _ ht
          · exact List.mem_append_right _ (List.mem_cons_of_mem _ (ihs e he t ht))
    have all : ∀ es' : List (G F × List Tok), (∀ e ∈ es', Plain e.1 ∧ Canon e.1 ∧ Finite fmt e.1 ∧ depth e.1 ≤ d) →
        PlainL (es'.map (·.1)) ∧ CanonL (es'.map (·.1)) ∧ FiniteL fmt (es'.map (·.1)) ∧ depthL (es'.map (·.1)) ≤ d := by
      intro es'
      induction es' with
      | nil => intro _; simp [PlainL, CanonL, FiniteL, depthL]
      | cons x es' ihs =>
        intro h
        have hx := h x (by simp)
        have hr := ihs fun e he => h e (by simp [he])
        simp only [List.map_cons, PlainL, CanonL, FiniteL, depthL]
        exact ⟨⟨hx.1, hr.1⟩, ⟨hx.2.1, hr.2.1⟩, ⟨hx.2.2.1, hr.2.2.1⟩, by have := hx.2.2.2; have := hr.2.2.2; omega⟩
    have hr := all es fun e he => ih e he fun s hs => hv s (by
      have := sub es e he _ hs
      simp only [List.cons_append, List.mem_cons, List.mem_append]
      exact .inr (.inl this))
    exact ⟨hr.1, hr.2.1, hr.2.2.1, by simp only [depth]; omega⟩
  | @obj d m es _ hm ih =>
    intro hv
    have sub : ∀ (es : List (Bytes × G F × List Tok)) e, e ∈ es → ∀ t, t ∈ .str e.1 :: .colon :: e.2.2 →
        t ∈ commas (es.map fun e => .str e.1 :: .colon :: e.2.2) := by
      intro es
      induction es with
      | nil => intro e he; simp at he
      | cons x es ihs =>
        intro e he t ht
        cases es with
        | nil => simp at he; subst he; exact ht
        | cons y es =>
          show t ∈ (.str x.1 :: .colon :: x.2.2) ++ .comma :: commas ((y :: es).map fun e => .str e.1 :: .colon :: e.2.2)
          rcases List.mem_cons.1 he with rfl | he
          · exact List.mem_append_left _ ht
          · exact List.mem_append_right _ (List.mem_cons_of_mem _ (ihs e he t ht))
    have hs : ∀ e ∈ es, Valid e.1 ∧ Plain e.2.1 ∧ Canon e.2.1 ∧ Finite fmt e.2.1 ∧ depth e.2.1 ≤ d := by
      intro e he
      have hsub : ∀ s, .str s ∈ (Tok.str e.1 :: .colon :: e.2.2) → Valid s := fun s hs => hv s (by
        have := sub es e he _ hs
        simp only [List.cons_append, List.mem_cons, List.mem_append]
        exact .inr (.inl this))
      exact ⟨hsub _ (by simp), ih e he fun s hs => hsub s (by simp [hs])⟩
    have all : ∀ m' : List (Bytes × G F), (∀ e ∈ m', Valid e.1 ∧ Plain e.2 ∧ Canon e.2 ∧ Finite fmt e.2 ∧ depth e.2 ≤ d) →
        PlainM m' ∧ CanonM m' ∧ FiniteM fmt m' ∧ depthM m' ≤ d := by
      intro m'
      induction m' with
      | nil => intro _; simp [PlainM, CanonM, FiniteM, depthM]
      | cons x m' ihs =>
        intro h
        have hx := h x (by simp)
        have hr := ihs fun e he => h e (by simp [he])
        obtain ⟨k, v⟩ := x
        simp only [PlainM, CanonM, FiniteM, depthM]
        exact ⟨⟨hx.1, hx.2.1, hr.1⟩, ⟨hx.2.2.1, hr.2.1⟩, ⟨hx.2.2.2.1, hr.2.2.1⟩, by have h1 : depth v ≤ d := hx.2.2.2.2; have h2 := hr.2.2.2; omega⟩
    have hr := all m fun e he => by
      obtain ⟨a, b, hl', -⟩ := (hm.2 e.1 e.2).1 he
      have : (e.1, e.2) ∈ es.map fun e => (e.1, e.2.1) := by rw [hl']; simp
      obtain ⟨x, hx, hxe⟩ := List.mem_map.1 this
      have := hs x hx
      have e1 := congrArg Prod.fst hxe
      have e2 := congrArg Prod.snd hxe
      simp only at e1 e2
      rw [← e1, ← e2]
      exact this
    exact ⟨hr.1, ⟨hm.1, hr.2.1⟩, hr.2.2.1, by simp only [depth]; omega⟩

theorem spells_valid {ts : List Tok} {b : Bytes} (h : Spells ts b) : ∀ s, .str s ∈ ts → Valid s := by
  induction h with
  | nil _ => intro s hs; simp at hs
  | cons _ h2 _ ih =>
    intro s hs
    rcases List.mem_cons.1 hs with rfl | hs
    · obtain ⟨b, -, hb⟩ := h2
      exact chars_valid hb
    · exact ih s hs

end Gears.Dto
