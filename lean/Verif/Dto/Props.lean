import Verif.Dto.Enc

/-
Properties of /repo/dto/m.go.
-/

namespace Gears.Dto

open Gears.Str Gears.Utf8

variable {F : Type} {pf : Bytes → Option F} {fmt : F → Option Bytes} {ofInt : Int → F} {ord : List (Bytes × Bytes) → List (Bytes × Bytes)}

/-! ## Reading -/

/-- The decoder on any text. -/
def decode (pf : Bytes → Option F) (b : Bytes) (v : G F) : Prop := ∃ ts, lex (b.length + 1) b = some ts ∧ run pf (.val, []) ts = some (.done v, [])

theorem decode_iff (b : Bytes) (v : G F) : decode pf b v ↔ Json pf b v := by
  constructor
  · rintro ⟨ts, h1, h2⟩
    exact ⟨ts, lex_sound _ _ _ h1, run_sound h2⟩
  · rintro ⟨ts, h1, h2⟩
    have ha : Apart ts := apart_prefix (us := [.comma]) (means_apart h2 .comma [] (.inl rfl) trivial)
    refine ⟨ts, lex_complete h1 ha _ (Nat.lt_succ_self _), ?_⟩
    have := run_means h2 [] [] (show 0 + 10000 ≤ maxDepth by decide)
    simpa [run] using this

theorem unmarshal_iff (b : Bytes) : (∀ m, unmarshalM pf b = some (some m) ↔ decode pf b (.map m)) ∧ (unmarshalM pf b = some none ↔ decode pf b .nil) := by
  unfold unmarshalM decode
  cases hl : lex (b.length + 1) b with
  | none => simp
  | some ts =>
    simp only [Option.some.injEq]
    cases hr : run pf (.val, []) ts with
    | none => exact ⟨fun m => ⟨by simp, by rintro ⟨ts', rfl, h⟩; rw [hr] at h; simp at h⟩, ⟨by simp, by rintro ⟨ts', rfl, h⟩; rw [hr] at h; simp at h⟩⟩
    | some s =>
      have key : ∀ v : G F, (∃ ts', ts = ts' ∧ run pf (.val, []) ts' = some (.done v, [])) ↔ s = (.done v, []) := by
        intro v
        constructor
        · rintro ⟨ts', rfl, h⟩; rw [hr] at h; simpa using h
        · rintro rfl; exact ⟨ts, rfl, hr⟩
      simp only [key]
      obtain ⟨md, st⟩ := s
      constructor
      · intro m
        constructor
        · intro h
          split at h
          · rename_i m' heq
            simp at h heq
            simp [heq, h]
          · simp at h
          · simp at h
        · intro h
          simp at h
          obtain ⟨rfl, rfl⟩ := h
          rfl
      · constructor
        · intro h
          split at h
          · simp at h
          · rename_i heq
            simpa using heq
          · simp at h
        · intro h
          simp at h
          obtain ⟨rfl, rfl⟩ := h
          rfl

/-- The full claim: without an error there is a map, and it is what the text says. -/
def C101Claim : Prop := ∀ (F : Type) (pf : Bytes → Option F) (b : Bytes) (r : Option (List (Bytes × G F))),
  unmarshalM pf b = some r ↔ ∃ m, r = some m ∧ Json pf b (.map m)

/-- Exactly the texts of JSON objects give a map, and it is the one that the text stands for. -/
theorem C101_partial (b : Bytes) (m : List (Bytes × G F)) : unmarshalM pf b = some (some m) ↔ Json pf b (.map m) := by
  rw [(unmarshal_iff b).1, decode_iff]

/-- A nil map without an error: exactly for `null`. -/
theorem C101_null (b : Bytes) : unmarshalM pf b = some none ↔ ∃ w w', Ws w ∧ Ws w' ∧ b = w ++ ascii "null" ++ w' := by
  rw [(unmarshal_iff b).2, decode_iff]
  constructor
  · rintro ⟨ts, h1, h2⟩
    cases h2
    cases h1 with
    | cons hw hx hr =>
      cases hr with
      | nil hw' => exact ⟨_, _, hw, hw', by rw [show _ = _ from hx]⟩
  · rintro ⟨w, w', hw, hw', rfl⟩
    exact ⟨[.null], .cons hw rfl (.nil hw'), .null⟩

/-- A text stands for one value. -/
theorem C101_unique (b : Bytes) (v w : G F) (h : Json pf b v) (h' : Json pf b w) : v = w := by
  obtain ⟨ts, h1, h2⟩ := (decode_iff b v).2 h
  obtain ⟨us, h3, h4⟩ := (decode_iff b w).2 h'
  rw [h1] at h3
  simp at h3
  subst h3
  rw [h2] at h4
  simpa using h4

/-- Everything else is an error. -/
theorem C101_error (b : Bytes) : unmarshalM pf b = none ↔ (∀ m, ¬ Json pf b (.map m)) ∧ ¬ Json pf b .nil := by
  constructor
  · intro h
    refine ⟨fun m hm => ?_, fun hn => ?_⟩
    · rw [(C101_partial b m).2 hm] at h; simp at h
    · rw [(unmarshal_iff b).2.2 ((decode_iff b _).2 hn)] at h; simp at h
  · rintro ⟨h1, h2⟩
    cases h : unmarshalM pf b with
    | none => rfl
    | some r =>
      cases r with
      | none => exact absurd ((decode_iff b _).1 ((unmarshal_iff b).2.1 h)) h2
      | some m => exact absurd ((C101_partial b m).1 h) (h1 m)

theorem C101_violated : ¬ C101Claim := by
  intro h
  have h1 : unmarshalM (fun _ => (none : Option Unit)) (ascii "null") = some none := (C101_null _).2 ⟨[], [], by intro c hc; simp at hc, by intro c hc; simp at hc, by simp⟩
  obtain ⟨m, hm, -⟩ := (h Unit _ _ _).1 h1
  simp at hm

/-! ## Writing and reading -/

/-- The full claim: what is written reads as what it was. -/
def C102Claim : Prop := ∀ (F : Type) (pf : Bytes → Option F) (fmt : F → Option Bytes) (ofInt : Int → F)
  (ord : List (Bytes × Bytes) → List (Bytes × Bytes)), FloatLaws fmt pf ofInt → Order ord →
  ∀ (m : List (Bytes × G F)) (b : Bytes), Canon (.map m) → marshalM fmt ord (some m) = some b → unmarshalM pf b = some (some m)

/-- What comes back of a map nested at most 10000 levels. -/
theorem C102_seen (hl : FloatLaws fmt pf ofInt) (ho : Order ord) (m : List (Bytes × G F)) (b : Bytes) (hc : Canon (.map m))
    (h : marshalM fmt ord (some m) = some b) (hd : depth (.map m) ≤ 10000) :
    ∃ m', Seen ofInt (.map m) (.map m') ∧ unmarshalM pf b = some (some m') := by
  obtain ⟨ts, w, h1, h2, h3, -⟩ := enc_means hl ho (.map m) hc b h
  obtain ⟨l', m', h4, h5, rfl⟩ := h2
  exact ⟨m', ⟨l', m', h4, h5, rfl⟩, (C101_partial b m').2 ⟨ts, h1, means_mono h3 _ hd⟩⟩

/-- Deeper ones are written but cannot be read. -/
theorem C102_deep (hl : FloatLaws fmt pf ofInt) (ho : Order ord) (m : List (Bytes × G F)) (b : Bytes) (hc : Canon (.map m))
    (h : marshalM fmt ord (some m) = some b) (hd : 10000 < depth (.map m)) : unmarshalM pf b = none := by
  obtain ⟨ts, w, h1, h2, h3, h4⟩ := enc_means hl ho (.map m) hc b h
  have ha : Apart ts := apart_prefix (us := [.comma]) (means_apart h3 .comma [] (.inl rfl) trivial)
  have hlex := lex_complete h1 ha _ (Nat.lt_succ_self _)
  have no : ∀ v, ¬ Json pf b v := by
    intro v hv
    obtain ⟨us, h5, h6⟩ := (decode_iff b v).2 hv
    rw [hlex] at h5
    simp at h5
    subst h5
    have h7 := means_peak (run_sound h6) 0 []
    have h8 := h4 0 []
    simp only [peak, maxDepth] at h7 h8
    omega
  exact (C101_error b).2 ⟨fun m' => no _, no _⟩

/-- A map comes back as it was if and only if it is made of the types that UnmarshalM makes, its strings are UTF-8, and it is not nested
too deep. -/
theorem C102_partial (hl : FloatLaws fmt pf ofInt) (ho : Order ord) (m : List (Bytes × G F)) (b : Bytes) (hc : Canon (.map m))
    (h : marshalM fmt ord (some m) = some b) : unmarshalM pf b = some (some m) ↔ Plain (.map m) ∧ depth (.map m) ≤ 10000 := by
  constructor
  · intro hu
    have hd : depth (.map m) ≤ 10000 := by
      refine Nat.le_of_not_lt fun hd => ?_
      rw [C102_deep hl ho m b hc h hd] at hu
      simp at hu
    obtain ⟨m', h1, h2⟩ := C102_seen hl ho m b hc h hd
    rw [hu] at h2
    simp at h2
    subst h2
    exact ⟨seen_self _ h1, hd⟩
  · rintro ⟨hp, hd⟩
    obtain ⟨m', h1, h2⟩ := C102_seen hl ho m b hc h hd
    have := seen_plain _ _ hp hc h1
    simp at this
    rw [h2, this]

/-- Writing fails exactly on floats without a text (NaN, infinities). -/
theorem C102_writes (m : List (Bytes × G F)) : marshalM fmt ord (some m) ≠ none ↔ Finite fmt (.map m) := enc_finite _

/-- The text does not depend on the order of iteration. -/
theorem C102_order {ord' : List (Bytes × Bytes) → List (Bytes × Bytes)} (ho : Order ord) (ho' : Order ord') (m : List (Bytes × G F))
    (hc : Canon (.map m)) : marshalM fmt ord (some m) = marshalM fmt ord' (some m) := enc_order ho ho' _ hc

/-- A nil map is written as `null`, and that reads as a nil map. -/
theorem C102_nil : marshalM fmt ord (none : Option (List (Bytes × G F))) = some (ascii "null") ∧
    unmarshalM pf (ascii "null") = some none :=
  ⟨rfl, (C101_null _).2 ⟨[], [], by intro c hc; simp at hc, by intro c hc; simp at hc, by simp⟩⟩

/-- What has been read can be written, and reads the same again. -/
theorem C102_stable (hl : FloatLaws fmt pf ofInt) (ho : Order ord) (b : Bytes) (m : List (Bytes × G F)) (h : unmarshalM pf b = some (some m)) :
    ∃ b', marshalM fmt ord (some m) = some b' ∧ unmarshalM pf b' = some (some m) := by
  obtain ⟨ts, h1, h2⟩ := (C101_partial b m).1 h
  obtain ⟨s1, s2, s3, s4⟩ := means_shape hl h2 (spells_valid h1)
  cases hm : marshalM fmt ord (some m) with
  | none => exact absurd hm ((C102_writes m).2 s3)
  | some b' => exact ⟨b', rfl, (C102_partial hl ho m b' s2 hm).2 ⟨s1, s4⟩⟩

/-! ## There are floats with these laws, and what goes wrong -/

open Classical in
noncomputable def pfInt (t : Bytes) : Option Int := if h : ∃ n, t = itoa n then some (Classical.choose h) else none

theorem pfInt_itoa (n : Int) : pfInt (itoa n) = some n := by
  unfold pfInt
  have h : ∃ k, itoa n = itoa k := ⟨n, rfl⟩
  rw [dif_pos h]
  exact congrArg some (Confs.itoa_inj (Classical.choose_spec h)).symm

theorem laws_int : FloatLaws (fun n => some (itoa n)) pfInt id :=
  ⟨fun x t h => by simp at h; subst h; exact ⟨itoa_num x, pfInt_itoa x⟩, fun n _ _ => pfInt_itoa n, fun _ _ _ => by simp⟩

theorem order_id : Order id := fun _ => List.Perm.refl _

/-- A map of one entry. -/
theorem one_text (v : G F) (t : Bytes) (h : enc fmt id v = some t) :
    ∃ b, marshalM fmt id (some [([97], v)]) = some b := by
  simp only [marshalM, enc, encMap, h, Option.map_some]
  exact ⟨_, rfl⟩

theorem canon_one {v : G F} (h : Canon v) : Canon (.map [([97], v)]) := ⟨by simp, h, trivial⟩

/-- Integers come back as floats; nil slices and nil maps as nil; a string that is not UTF-8 changes. -/
theorem C102_changes (hl : FloatLaws fmt pf ofInt) : ∀ v : G F, (∃ n, v = .int n ∧ -2 ^ 63 ≤ n ∧ n < 2 ^ 64) ∨ v = .nilSlice ∨ v = .nilMap ∨ v = .str [0xff] →
    ∃ b w, marshalM fmt id (some [([97], v)]) = some b ∧ unmarshalM pf b = some (some [([97], w)]) ∧ w ≠ v := by
  have va : Valid [97] := ⟨[97], by decide, rfl⟩
  intro v hv
  have hcv : Canon v := by
    rcases hv with ⟨n, rfl, h⟩ | rfl | rfl | rfl
    · exact h
    · trivial
    · trivial
    · trivial
  have hdv : depth v = 0 := by
    rcases hv with ⟨n, rfl, h⟩ | rfl | rfl | rfl <;> rfl
  have hnp : ¬ Plain v := by
    rcases hv with ⟨n, rfl, h⟩ | rfl | rfl | rfl
    · exact id
    · exact id
    · exact id
    · rintro ⟨rs, h1, h2⟩
      cases rs with
      | nil => simp [utf8] at h2
      | cons r rs =>
        have h3 : utf8 (r :: rs) = encodeRune r ++ utf8 rs := rfl
        rw [h3] at h2
        exact decode_bad (by decide) (h1 r (by simp)) _ h2
  obtain ⟨t, ht⟩ : ∃ t, enc fmt id v = some t := by
    rcases hv with ⟨n, rfl, h⟩ | rfl | rfl | rfl <;> exact ⟨_, rfl⟩
  obtain ⟨b, hb⟩ := one_text v t ht
  have hd : depth (.map [([97], v)]) ≤ 10000 := by simp [depth, depthM, hdv]
  obtain ⟨m', h1, h2⟩ := C102_seen hl order_id _ b (canon_one hcv) hb hd
  obtain ⟨l', m'', ⟨k', w, r, hk, hw, hr, rfl⟩, h4, h5⟩ := h1
  simp only [SeenM] at hr
  subst hr
  simp at h5
  subst h5
  have hk' := clean_eq hk va
  subst hk'
  have hm : m' = [([97], w)] := isMap_unique h4 (isMap_self (by simp [Sorted]))
  subst hm
  refine ⟨b, w, hb, h2, ?_⟩
  rintro rfl
  exact hnp (seen_self _ hw)

theorem C102_violated : ¬ C102Claim := by
  intro h
  obtain ⟨b, w, h1, h2, h3⟩ := C102_changes laws_int (.int 1) (.inl ⟨1, rfl, by decide, by decide⟩)
  have := h Int pfInt _ id id laws_int order_id _ b (canon_one (by simp [Canon])) h1
  rw [this] at h2
  simp at h2
  exact h3 h2.symm

/-- Slices in slices. -/
def tower : Nat → G F
  | 0 => .nil
  | n + 1 => .slice [tower n]

theorem tower_depth (n : Nat) : depth (tower n : G F) = n := by
  induction n with
  | zero => rfl
  | succ n ih => simp [tower, depth, depthL, ih]

/-- There are maps made of the right types that are written and cannot be read. -/
theorem C102_tower (hl : FloatLaws fmt pf ofInt) : ∃ (m : List (Bytes × G F)) (b : Bytes), Canon (.map m) ∧ Plain (.map m) ∧
    marshalM fmt id (some m) = some b ∧ unmarshalM pf b = none := by
  have hp : ∀ n, Plain (tower n : G F) ∧ Canon (tower n : G F) ∧ Finite fmt (tower n : G F) := by
    intro n
    induction n with
    | zero => exact ⟨trivial, trivial, trivial⟩
    | succ n ih => exact ⟨⟨ih.1, trivial⟩, ⟨ih.2.1, trivial⟩, ⟨ih.2.2, trivial⟩⟩
  have hc := canon_one (hp 10000).2.1
  have hf : Finite fmt (.map [([97], tower 10000)]) := ⟨(hp 10000).2.2, trivial⟩
  cases hm : marshalM fmt id (some [([97], tower 10000)]) with
  | none => exact absurd hm ((C102_writes _).2 hf)
  | some b =>
    refine ⟨_, b, hc, ⟨⟨[97], by decide, rfl⟩, (hp 10000).1, trivial⟩, hm, C102_deep hl order_id _ b hc hm ?_⟩
    simp [depth, depthM, tower_depth]

/-! Examples. -/

example : unmarshalM (fun t => if t = [49] then some (1 : Int) else none) (ascii " {\"a\" : [1, null, {}], \"b\\u00e9\":\"\\ud83d\\ude00\", \"a\":true} ") =
    some (some [(ascii "a", .bool true), (ascii "b" ++ [0xc3, 0xa9], .str [0xf0, 0x9f, 0x98, 0x80])]) := by rfl

example : unmarshalM (fun t => if t = [49] then some (1 : Int) else none) (ascii "[1]") = none := by rfl
example : unmarshalM (fun t => if t = [49] then some (1 : Int) else none) (ascii "{\"a\":01}") = none := by rfl
example : unmarshalM (fun t => if t = [49] then some (1 : Int) else none) (ascii "{\"a\":1,}") = none := by rfl

/-- The hypotheses of the round trip can be met. -/
example : ∃ b, marshalM (fun n => some (itoa n)) id (some [(ascii "a", .slice [.num (1 : Int), .str (ascii "<x>")])]) = some b ∧
    unmarshalM pfInt b = some (some [(ascii "a", .slice [.num 1, .str (ascii "<x>")])]) := by
  have hc : Canon (.map [(ascii "a", .slice [.num (1 : Int), .str (ascii "<x>")])]) := ⟨by simp, ⟨trivial, trivial, trivial⟩, trivial⟩
  have hp : Plain (.map [(ascii "a", .slice [.num (1 : Int), .str (ascii "<x>")])]) :=
    ⟨⟨[97], by decide, rfl⟩, ⟨trivial, ⟨[60, 120, 62], by decide, rfl⟩, trivial⟩, trivial⟩
  exact ⟨_, rfl, (C102_partial laws_int order_id _ _ hc rfl).2 ⟨hp, by decide⟩⟩

end Gears.Dto
