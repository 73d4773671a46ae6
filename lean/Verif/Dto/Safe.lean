import Verif.Dto.Props

/-
The texts that `MarshalM` writes are UTF-8 and can stand inside an HTML script element.
-/

namespace Gears.Dto

open Gears.Str Gears.Utf8

variable {F : Type} {fmt : F → Option Bytes} {ord : List (Bytes × Bytes) → List (Bytes × Bytes)}

/-- UTF-8 without control characters, `<`, `>`, `&` and the line separators of JavaScript. -/
def Safe (b : Bytes) : Prop := ∃ rs, (∀ r ∈ rs, Scalar r ∧ 32 ≤ r ∧ r ∉ [60, 62, 38, 0x2028, 0x2029]) ∧ b = utf8 rs

theorem safe_nil : Safe [] := ⟨[], by simp, rfl⟩

theorem safe_append {a b : Bytes} : Safe a → Safe b → Safe (a ++ b) := by
  rintro ⟨rs, h1, rfl⟩ ⟨ss, h2, rfl⟩
  refine ⟨rs ++ ss, fun r hr => ?_, by simp [utf8]⟩
  rcases List.mem_append.1 hr with h | h
  · exact h1 r h
  · exact h2 r h

theorem safe_rune {r : Nat} (h : Scalar r ∧ 32 ≤ r ∧ r ∉ [60, 62, 38, 0x2028, 0x2029]) : Safe (encodeRune r) :=
  ⟨[r], by simpa using h, by simp [utf8]⟩

/-- The ASCII characters that may occur. -/
def safeByte (c : UInt8) : Bool := 32 ≤ c && c < 128 && c ≠ 60 && c ≠ 62 && c ≠ 38

theorem safe_byte {c : UInt8} (h : safeByte c = true) : Safe [c] := by
  simp only [safeByte, Bool.and_eq_true, decide_eq_true_eq, UInt8.le_iff_toNat_le, UInt8.lt_iff_toNat_lt, ne_eq] at h
  obtain ⟨⟨⟨⟨h1, h2⟩, h3⟩, h4⟩, h5⟩ := h
  have ne : ∀ {d : UInt8}, ¬ c = d → c.toNat ≠ d.toNat := fun hc he => hc (UInt8.toNat_inj.1 he)
  have h3 := ne h3
  have h4 := ne h4
  have h5 := ne h5
  have e1 : (32 : UInt8).toNat = 32 := rfl
  have e2 : (128 : UInt8).toNat = 128 := rfl
  have e3 : (60 : UInt8).toNat = 60 := rfl
  have e4 : (62 : UInt8).toNat = 62 := rfl
  have e5 : (38 : UInt8).toNat = 38 := rfl
  have := safe_rune (r := c.toNat) ⟨by unfold Scalar; omega, by omega, by simp; omega⟩
  rw [encode_ascii (by omega)] at this
  simpa using this

theorem safe_bytes {s : Bytes} (h : ∀ c ∈ s, safeByte c = true) : Safe s := by
  induction s with
  | nil => exact safe_nil
  | cons c s ih => exact safe_append (safe_byte (h c (by simp))) (ih fun x hx => h x (by simp [hx]))

theorem safe_digits {ds : Bytes} (h : ∀ d ∈ ds, Digit d) : Safe ds := by
  refine safe_bytes fun c hc => ?_
  have tab : ∀ i : Fin 256, (48 ≤ UInt8.ofFin i ∧ UInt8.ofFin i ≤ 57) → safeByte (UInt8.ofFin i) = true := by decide +kernel
  have hc' : c = UInt8.ofFin ⟨c.toNat, c.toNat_lt⟩ := by apply UInt8.toNat_inj.1; rfl
  have := h c hc
  rw [hc'] at this ⊢
  exact tab _ this

theorem safe_num {t : Bytes} (h : NumText t) : Safe t := by
  obtain ⟨s, i, f, e, rfl, hs, hi, hf, he⟩ := h
  refine safe_append (safe_append (safe_append ?_ ?_) ?_) ?_
  · rcases hs with rfl | rfl
    · exact safe_nil
    · exact safe_byte (by decide)
  · rcases hi with rfl | ⟨c, ds, rfl, h1, h2, h3⟩
    · exact safe_byte (by decide)
    · refine safe_digits fun d hd => ?_
      rcases List.mem_cons.1 hd with rfl | hd
      · exact ⟨UInt8.le_trans (by decide) h1, h2⟩
      · exact h3 d hd
  · rcases hf with rfl | ⟨ds, rfl, -, h⟩
    · exact safe_nil
    · exact safe_append (a := [46]) (safe_byte (by decide)) (safe_digits h)
  · rcases he with rfl | ⟨e, s, ds, rfl, h1, h2, -, h⟩
    · exact safe_nil
    · refine safe_append (a := e :: s) (safe_append (a := [e]) ?_ ?_) (safe_digits h)
      · rcases h1 with rfl | rfl <;> exact safe_byte (by decide)
      · rcases h2 with rfl | rfl | rfl
        · exact safe_nil
        · exact safe_byte (by decide)
        · exact safe_byte (by decide)

theorem safe_hex : ∀ {n : Nat}, n < 16 → safeByte (hexDigit n) = true := by
  have : ∀ i : Fin 16, safeByte (hexDigit i.1) = true := by unfold hexDigit; decide
  intro n hn
  exact this ⟨n, hn⟩

theorem safe_escRune {r : Nat} (hr : Scalar r) : Safe (escRune r) := by
  unfold escRune
  split
  · rename_i h80
    split
    · rename_i he
      rcases he with rfl | rfl <;> exact safe_bytes (by decide)
    · split
      · exact safe_bytes (by decide)
      · split
        · exact safe_bytes (by decide)
        · split
          · exact safe_bytes (by decide)
          · split
            · have h1 := safe_hex (n := r / 16) (by omega)
              have h2 := safe_hex (n := r % 16) (by omega)
              refine safe_append (a := [92, 117, 48, 48]) (safe_bytes (by decide)) (safe_bytes ?_)
              intro c hc
              rcases List.mem_cons.1 hc with rfl | hc
              · exact h1
              · rw [List.mem_singleton.1 hc]; exact h2
            · rename_i h1 h2 h3 h4 he
              rw [← encode_ascii h80]
              exact safe_rune ⟨hr, by omega, by simp; omega⟩
  · split
    · refine safe_append (a := [92, 117, 50, 48, 50]) (safe_bytes (by decide)) (safe_byte (safe_hex (by omega)))
    · exact safe_rune ⟨hr, by omega, by simp; omega⟩

theorem safe_quoteBody : ∀ (n : Nat) (s : Bytes), Safe (quoteBody n s)
  | 0, s => by unfold quoteBody; exact safe_nil
  | n + 1, [] => by unfold quoteBody; exact safe_nil
  | n + 1, b :: t => by
    unfold quoteBody
    simp only
    refine safe_append ?_ (safe_quoteBody n _)
    split
    · exact safe_bytes (by decide)
    · rename_i hd
      rcases decode_cases (s := b :: t) (by simp) with he | ⟨r, rest, hr, he, hdr⟩
      · exact absurd he hd
      · rw [hdr]; exact safe_escRune hr

theorem safe_quote (s : Bytes) : Safe (quote s) :=
  safe_append (a := 34 :: quoteBody s.length s) (safe_append (a := [34]) (safe_byte (by decide)) (safe_quoteBody _ _)) (safe_byte (by decide))

theorem safe_join : ∀ {l : List Bytes}, (∀ t ∈ l, Safe t) → Safe (join 44 l)
  | [], _ => safe_nil
  | [t], h => h t (by simp)
  | t :: u :: l, h => by
    show Safe (t ++ 44 :: join 44 (u :: l))
    exact safe_append (h t (by simp)) (safe_append (a := [44]) (safe_byte (by decide)) (safe_join fun x hx => h x (by simp at hx ⊢; tauto)))

mutual
theorem enc_safe (hf : ∀ x t, fmt x = some t → Safe t) (ho : Order ord) : ∀ (v : G F), Canon v → ∀ b, enc fmt ord v = some b → Safe b
  | .nil, _, b, h => by simp [enc] at h; subst h; exact safe_bytes (by decide)
  | .bool x, _, b, h => by
    simp [enc] at h; subst h
    cases x <;> exact safe_bytes (by decide)
  | .int n, hc, b, h => by simp [enc] at h; subst h; exact safe_num (itoa_num n)
  | .num x, _, b, h => by simp only [enc] at h; exact hf x b h
  | .str s, _, b, h => by simp [enc] at h; subst h; exact safe_quote s
  | .nilSlice, _, b, h => by simp [enc] at h; subst h; exact safe_bytes (by decide)
  | .nilMap, _, b, h => by simp [enc] at h; subst h; exact safe_bytes (by decide)
  | .slice l, hc, b, h => by
    simp only [enc, Option.map_eq_some_iff] at h
    obtain ⟨bs, hb, rfl⟩ := h
    exact safe_append (a := 91 :: join 44 bs) (safe_append (a := [91]) (safe_byte (by decide)) (safe_join (encList_safe hf ho l hc bs hb)))
      (safe_byte (by decide))
  | .map m, hc, b, h => by
    simp only [enc, Option.map_eq_some_iff] at h
    obtain ⟨bs, hb, rfl⟩ := h
    rw [encMap_order ho hb hc.1]
    refine safe_append (a := 123 :: join 44 _) (safe_append (a := [123]) (safe_byte (by decide)) (safe_join ?_)) (safe_byte (by decide))
    intro t ht
    obtain ⟨e, he, rfl⟩ := List.mem_map.1 ht
    exact safe_append (safe_quote _) (safe_append (a := [58]) (safe_byte (by decide)) (encMap_safe hf ho m hc.2 bs hb e he))

theorem encList_safe (hf : ∀ x t, fmt x = some t → Safe t) (ho : Order ord) : ∀ (l : List (G F)), CanonL l → ∀ bs, encList fmt ord l = some bs →
    ∀ t ∈ bs, Safe t
  | [], _, bs, h => by simp [encList] at h; subst h; simp
  | v :: l, hc, bs, h => by
    unfold encList at h
    split at h
    · rename_i t ts h1 h2
      simp at h
      subst h
      intro x hx
      rcases List.mem_cons.1 hx with rfl | hx
      · exact enc_safe hf ho v hc.1 _ h1
      · exact encList_safe hf ho l hc.2 ts h2 x hx
    · simp at h

theorem encMap_safe (hf : ∀ x t, fmt x = some t → Safe t) (ho : Order ord) : ∀ (l : List (Bytes × G F)), CanonM l → ∀ bs, encMap fmt ord l = some bs →
    ∀ e ∈ bs, Safe e.2
  | [], _, bs, h => by simp [encMap] at h; subst h; simp
  | (k, v) :: l, hc, bs, h => by
    unfold encMap at h
    split at h
    · rename_i t ts h1 h2
      simp at h
      subst h
      intro x hx
      rcases List.mem_cons.1 hx with rfl | hx
      · exact enc_safe hf ho v hc.1 _ h1
      · exact encMap_safe hf ho l hc.2 ts h2 x hx
    · simp at h
end

/-- Encodings of characters beyond ASCII consist of bytes beyond ASCII. -/
theorem encode_bytes_high {r : Nat} (h : 0x80 ≤ r) : ∀ c ∈ encodeRune r, 0x80 ≤ c.toNat := by
  intro c hc
  unfold encodeRune at hc
  rw [if_neg (by omega)] at hc
  split at hc
  · simp only [List.mem_cons, List.not_mem_nil, or_false] at hc
    rcases hc with rfl | rfl <;> (rw [toNat_ofNat (by omega)]; omega)
  · split at hc
    · simp only [List.mem_cons, List.not_mem_nil, or_false] at hc
      rcases hc with rfl | rfl | rfl <;> decide
    · split at hc
      · simp only [List.mem_cons, List.not_mem_nil, or_false] at hc
        rcases hc with rfl | rfl | rfl <;> (rw [toNat_ofNat (by omega)]; omega)
      · simp only [List.mem_cons, List.not_mem_nil, or_false] at hc
        rcases hc with rfl | rfl | rfl | rfl <;> (rw [toNat_ofNat (by omega)]; omega)

/-- Whatever bytes the strings of the map consist of, the text is UTF-8 and has no control characters, no `<`, `>`, `&`, U+2028, U+2029. -/
theorem C104_safe {pf : Bytes → Option F} {ofInt : Int → F} (hl : FloatLaws fmt pf ofInt) (ho : Order ord) (m : List (Bytes × G F)) (b : Bytes)
    (hc : Canon (.map m)) (h : marshalM fmt ord (some m) = some b) : Safe b :=
  enc_safe (fun x t hx => safe_num (hl.num x t hx).1) ho _ hc b h

/-- So these bytes do not occur in it. -/
theorem C104_html {pf : Bytes → Option F} {ofInt : Int → F} (hl : FloatLaws fmt pf ofInt) (ho : Order ord) (m : List (Bytes × G F)) (b : Bytes)
    (hc : Canon (.map m)) (h : marshalM fmt ord (some m) = some b) : ∀ c ∈ b, 32 ≤ c ∧ c ≠ 60 ∧ c ≠ 62 ∧ c ≠ 38 := by
  obtain ⟨rs, hr, rfl⟩ := C104_safe hl ho m b hc h
  intro c hcm
  obtain ⟨r, hrs, hcr⟩ := List.mem_flatMap.1 hcm
  obtain ⟨h1, h2, h3⟩ := hr r hrs
  by_cases h80 : r < 0x80
  · rw [encode_ascii h80, List.mem_singleton] at hcr
    subst hcr
    have e := toNat_ofNat (n := r) (by omega)
    simp only [List.mem_cons, not_or] at h3
    have ne : ∀ {d : UInt8}, r ≠ d.toNat → UInt8.ofNat r ≠ d := fun hd he => hd (by rw [← he, e])
    refine ⟨?_, ne h3.1, ne h3.2.1, ne h3.2.2.1⟩
    rw [UInt8.le_iff_toNat_le, e]; exact h2
  · have hb : 0x80 ≤ c.toNat := encode_bytes_high (by omega) c hcr
    have ne : ∀ {d : UInt8}, d.toNat < 0x80 → c ≠ d := fun hd he => by subst he; omega
    exact ⟨by rw [UInt8.le_iff_toNat_le]; exact Nat.le_trans (by decide) hb, ne (by decide), ne (by decide), ne (by decide)⟩

/-- A string with all of these characters, and a byte that is not UTF-8. -/
example : quote (ascii "<&>" ++ [10, 0xE2, 0x80, 0xA8, 0xff]) = ascii "\"\\u003c\\u0026\\u003e\\n\\u2028\\ufffd\"" := by decide +kernel

end Gears.Dto
