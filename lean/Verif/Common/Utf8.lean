import Verif.Common.Bytes

/-
UTF-8 as in the Go package unicode/utf8: `DecodeRune` and `EncodeRune`.
-/

namespace Gears.Utf8

open Gears.Str

/-- A Unicode scalar value. -/
def Scalar (r : Nat) : Prop := r < 0xD800 ∨ 0xE000 ≤ r ∧ r < 0x110000

instance (r : Nat) : Decidable (Scalar r) := inferInstanceAs (Decidable (_ ∨ _))

/-- `utf8.EncodeRune`: the replacement character stands for everything that is no scalar value. -/
def encodeRune (r : Nat) : Bytes :=
  if r < 0x80 then [UInt8.ofNat r]
  else if r < 0x800 then [UInt8.ofNat (0xC0 + r / 64), UInt8.ofNat (0x80 + r % 64)]
  else if 0xD800 ≤ r ∧ r < 0xE000 ∨ 0x110000 ≤ r then [0xEF, 0xBF, 0xBD]
  else if r < 0x10000 then [UInt8.ofNat (0xE0 + r / 4096), UInt8.ofNat (0x80 + r / 64 % 64), UInt8.ofNat (0x80 + r % 64)]
  else [UInt8.ofNat (0xF0 + r / 262144), UInt8.ofNat (0x80 + r / 4096 % 64), UInt8.ofNat (0x80 + r / 64 % 64), UInt8.ofNat (0x80 + r % 64)]

/-- The range of the second byte after first byte c. -/
def lo (c : Nat) : Nat := if c = 0xE0 then 0xA0 else if c = 0xF0 then 0x90 else 0x80
def hi (c : Nat) : Nat := if c = 0xED then 0x9F else if c = 0xF4 then 0x8F else 0xBF

/-- `utf8.DecodeRune`: the rune and its width; (U+FFFD, 1) if the bytes do not begin with an encoding. -/
def decodeRune : Bytes → Nat × Nat
  | [] => (0xFFFD, 0)
  | b0 :: s =>
    let c := b0.toNat
    if c < 0x80 then (c, 1)
    else if c < 0xC2 then (0xFFFD, 1)
    else if c < 0xE0 then
      match s with
      | b1 :: _ => if 0x80 ≤ b1.toNat ∧ b1.toNat ≤ 0xBF then ((c - 0xC0) * 64 + (b1.toNat - 0x80), 2) else (0xFFFD, 1)
      | _ => (0xFFFD, 1)
    else if c < 0xF0 then
      match s with
      | b1 :: b2 :: _ =>
        if (lo c ≤ b1.toNat ∧ b1.toNat ≤ hi c) ∧ 0x80 ≤ b2.toNat ∧ b2.toNat ≤ 0xBF then
          ((c - 0xE0) * 4096 + (b1.toNat - 0x80) * 64 + (b2.toNat - 0x80), 3)
        else (0xFFFD, 1)
      | _ => (0xFFFD, 1)
    else if c < 0xF5 then
      match s with
      | b1 :: b2 :: b3 :: _ =>
        if (lo c ≤ b1.toNat ∧ b1.toNat ≤ hi c) ∧ (0x80 ≤ b2.toNat ∧ b2.toNat ≤ 0xBF) ∧ 0x80 ≤ b3.toNat ∧ b3.toNat ≤ 0xBF then
          ((c - 0xF0) * 262144 + (b1.toNat - 0x80) * 4096 + (b2.toNat - 0x80) * 64 + (b3.toNat - 0x80), 4)
        else (0xFFFD, 1)
      | _ => (0xFFFD, 1)
    else (0xFFFD, 1)

/-- The UTF-8 encoding of a list of characters. -/
def utf8 (rs : List Nat) : Bytes := rs.flatMap encodeRune

/-- Valid UTF-8. -/
def Valid (s : Bytes) : Prop := ∃ rs, (∀ r ∈ rs, Scalar r) ∧ s = utf8 rs

theorem toNat_ofNat {n : Nat} (h : n < 256) : (UInt8.ofNat n).toNat = n := by
  rw [UInt8.toNat_ofNat']; omega

theorem encode_ne (r : Nat) : encodeRune r ≠ [] := by
  unfold encodeRune
  split
  · simp
  · split
    · simp
    · split
      · simp
      · split <;> simp

theorem decode_encode {r : Nat} (h : Scalar r) (rest : Bytes) : decodeRune (encodeRune r ++ rest) = (r, (encodeRune r).length) := by
  unfold Scalar at h
  unfold encodeRune
  split
  · simp only [List.singleton_append, decodeRune, toNat_ofNat (show r < 256 by omega)]
    rw [if_pos (by omega)]; rfl
  · split
    · simp only [List.cons_append, List.nil_append, decodeRune, toNat_ofNat (show 0xC0 + r / 64 < 256 by omega), toNat_ofNat (show 0x80 + r % 64 < 256 by omega)]
      rw [if_neg (by omega), if_neg (by omega), if_pos (by omega), if_pos (by omega)]
      exact Prod.ext (by show _ = r; omega) rfl
    · split
      · omega
      · split
        · simp only [List.cons_append, List.nil_append, decodeRune, toNat_ofNat (show 0xE0 + r / 4096 < 256 by omega),
            toNat_ofNat (show 0x80 + r / 64 % 64 < 256 by omega), toNat_ofNat (show 0x80 + r % 64 < 256 by omega)]
          rw [if_neg (by omega), if_neg (by omega), if_neg (by omega), if_pos (by omega), if_pos (by
            refine ⟨?_, by omega, by omega⟩
            unfold lo hi
            constructor
            · split
              · omega
              · split <;> omega
            · split
              · omega
              · split <;> omega)]
          exact Prod.ext (by show _ = r; omega) rfl
        · simp only [List.cons_append, List.nil_append, decodeRune, toNat_ofNat (show 0xF0 + r / 262144 < 256 by omega),
            toNat_ofNat (show 0x80 + r / 4096 % 64 < 256 by omega),
            toNat_ofNat (show 0x80 + r / 64 % 64 < 256 by omega), toNat_ofNat (show 0x80 + r % 64 < 256 by omega)]
          rw [if_neg (by omega), if_neg (by omega), if_neg (by omega), if_neg (by omega), if_pos (by omega), if_pos (by
            refine ⟨?_, by omega, by omega⟩
            unfold lo hi
            constructor
            · split
              · omega
              · split <;> omega
            · split
              · omega
              · split <;> omega)]
          exact Prod.ext (by show _ = r; omega) rfl

theorem ofNat_of {b : UInt8} {n : Nat} (h : n = b.toNat) : UInt8.ofNat n = b := ofNat_toNat' b h

/-- What `DecodeRune` finds is there; otherwise it says (U+FFFD, 1). -/
theorem decode_cases {s : Bytes} (hs : s ≠ []) : decodeRune s = (0xFFFD, 1) ∨
    ∃ r rest, Scalar r ∧ s = encodeRune r ++ rest ∧ decodeRune s = (r, (encodeRune r).length) := by
  cases s with
  | nil => exact absurd rfl hs
  | cons b0 s =>
    suffices h : decodeRune (b0 :: s) = (0xFFFD, 1) ∨ ∃ r rest, Scalar r ∧ b0 :: s = encodeRune r ++ rest by
      rcases h with h | ⟨r, rest, h1, h2⟩
      · exact .inl h
      · exact .inr ⟨r, rest, h1, h2, by rw [h2]; exact decode_encode h1 rest⟩
    have hb := b0.toNat_lt
    unfold decodeRune
    simp only
    split
    · refine .inr ⟨b0.toNat, s, by unfold Scalar; omega, ?_⟩
      unfold encodeRune
      rw [if_pos (by omega), ofNat_of rfl]; rfl
    · split
      · exact .inl rfl
      · split
        · cases s with
          | nil => exact .inl rfl
          | cons b1 s =>
            simp only
            split
            · refine .inr ⟨(b0.toNat - 0xC0) * 64 + (b1.toNat - 0x80), s, by unfold Scalar; omega, ?_⟩
              unfold encodeRune
              rw [if_neg (by omega), if_pos (by omega), ofNat_of (b := b0) (by omega), ofNat_of (b := b1) (by omega)]; rfl
            · exact .inl rfl
        · split
          · rcases s with _ | ⟨b1, _ | ⟨b2, s⟩⟩
            · exact .inl rfl
            · exact .inl rfl
            · simp only
              split
              · rename_i hc
                have hl : (b0.toNat = 0xE0 → 0xA0 ≤ b1.toNat) ∧ 0x80 ≤ b1.toNat ∧ b1.toNat ≤ 0xBF ∧ (b0.toNat = 0xED → b1.toNat ≤ 0x9F) := by
                  obtain ⟨⟨h1, h2⟩, -⟩ := hc
                  unfold lo at h1; unfold hi at h2
                  refine ⟨fun e => ?_, ?_, ?_, fun e => ?_⟩
                  · rw [if_pos e] at h1; exact h1
                  · split at h1
                    · omega
                    · split at h1 <;> omega
                  · split at h2
                    · omega
                    · split at h2 <;> omega
                  · rw [if_pos e] at h2; exact h2
                refine .inr ⟨(b0.toNat - 0xE0) * 4096 + (b1.toNat - 0x80) * 64 + (b2.toNat - 0x80), s, by unfold Scalar; omega, ?_⟩
                unfold encodeRune
                rw [if_neg (by omega), if_neg (by omega), if_neg (by omega), if_pos (by omega), ofNat_of (b := b0) (by omega),
                  ofNat_of (b := b1) (by omega), ofNat_of (b := b2) (by omega)]; rfl
              · exact .inl rfl
          · split
            · rcases s with _ | ⟨b1, _ | ⟨b2, _ | ⟨b3, s⟩⟩⟩
              · exact .inl rfl
              · exact .inl rfl
              · exact .inl rfl
              · simp only
                split
                · rename_i hc
                  have hl : (b0.toNat = 0xF0 → 0x90 ≤ b1.toNat) ∧ 0x80 ≤ b1.toNat ∧ b1.toNat ≤ 0xBF ∧ (b0.toNat = 0xF4 → b1.toNat ≤ 0x8F) := by
                    obtain ⟨⟨h1, h2⟩, -⟩ := hc
                    unfold lo at h1; unfold hi at h2
                    refine ⟨fun e => ?_, ?_, ?_, fun e => ?_⟩
                    · rw [if_neg (by omega), if_pos e] at h1; exact h1
                    · split at h1
                      · omega
                      · split at h1 <;> omega
                    · split at h2
                      · omega
                      · split at h2 <;> omega
                    · rw [if_neg (by omega), if_pos e] at h2; exact h2
                  refine .inr ⟨(b0.toNat - 0xF0) * 262144 + (b1.toNat - 0x80) * 4096 + (b2.toNat - 0x80) * 64 + (b3.toNat - 0x80), s,
                    by unfold Scalar; omega, ?_⟩
                  unfold encodeRune
                  rw [if_neg (by omega), if_neg (by omega), if_neg (by omega), if_neg (by omega), ofNat_of (b := b0) (by omega),
                    ofNat_of (b := b1) (by omega), ofNat_of (b := b2) (by omega), ofNat_of (b := b3) (by omega)]; rfl
                · exact .inl rfl
            · exact .inl rfl

/-- (U+FFFD, 1) means that no encoding is there. -/
theorem decode_bad {s : Bytes} (h : decodeRune s = (0xFFFD, 1)) {r : Nat} (hr : Scalar r) (rest : Bytes) : s ≠ encodeRune r ++ rest := by
  rintro rfl
  rw [decode_encode hr] at h
  have h1 := congrArg Prod.fst h
  have h2 := congrArg Prod.snd h
  simp only at h1 h2
  subst h1
  revert h2
  decide

theorem encode_ascii {r : Nat} (h : r < 0x80) : encodeRune r = [UInt8.ofNat r] := by unfold encodeRune; rw [if_pos h]

/-- Encodings of characters beyond ASCII begin with a byte beyond ASCII. -/
theorem encode_high {r : Nat} (h : 0x80 ≤ r) : ∃ b t, encodeRune r = b :: t ∧ 0x80 ≤ b.toNat := by
  unfold encodeRune
  rw [if_neg (by omega)]
  split
  · exact ⟨_, _, rfl, by rw [toNat_ofNat (by omega)]; omega⟩
  · split
    · exact ⟨_, _, rfl, by decide⟩
    · split
      · exact ⟨_, _, rfl, by rw [toNat_ofNat (by omega)]; omega⟩
      · exact ⟨_, _, rfl, by rw [toNat_ofNat (by omega)]; omega⟩

theorem encode_fffd {r : Nat} (h : ¬ Scalar r) : encodeRune r = encodeRune 0xFFFD := by
  unfold Scalar at h
  unfold encodeRune
  rw [if_neg (by omega), if_neg (by omega), if_pos (by omega)]
  decide

end Gears.Utf8
