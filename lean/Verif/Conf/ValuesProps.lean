import Verif.Conf.Values
import Verif.Conf.FullProps
import Verif.Dto.Enc

/-
C103: which texts the fields of a configuration accept, and what they then hold.
-/

namespace Gears.Conf

open Gears.Str (itoa natDigits)

variable (str : Bytes → Int) (flt : Bytes → Option Int)

/-- Integers: exactly the integer literals of Go (with sign) in range. -/
theorem C103_int (k : Kind) (hk : k = .int ∨ k = .int64) (s : Bytes) (z : Int) :
    goPv str flt k s = some z ↔ IntText s z ∧ -2 ^ 63 ≤ z ∧ z < 2 ^ 63 := by
  rcases hk with rfl | rfl <;> exact parseInt0_iff s z

/-- Unsigned integers: no sign. -/
theorem C103_uint (k : Kind) (hk : k = .uint ∨ k = .uint64) (s : Bytes) (z : Int) :
    goPv str flt k s = some z ↔ ∃ n : Nat, z = n ∧ Literal s n ∧ n < 2 ^ 64 := by
  have : goPv str flt k s = (parseUint s).map Int.ofNat := by rcases hk with rfl | rfl <;> rfl
  rw [this, Option.map_eq_some_iff]
  constructor
  · rintro ⟨n, h1, rfl⟩; exact ⟨n, rfl, (parseUint_iff s n).1 h1⟩
  · rintro ⟨n, rfl, h⟩; exact ⟨n, (parseUint_iff s n).2 h, rfl⟩

/-- The texts of booleans. -/
def BoolText (s : Bytes) (z : Int) : Prop :=
    z = 1 ∧ s ∈ [Str.ascii "1", Str.ascii "t", Str.ascii "T", Str.ascii "true", Str.ascii "TRUE", Str.ascii "True"] ∨
    z = 0 ∧ s ∈ [Str.ascii "0", Str.ascii "f", Str.ascii "F", Str.ascii "false", Str.ascii "FALSE", Str.ascii "False"]

/-- Booleans: twelve texts. -/
theorem C103_bool (s : Bytes) (z : Int) : goPv str flt .bool s = some z ↔ BoolText s z := by
  unfold BoolText
  have dis : ∀ s : Bytes, s ∈ [Str.ascii "0", Str.ascii "f", Str.ascii "F", Str.ascii "false", Str.ascii "FALSE", Str.ascii "False"] →
      s ∉ [Str.ascii "1", Str.ascii "t", Str.ascii "T", Str.ascii "true", Str.ascii "TRUE", Str.ascii "True"] := by decide
  show (parseBool s).map _ = _ ↔ _
  unfold parseBool
  simp only [List.map_cons, List.map_nil]
  by_cases h1 : s ∈ [Str.ascii "1", Str.ascii "t", Str.ascii "T", Str.ascii "true", Str.ascii "TRUE", Str.ascii "True"]
  · rw [if_pos h1]
    constructor
    · intro h; simp at h; exact .inl ⟨h.symm, h1⟩
    · rintro (⟨rfl, -⟩ | ⟨-, h⟩)
      · rfl
      · exact absurd h1 (dis s h)
  · rw [if_neg h1]
    by_cases h2 : s ∈ [Str.ascii "0", Str.ascii "f", Str.ascii "F", Str.ascii "false", Str.ascii "FALSE", Str.ascii "False"]
    · rw [if_pos h2]
      constructor
      · intro h; simp at h; exact .inr ⟨h.symm, h2⟩
      · rintro (⟨-, h⟩ | ⟨rfl, -⟩)
        · exact absurd h h1
        · rfl
    · rw [if_neg h2]
      constructor
      · intro h; simp at h
      · rintro (⟨-, h⟩ | ⟨-, h⟩)
        · exact absurd h h1
        · exact absurd h h2

/-- A literal stands for one number. -/
theorem C103_unique (s : Bytes) (n m : Nat) (hn : n < 2 ^ 64) (hm : m < 2 ^ 64) (h : Literal s n) (h' : Literal s m) : n = m := by
  have h1 := (parseUint_iff s n).2 ⟨h, hn⟩
  have h2 := (parseUint_iff s m).2 ⟨h', hm⟩
  rw [h1] at h2
  simpa using h2

theorem litDigits_snoc {base acc n : Nat} {t : Bytes} {c : UInt8} {d : Nat} (h : LitDigits base acc t n) (hd : DigitOf base c d) :
    LitDigits base acc (t ++ [c]) (n * base + d) := by
  induction h with
  | last h => exact .next h (.last hd)
  | next h _ ih => exact .next h ih
  | sep h _ ih => exact .sep h ih

theorem natDigits_literal (n : Nat) : LitDigits 10 0 (natDigits n) n ∧ (n ≠ 0 → (natDigits n).head? ≠ some 48) := by
  have dig : ∀ d, d < 10 → DigitOf 10 (UInt8.ofNat (48 + d)) d := by
    intro d hd
    have : (UInt8.ofNat (48 + d)).toNat = 48 + d := Utf8.toNat_ofNat (by omega)
    exact ⟨hd, .inl (by omega)⟩
  induction n using Nat.strongRecOn with
  | ind n ih =>
    rw [natDigits]
    split
    · rename_i h
      have := LitDigits.last (base := 10) (acc := 0) (dig n h)
      refine ⟨by simpa using this, fun h0 he => ?_⟩
      simp only [List.head?_cons, Option.some.injEq] at he
      have h1 : (UInt8.ofNat (48 + n)).toNat = 48 + n := Utf8.toNat_ofNat (by omega)
      rw [he] at h1
      have : (48 : UInt8).toNat = 48 := rfl
      omega
    · rename_i h
      obtain ⟨h1, h2⟩ := ih (n / 10) (by omega)
      have := litDigits_snoc h1 (dig (n % 10) (by omega))
      refine ⟨by rwa [show n / 10 * 10 + n % 10 = n by omega] at this, fun _ => ?_⟩
      obtain ⟨c, r, d, he, -⟩ := litDigits_head h1
      have h3 := h2 (by omega)
      rw [he] at h3 ⊢
      simpa using h3

/-- The decimal text of a number is accepted, and gives the number. -/
theorem C103_decimal (k : Kind) (hk : k = .int ∨ k = .int64) (z : Int) (h1 : -2 ^ 63 ≤ z) (h2 : z < 2 ^ 63) :
    goPv str flt k (itoa z) = some z := by
  rw [C103_int str flt k hk]
  refine ⟨?_, h1, h2⟩
  have lit : ∀ n, Literal (natDigits n) n := by
    intro n
    by_cases h0 : n = 0
    · subst h0; rw [natDigits]; exact .zero
    · exact .decimal (natDigits_literal n).1 ((natDigits_literal n).2 h0)
  unfold itoa
  split
  · exact ⟨_, _, lit z.natAbs, .inr (.inr ⟨rfl, by omega⟩)⟩
  · exact ⟨_, _, lit z.natAbs, .inl ⟨rfl, by omega⟩⟩

/-- After `Load` the last text on the command line (else in the environment) for a field was one of the texts for its type, and the
field holds what it stands for; with any other text `Load` does not return. -/
theorem C103_load (env : Nat → Ty) (fuel : Nat) (w : World) (hw : w.pv = goPv str flt) (yamlFlag : Bytes) (fs : Fields) (v' : Val) (m : Mem)
    (h : loadConf env fuel w yamlFlag (.struct fs) = some (.done v' m)) (hn : NamesOk v') :
    ∃ isBool l eff, KnowsFlags w yamlFlag v' isBool ∧ ArgList isBool w.args l ∧ YamlOf w yamlFlag l eff ∧
      ∀ loc names k nm x, IsField v' loc names k nm x → ∃ i : Nat, FieldNo v' i loc ∧ ((∀ y, eff i ≠ .replace y) →
        ∀ s, (given l (flagOf names) = some s ∨ given l (flagOf names) = none ∧ w.env (envOf names) = some s) →
          (k = .int ∨ k = .int64 → ∃ z, IntText s z ∧ -2 ^ 63 ≤ z ∧ z < 2 ^ 63 ∧ fieldAfter v' m loc = some z) ∧
          (k = .uint ∨ k = .uint64 → ∃ n : Nat, Literal s n ∧ n < 2 ^ 64 ∧ fieldAfter v' m loc = some n) ∧
          (k = .bool → ∃ z, BoolText s z ∧ fieldAfter v' m loc = some z) ∧
          (k = .duration → ∃ d, Duration.parse s = some d ∧ fieldAfter v' m loc = some d) ∧
          (k = .string → fieldAfter v' m loc = some (str s))) := by
  obtain ⟨isBool, l, eff, h1, h2, h3, h4⟩ := C89_load_partial env fuel w yamlFlag fs v' m h hn
  refine ⟨isBool, l, eff, h1, h2, h3, fun loc names k nm x hf => ?_⟩
  obtain ⟨i, hno, -, hi⟩ := h4 loc names k nm x hf
  refine ⟨i, hno, fun hr s hs => ?_⟩
  obtain ⟨a1, a2, -, -⟩ := hi hr
  obtain ⟨b1, b2⟩ : w.pv k s ≠ none ∧ fieldAfter v' m loc = w.pv k s := by
    rcases hs with hs | ⟨hg, hs⟩
    · exact a1 s hs
    · exact a2 hg s hs
  rw [hw] at b1 b2
  obtain ⟨z, hz⟩ := Option.ne_none_iff_exists'.1 b1
  rw [hz] at b2
  refine ⟨fun hk => ?_, fun hk => ?_, ?_, ?_, ?_⟩
  · obtain ⟨c1, c2, c3⟩ := (C103_int str flt k hk s z).1 hz
    exact ⟨z, c1, c2, c3, b2⟩
  · obtain ⟨n, rfl, c1, c2⟩ := (C103_uint str flt k hk s z).1 hz
    exact ⟨n, c1, c2, b2⟩
  · rintro rfl; exact ⟨z, (C103_bool str flt s z).1 hz, b2⟩
  · rintro rfl; exact ⟨z, hz, b2⟩
  · rintro rfl; rw [b2, ← hz]; rfl

/-- A zero in front makes a number octal. -/
example : goPv str flt .int (Str.ascii "010") = some 8 ∧ goPv str flt .int (Str.ascii "08") = none ∧ goPv str flt .int (Str.ascii "-0x_Ff") = some (-255) ∧
    goPv str flt .uint (Str.ascii "1_000") = some 1000 ∧ goPv str flt .uint (Str.ascii "1__0") = none ∧ goPv str flt .uint (Str.ascii "+1") = none ∧
    goPv str flt .int (Str.ascii "-9223372036854775808") = some (-2 ^ 63) ∧ goPv str flt .int (Str.ascii "9223372036854775808") = none ∧
    goPv str flt .uint64 (Str.ascii "18446744073709551615") = some (2 ^ 64 - 1) ∧ goPv str flt .uint64 (Str.ascii "18446744073709551616") = none := by
  refine ⟨?_, ?_, ?_, ?_, ?_, ?_, ?_, ?_, ?_, ?_⟩ <;> simp only [goPv] <;> decide +kernel

end Gears.Conf
