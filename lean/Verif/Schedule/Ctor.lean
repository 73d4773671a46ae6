import Verif.Schedule.Model
import Verif.Common.Utf8

/-
C114: the constructors of tasks.
-/

namespace Gears.Schedule

open Gears.Str Gears.Utf8

/-- `unicode.IsSpace` -/
def isSpace (r : Nat) : Bool :=
  if r ≤ 0xFF then (9 ≤ r && r ≤ 13) || r = 32 || r = 0x85 || r = 0xA0
  else r = 0x1680 || (0x2000 ≤ r && r ≤ 0x200a) || r = 0x2028 || r = 0x2029 || r = 0x202f || r = 0x205f || r = 0x3000

/-- `strings.TrimLeftFunc(s, unicode.IsSpace)`, with fuel for the number of runes. -/
def trimLeft : Nat → Bytes → Bytes
  | 0, s => s
  | _, [] => []
  | n + 1, b :: l => if isSpace (decodeRune (b :: l)).1 then trimLeft n ((b :: l).drop (decodeRune (b :: l)).2) else b :: l

/-- `strings.TrimSpace(name) == ""`: nothing is left already before spaces at the end are removed. -/
def isBlank (name : Bytes) : Bool := (trimLeft name.length name).isEmpty

/-- `NewFixedDelayTask` (fixed_delay_task.go:36-64), `NewFixedRateTask` (fixed_rate_task.go:38-69): the text of the panic, or the
task; and whether it is printed that jobs may overlap. -/
def create (kind : Kind) (name : Bytes) (jobNil : Bool) (interval timeout : Int) : Except Bytes State × Bool :=
  if isBlank name then (.error (ascii "task name must not be blank"), false)
  else if timeout ≤ 0 then (.error (ascii "task[" ++ name ++ ascii "] timeout must > 0"), false)
  else if interval ≤ 0 then (.error (ascii "task[" ++ name ++ ascii "] interval must > 0"), false)
  else
    let warn := kind = .rate && interval ≤ timeout
    if jobNil then (.error (ascii "task[" ++ name ++ ascii "] job must be not nil"), warn)
    else (.ok ⟨kind, interval.toNat, timeout.toNat, 0, .new, false, false, 0, .none, .none, [], false, [], []⟩, warn)

/-! ## Specification -/

/-- White space in Unicode. -/
def White : List Nat :=
  [0x9, 0xA, 0xB, 0xC, 0xD, 0x20, 0x85, 0xA0, 0x1680, 0x2000, 0x2001, 0x2002, 0x2003, 0x2004, 0x2005, 0x2006, 0x2007, 0x2008, 0x2009,
    0x200A, 0x2028, 0x2029, 0x202F, 0x205F, 0x3000]

/-- The name consists of white space. -/
def Blank (name : Bytes) : Prop := ∃ rs, (∀ r ∈ rs, r ∈ White) ∧ name = utf8 rs

/-! ## Proofs -/

theorem white_iff (r : Nat) : isSpace r = true ↔ r ∈ White := by
  simp only [isSpace, White, List.mem_cons, List.not_mem_nil, or_false]
  split
  · simp only [Bool.or_eq_true, Bool.and_eq_true, decide_eq_true_eq]; omega
  · simp only [Bool.or_eq_true, Bool.and_eq_true, decide_eq_true_eq]; omega

theorem white_scalar {r : Nat} (h : r ∈ White) : Scalar r := by
  have : ∀ r ∈ White, Scalar r := by decide
  exact this r h

theorem trimLeft_nil (n : Nat) : trimLeft n [] = [] := by cases n <;> rfl

theorem trimLeft_iff : ∀ (n : Nat) (s : Bytes), s.length ≤ n → (trimLeft n s = [] ↔ Blank s)
  | _, [], _ => by rw [trimLeft_nil]; exact ⟨fun _ => ⟨[], by simp, rfl⟩, fun _ => rfl⟩
  | n + 1, b :: l, hn => by
    rw [trimLeft]
    rcases decode_cases (s := b :: l) (by simp) with h | ⟨r, rest, hr, e, h⟩
    · rw [h]
      rw [if_neg (by decide)]
      refine ⟨fun h => by simp at h, fun ⟨rs, h1, h2⟩ => ?_⟩
      cases rs with
      | nil => simp [utf8] at h2
      | cons r rs =>
        exact absurd h2 (decode_bad h (white_scalar (h1 r (by simp))) (utf8 rs))
    · rw [h]
      simp only
      by_cases hw : r ∈ White
      · rw [if_pos ((white_iff r).2 hw), e, List.drop_left]
        have hlen : rest.length ≤ n := by
          have h1 := congrArg List.length e
          have h2 : (encodeRune r).length ≠ 0 := fun h0 => encode_ne r (List.eq_nil_of_length_eq_zero h0)
          simp at h1 hn; omega
        rw [trimLeft_iff n rest hlen]
        constructor
        · rintro ⟨rs, h1, rfl⟩
          exact ⟨r :: rs, by simpa [hw] using h1, by simp [utf8]⟩
        · rintro ⟨rs, h1, h2⟩
          cases rs with
          | nil => simp [utf8] at h2; exact absurd h2.1 (encode_ne r)
          | cons r' rs =>
            have h3 : encodeRune r ++ rest = encodeRune r' ++ utf8 rs := by simpa [utf8] using h2
            have h4 := decode_encode (white_scalar (h1 r' (by simp))) (utf8 rs)
            rw [← h3, decode_encode hr] at h4
            simp at h4
            obtain ⟨rfl, -⟩ := h4
            exact ⟨rs, fun x hx => h1 x (by simp [hx]), List.append_cancel_left h3⟩
      · rw [if_neg (fun h => hw ((white_iff r).1 h))]
        refine ⟨fun h => by simp at h, fun ⟨rs, h1, h2⟩ => ?_⟩
        cases rs with
        | nil => simp [utf8] at h2
        | cons r' rs =>
          have h3 : b :: l = encodeRune r' ++ utf8 rs := by simpa [utf8] using h2
          have h4 := decode_encode (white_scalar (h1 r' (by simp))) (utf8 rs)
          rw [← h3, h] at h4
          simp at h4
          exact absurd (h4.1 ▸ h1 r' (by simp)) hw

theorem blank_iff (name : Bytes) : isBlank name = true ↔ Blank name := by
  unfold isBlank
  rw [List.isEmpty_iff]
  exact trimLeft_iff _ _ (Nat.le_refl _)

/-! ## C114 -/

/-- **C114.**  A task is created iff the name has a character that is no white space, interval and timeout are positive and there
is a job; it is not started, has run no job, and has the interval and the timeout that were given. -/
theorem C114_created (kind : Kind) (name : Bytes) (jobNil : Bool) (interval timeout : Int) :
    ((∃ s, (create kind name jobNil interval timeout).1 = .ok s) ↔ ¬ Blank name ∧ 0 < timeout ∧ 0 < interval ∧ jobNil = false) ∧
    ∀ s, (create kind name jobNil interval timeout).1 = .ok s →
      new kind interval timeout = some s ∧ s.kind = kind ∧ (s.interval : Int) = interval ∧ (s.timeout : Int) = timeout ∧
        s.status = .new ∧ s.stopSig = false ∧ s.starting = false ∧ s.no = 0 ∧ s.jobs = [] ∧ s.log = [] := by
  rw [← blank_iff]
  unfold create
  split
  · rename_i h; simp [h]
  · split
    · rename_i h; simp; omega
    · split
      · rename_i h; simp; omega
      · rename_i h0 h1 h2
        cases jobNil
        · rw [if_neg (by simp)]
          refine ⟨⟨fun _ => ⟨h0, by omega, by omega, rfl⟩, fun _ => ⟨_, rfl⟩⟩, fun s hs => ?_⟩
          simp at hs
          subst hs
          simp [new, h1, h2]; omega
        · simp

/-- **C114.**  A state a task can be in begins with such a creation. -/
theorem C114_new (kind : Kind) (interval timeout : Int) (s : State) :
    new kind interval timeout = some s ↔ (create kind (ascii "x") false interval timeout).1 = .ok s := by
  have hb : isBlank (ascii "x") = false := by decide +kernel
  unfold create new
  rw [hb]
  simp only [Bool.false_eq_true, if_false]
  split
  · simp
  · split <;> simp

/-- **C114.**  Otherwise the constructors panic; the first reason counts. -/
theorem C114_panics (kind : Kind) (name : Bytes) (jobNil : Bool) (interval timeout : Int) :
    (Blank name → (create kind name jobNil interval timeout).1 = .error (ascii "task name must not be blank")) ∧
    (¬ Blank name → timeout ≤ 0 → (create kind name jobNil interval timeout).1 = .error (ascii "task[" ++ name ++ ascii "] timeout must > 0")) ∧
    (¬ Blank name → 0 < timeout → interval ≤ 0 →
      (create kind name jobNil interval timeout).1 = .error (ascii "task[" ++ name ++ ascii "] interval must > 0")) ∧
    (¬ Blank name → 0 < timeout → 0 < interval → jobNil = true →
      (create kind name jobNil interval timeout).1 = .error (ascii "task[" ++ name ++ ascii "] job must be not nil")) := by
  rw [← blank_iff]
  unfold create
  refine ⟨fun h => by rw [if_pos h], fun h h1 => by rw [if_neg h, if_pos h1], fun h h1 h2 => by rw [if_neg h, if_neg (by omega), if_pos h2],
    fun h h1 h2 h3 => by rw [if_neg h, if_neg (by omega), if_neg (by omega)]; simp [h3]⟩

/-- **C114.**  Of a created task it is printed that jobs may overlap iff it is a FixedRateTask whose timeout is not shorter than the
interval. -/
theorem C114_warning (kind : Kind) (name : Bytes) (jobNil : Bool) (interval timeout : Int) (s : State)
    (h : (create kind name jobNil interval timeout).1 = .ok s) :
    (create kind name jobNil interval timeout).2 = true ↔ kind = .rate ∧ interval ≤ timeout := by
  have hc := (C114_created kind name jobNil interval timeout).1.1 ⟨s, h⟩
  rw [← blank_iff] at hc
  obtain ⟨h1, h2, h3, h4⟩ := hc
  unfold create
  rw [if_neg h1, if_neg (by omega), if_neg (by omega)]
  simp [h4]

example : Blank (ascii " \t") ∧ Blank [0xE3, 0x80, 0x80, 0x20] ∧ Blank [] :=
  ⟨⟨[0x20, 0x9], by decide, by decide +kernel⟩, ⟨[0x3000, 0x20], by decide, by decide +kernel⟩, ⟨[], by simp, rfl⟩⟩

example : ∃ s, (create .rate (ascii " t ") false 10 20).1 = .ok s ∧ (create .rate (ascii " t ") false 10 20).2 = true :=
  ⟨_, rfl, by decide +kernel⟩

example : isBlank [0x80] = false ∧ isBlank [0xC2, 0xA0] = true := by decide +kernel

end Gears.Schedule
