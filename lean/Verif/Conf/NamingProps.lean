import Verif.Conf.Naming

/-
Properties C50-C52: names of flags and environment variables.
-/

namespace Gears.Conf

/-! ## Specification -/

/-- Bytes as ASCII characters: 'A' to 'Z', 'a' to 'z', and the translation of the one into the other. -/
def isUpperByte (b : UInt8) : Bool := (Char.ofNat b.toNat).isUpper
def isLowerByte (b : UInt8) : Bool := (Char.ofNat b.toNat).isLower
def toLowerByte (b : UInt8) : UInt8 := UInt8.ofNat (Char.ofNat b.toNat).toLower.toNat
def toUpperByte (b : UInt8) : UInt8 := UInt8.ofNat (Char.ofNat b.toNat).toUpper.toNat

/-- Pieces of a path between dots. -/
def splitDots : Bytes → List Bytes
  | [] => [[]]
  | b :: bs =>
    if b = dot then [] :: splitDots bs
    else match splitDots bs with
      | w :: ws => (b :: w) :: ws
      | [] => [[b]]

/-- Parts of a piece: a new one begins before every upper-case letter. -/
def splitUpper : Bytes → List Bytes
  | [] => [[]]
  | [b] => [[b]]
  | b :: c :: bs =>
    if isUpperByte c then [b] :: splitUpper (c :: bs)
    else match splitUpper (c :: bs) with
      | w :: ws => (b :: w) :: ws
      | [] => [[b]]

/-- The words of a path. -/
def words (path : Bytes) : List Bytes := (splitDots path).flatMap splitUpper

/-! ## The functions on bytes -/

/-- A statement about bytes can be checked on the 256 of them. -/
theorem all_bytes {P : UInt8 → Prop} (h : ∀ i : Fin 256, P (UInt8.ofFin i)) (b : UInt8) : P b := by
  have := h b.toFin
  simpa using this

theorem isUpper_eq : isUpperByte = isUpperASCII :=
  funext (all_bytes (P := fun b => isUpperByte b = isUpperASCII b) (by decide +kernel))

theorem isLower_eq : isLowerByte = isLowerASCII :=
  funext (all_bytes (P := fun b => isLowerByte b = isLowerASCII b) (by decide +kernel))

theorem toLower_eq : toLowerByte = lowerASCII :=
  funext (all_bytes (P := fun b => toLowerByte b = lowerASCII b) (by decide +kernel))

theorem toUpper_eq : toUpperByte = upperASCII :=
  funext (all_bytes (P := fun b => toUpperByte b = upperASCII b) (by decide +kernel))

/-! ## The loops -/

/-- Both loops, as a recursive function. -/
def loop (sep : UInt8) (tr : UInt8 → UInt8) : Bool → Bytes → Bytes
  | _, [] => []
  | pd, b :: bs =>
    if isUpperASCII b then (if pd then [] else [sep]) ++ tr b :: loop sep tr false bs
    else if b = dot then sep :: loop sep tr true bs
    else tr b :: loop sep tr false bs

theorem lower_of_not_upper {b : UInt8} (h : isUpperASCII b = false) : lowerASCII b = b := by simp [lowerASCII, h]

theorem lower_not_upper {b : UInt8} (h : isLowerASCII b = true) : isUpperASCII b = false := by
  simp only [isLowerASCII, isUpperASCII, Bool.and_eq_true, decide_eq_true_eq, Bool.and_eq_false_iff,
    decide_eq_false_iff_not] at *
  right
  intro h'
  exact absurd (UInt8.le_trans h.1 h') (by decide)

theorem upper_of_upper {b : UInt8} (h : isUpperASCII b = true) : upperASCII b = b := by
  unfold upperASCII
  split
  · rename_i hl; rw [lower_not_upper hl] at h; simp at h
  · rfl

theorem flag_foldl (p : Bytes) (rs : Bytes) (pd : Bool) :
    (p.foldl flagStep (rs, pd)).1 = rs ++ loop dash lowerASCII pd p := by
  induction p generalizing rs pd with
  | nil => simp [loop]
  | cons b bs ih =>
    simp only [List.foldl_cons, flagStep, loop]
    cases hu : isUpperASCII b
    · by_cases hd : b = dot
      · simp [hd, ih]
      · simp [hd, ih, lower_of_not_upper hu]
    · cases pd <;> simp [ih]

theorem flagStyle_loop (p : Bytes) : flagStyle p = loop dash lowerASCII true p := by
  simp [flagStyle, flag_foldl]

theorem env_foldl (p : Bytes) (rs : Bytes) (pd : Bool) :
    (p.foldl envStep (rs, pd)).1 = rs ++ loop underscore upperASCII pd p := by
  induction p generalizing rs pd with
  | nil => simp [loop]
  | cons b bs ih =>
    simp only [List.foldl_cons, envStep, loop]
    cases hu : isUpperASCII b
    · by_cases hd : b = dot
      · simp [hd, ih]
      · simp [hd, ih]
    · cases pd <;> simp [ih, upper_of_upper hu]

theorem envStyle_loop (p : Bytes) : envStyle p = loop underscore upperASCII true p := by
  simp [envStyle, env_foldl]

/-! ## C50 -/

theorem splitDots_ne (p : Bytes) : splitDots p ≠ [] := by
  cases p with
  | nil => simp [splitDots]
  | cons b bs => simp only [splitDots]; (repeat' split) <;> simp

theorem splitUpper_ne (p : Bytes) : splitUpper p ≠ [] := by
  match p with
  | [] => simp [splitUpper]
  | [b] => simp [splitUpper]
  | b :: c :: bs => simp only [splitUpper]; (repeat' split) <;> simp

theorem words_dot (bs : Bytes) : words (dot :: bs) = [] :: words bs := by
  simp [words, splitDots, splitUpper]

theorem words_one (a : UInt8) (ha : a ≠ dot) : words [a] = [[a]] := by
  simp [words, splitDots, splitUpper, ha]

theorem words_cons_dot (a : UInt8) (bs : Bytes) (ha : a ≠ dot) : words (a :: dot :: bs) = [a] :: words bs := by
  simp [words, splitDots, splitUpper, ha]

theorem words_cons_upper (a b : UInt8) (bs : Bytes) (ha : a ≠ dot) (hb : b ≠ dot) (hu : isUpperASCII b = true) :
    words (a :: b :: bs) = [a] :: words (b :: bs) := by
  simp only [words, splitDots, ha, hb, if_false]
  cases h : splitDots bs with
  | nil => exact absurd h (splitDots_ne bs)
  | cons w ws => simp [splitUpper, isUpper_eq, hu]

theorem words_cons_other (a b : UInt8) (bs : Bytes) (ha : a ≠ dot) (hb : b ≠ dot) (hu : isUpperASCII b = false) :
    ∃ w ws, words (b :: bs) = w :: ws ∧ words (a :: b :: bs) = (a :: w) :: ws := by
  simp only [words, splitDots, ha, hb, if_false]
  cases h : splitDots bs with
  | nil => exact absurd h (splitDots_ne bs)
  | cons w ws =>
    simp only [List.flatMap_cons]
    cases h2 : splitUpper (b :: w) with
    | nil => exact absurd h2 (splitUpper_ne _)
    | cons x xs => exact ⟨x, xs ++ ws.flatMap splitUpper, by simp, by simp [splitUpper, isUpper_eq, hu, h2]⟩

theorem words_ne (p : Bytes) : words p ≠ [] := by
  simp only [words]
  cases h : splitDots p with
  | nil => exact absurd h (splitDots_ne p)
  | cons w ws =>
    simp only [List.flatMap_cons]
    cases h2 : splitUpper w with
    | nil => exact absurd h2 (splitUpper_ne _)
    | cons x xs => simp

theorem intercalate_cons_ne (sep : UInt8) (w : Bytes) (ws : List Bytes) (h : ws ≠ []) :
    List.intercalate [sep] (w :: ws) = w ++ sep :: List.intercalate [sep] ws := by
  cases ws with
  | nil => simp at h
  | cons x xs => simp [List.intercalate]

theorem intercalate_cons_cons (sep a : UInt8) (w : Bytes) (ws : List Bytes) :
    List.intercalate [sep] ((a :: w) :: ws) = a :: List.intercalate [sep] (w :: ws) := by
  cases ws with
  | nil => simp [List.intercalate]
  | cons x xs => simp [List.intercalate]

theorem loop_false (sep : UInt8) (tr : UInt8 → UInt8) (a : UInt8) (bs : Bytes) (ha : a ≠ dot) :
    List.intercalate [sep] ((words (a :: bs)).map (·.map tr)) = tr a :: loop sep tr false bs ∧
    List.intercalate [sep] ((words bs).map (·.map tr)) = loop sep tr true bs := by
  induction bs generalizing a with
  | nil => rw [words_one a ha]; simp [loop, List.intercalate, words, splitDots, splitUpper]
  | cons b bs ih =>
    by_cases hd : b = dot
    · subst hd
      have h2 := (ih 0 (by decide)).2
      rw [words_cons_dot a bs ha, words_dot]
      simp only [List.map_cons, List.map_nil]
      rw [intercalate_cons_ne _ _ _ (by simp [words_ne]), intercalate_cons_ne _ _ _ (by simp [words_ne]), h2]
      simp [loop, show isUpperASCII dot = false by decide]
    · have h1 := (ih b hd).1
      have ht : loop sep tr true (b :: bs) = tr b :: loop sep tr false bs := by
        simp only [loop]; split <;> simp [hd]
      refine ⟨?_, h1.trans ht.symm⟩
      cases hu : isUpperASCII b with
      | true =>
        rw [words_cons_upper a b bs ha hd hu, List.map_cons, intercalate_cons_ne _ _ _ (by simp [words_ne]), h1]
        simp [loop, hu]
      | false =>
        obtain ⟨w, ws, e1, e2⟩ := words_cons_other a b bs ha hd hu
        rw [e1] at h1
        rw [e2]
        simp only [List.map_cons] at h1 ⊢
        rw [intercalate_cons_cons, h1]
        simp [loop, hu, hd]

/-- C50: the flag name is the dash-joined lower-case words, the env name the underscore-joined upper-case words. -/
theorem C50_naming (path : Bytes) :
    flagStyle path = List.intercalate [dash] ((words path).map (·.map toLowerByte)) ∧
    envStyle path = List.intercalate [underscore] ((words path).map (·.map toUpperByte)) := by
  rw [toLower_eq, toUpper_eq, flagStyle_loop, envStyle_loop]
  exact ⟨(loop_false dash lowerASCII 0 path (by decide)).2.symm, (loop_false underscore upperASCII 0 path (by decide)).2.symm⟩

/-- Bytes of an ASCII string, for examples. -/
def ascii (s : String) : Bytes := s.toList.map (fun c => UInt8.ofNat c.toNat)

/-- The separators are the characters they are called. -/
theorem C50_separators : [dot, dash, underscore] = ascii ".-_" := by decide

example : words (ascii "Foo.BarBaz") = [ascii "Foo", ascii "Bar", ascii "Baz"] := by decide
example : flagStyle (ascii "Foo.BarBaz") = ascii "foo-bar-baz" := by decide
example : envStyle (ascii "Foo.BarBaz") = ascii "FOO_BAR_BAZ" := by decide

/-! ## C51 -/

theorem upper_lower (b : UInt8) : upperASCII (lowerASCII b) = upperASCII b := by
  revert b; exact all_bytes (by decide +kernel)

theorem lower_never_upper (b : UInt8) : isUpperASCII (lowerASCII b) = false := by
  revert b; exact all_bytes (by decide +kernel)

theorem upper_never_lower (b : UInt8) : isLowerASCII (upperASCII b) = false := by
  revert b; exact all_bytes (by decide +kernel)

theorem lower_dash (b : UInt8) : lowerASCII b = dash ↔ b = dash := by
  revert b; exact all_bytes (by decide +kernel)

theorem lower_dot (b : UInt8) : lowerASCII b = dot ↔ b = dot := by
  revert b; exact all_bytes (by decide +kernel)

theorem upper_dot (b : UInt8) : upperASCII b = dot ↔ b = dot := by
  revert b; exact all_bytes (by decide +kernel)

theorem env_of_flag (p : Bytes) (pd : Bool) (h : dash ∉ p) :
    loop underscore upperASCII pd p =
      (loop dash lowerASCII pd p).map (fun b => if b = dash then underscore else upperASCII b) := by
  induction p generalizing pd with
  | nil => rfl
  | cons b bs ih =>
    simp only [List.mem_cons, not_or] at h
    have hb : ¬ lowerASCII b = dash := fun e => h.1 ((lower_dash b).1 e).symm
    simp only [loop]
    split
    · cases pd <;> simp [ih _ h.2, hb, upper_lower]
    · split
      · simp [ih _ h.2]
      · simp [ih _ h.2, hb, upper_lower]

theorem loop_all (sep : UInt8) (tr : UInt8 → UInt8) (P : UInt8 → Prop) (hs : P sep) (ht : ∀ b, b ≠ dot → P (tr b))
    (p : Bytes) (pd : Bool) : ∀ b ∈ loop sep tr pd p, P b := by
  induction p generalizing pd with
  | nil => simp [loop]
  | cons a bs ih =>
    have hupper : isUpperASCII a = true → a ≠ dot := by rintro h rfl; simp [show isUpperASCII dot = false by decide] at h
    intro b hb
    simp only [loop] at hb
    split at hb
    · rename_i hu
      rcases List.mem_append.1 hb with h1 | h1
      · split at h1 <;> simp at h1; subst h1; exact hs
      · rcases List.mem_cons.1 h1 with rfl | h1
        · exact ht a (hupper hu)
        · exact ih _ b h1
    · split at hb
      · rcases List.mem_cons.1 hb with rfl | h1
        · exact hs
        · exact ih _ b h1
      · rename_i hd
        rcases List.mem_cons.1 hb with rfl | h1
        · exact ht a hd
        · exact ih _ b h1

/-- C51: for a path without dashes the env name is the upper-cased flag name with '_' for '-'. -/
theorem C51_env_of_flag (path : Bytes) (h : dash ∉ path) :
    envStyle path = (flagStyle path).map (fun b => if b = dash then underscore else toUpperByte b) := by
  rw [toUpper_eq, envStyle_loop, flagStyle_loop, env_of_flag path true h]

/-- C51: flag names contain neither upper-case letters nor dots, env names neither lower-case letters nor dots. -/
theorem C51_alphabet (path : Bytes) :
    (∀ b ∈ flagStyle path, isUpperByte b = false ∧ b ≠ dot) ∧ (∀ b ∈ envStyle path, isLowerByte b = false ∧ b ≠ dot) := by
  rw [isUpper_eq, isLower_eq, flagStyle_loop, envStyle_loop]
  refine ⟨loop_all _ _ (fun b => isUpperASCII b = false ∧ b ≠ dot) (by decide) ?_ path true,
    loop_all _ _ (fun b => isLowerASCII b = false ∧ b ≠ dot) (by decide) ?_ path true⟩
  · exact fun b hb => ⟨lower_never_upper b, fun e => hb ((lower_dot b).1 e)⟩
  · exact fun b hb => ⟨upper_never_lower b, fun e => hb ((upper_dot b).1 e)⟩

example : dash ∉ ascii "Foo.BarBaz" := by decide

/-! ## C52 -/

/-- The path of an exported field whose name, and whose ancestors' names, begin with an ASCII upper-case letter: the
names joined by dots. -/
structure Exported (names : List Bytes) : Prop where
  ne   : names ≠ []
  head : ∀ n ∈ names, ∃ u r, n = u :: r ∧ isUpperByte u = true
  dot  : ∀ n ∈ names, dot ∉ n

def pathOf (names : List Bytes) : Bytes := List.intercalate [dot] names

/-- Every dot is followed by an upper-case letter. -/
def DotsOk : Bytes → Prop
  | [] => True
  | b :: bs => (b = dot → ∃ u r, bs = u :: r ∧ isUpperASCII u = true) ∧ DotsOk bs

theorem dotsOk_of_nodot {p : Bytes} (h : dot ∉ p) : DotsOk p := by
  induction p with
  | nil => trivial
  | cons b bs ih =>
    simp only [List.mem_cons, not_or] at h
    exact ⟨fun e => absurd e.symm h.1, ih h.2⟩

theorem dotsOk_append {p q : Bytes} (h : dot ∉ p) (hq : DotsOk q) (hu : ∃ u r, q = u :: r ∧ isUpperASCII u = true) :
    DotsOk (p ++ dot :: q) := by
  induction p with
  | nil => exact ⟨fun _ => hu, hq⟩
  | cons b bs ih =>
    simp only [List.mem_cons, not_or] at h
    exact ⟨fun e => absurd e.symm h.1, ih h.2⟩

theorem exported_path {names : List Bytes} (h : Exported names) :
    DotsOk (pathOf names) ∧ ∃ u r, pathOf names = u :: r ∧ isUpperASCII u = true := by
  obtain ⟨ne, hd, dt⟩ := h
  induction names with
  | nil => simp at ne
  | cons n ns ih =>
    obtain ⟨u, r, rfl, hu⟩ := hd n (by simp)
    cases ns with
    | nil => exact ⟨dotsOk_of_nodot (by simpa [pathOf, List.intercalate] using dt (u :: r) (by simp)), u, r, by simp [pathOf, List.intercalate], isUpper_eq ▸ hu⟩
    | cons m ms =>
      obtain ⟨h1, h2⟩ := ih (by simp) (fun n hn => hd n (List.mem_cons_of_mem _ hn)) (fun n hn => dt n (List.mem_cons_of_mem _ hn))
      have e : pathOf ((u :: r) :: m :: ms) = (u :: r) ++ dot :: pathOf (m :: ms) := intercalate_cons_ne _ _ _ (by simp)
      rw [e]
      exact ⟨dotsOk_append (dt _ (by simp)) h1 h2, u, _, rfl, isUpper_eq ▸ hu⟩

theorem loop_filter (sep : UInt8) (tr : UInt8 → UInt8) (p : Bytes) (h : DotsOk p) :
    loop sep tr false p = loop sep tr false (p.filter (· ≠ dot)) := by
  induction p with
  | nil => rfl
  | cons b bs ih =>
    obtain ⟨h1, h2⟩ := h
    by_cases hd : b = dot
    · obtain ⟨u, r, rfl, hu⟩ := h1 hd
      have hud : u ≠ dot := by rintro rfl; simp [show isUpperASCII dot = false by decide] at hu
      have := ih h2
      subst hd
      simp only [List.filter_cons, hud, ne_eq, not_true_eq_false, not_false_eq_true, decide_true, decide_false, if_true,
        Bool.false_eq_true, if_false] at this ⊢
      rw [← this]
      simp [loop, hu, show isUpperASCII dot = false by decide]
    · simp only [List.filter_cons, hd, ne_eq, not_false_eq_true, decide_true, if_true]
      simp only [loop, hd, if_false, ih h2]

theorem loop_inj (sep : UInt8) (tr : UInt8 → UInt8)
    (hu : ∀ a b, isUpperASCII a = true → isUpperASCII b = true → tr a = tr b → a = b)
    (hl : ∀ a b, isUpperASCII a = false → isUpperASCII b = false → tr a = tr b → a = b)
    (hs : ∀ a, isUpperASCII a = false → tr a = sep → a = sep) :
    ∀ p q : Bytes, dot ∉ p → dot ∉ q → sep ∉ p → sep ∉ q → loop sep tr false p = loop sep tr false q → p = q
  | [], [], _, _, _, _, _ => rfl
  | [], b :: q, _, h, _, _, e => by
    simp only [List.mem_cons, not_or] at h
    simp only [loop] at e
    rw [if_neg (Ne.symm h.1)] at e
    split at e <;> simp at e
  | a :: p, [], h, _, _, _, e => by
    simp only [List.mem_cons, not_or] at h
    simp only [loop] at e
    rw [if_neg (Ne.symm h.1)] at e
    split at e <;> simp at e
  | a :: p, b :: q, h1, h2, h3, h4, e => by
    simp only [List.mem_cons, not_or] at h1 h2 h3 h4
    simp only [loop, Ne.symm h1.1, Ne.symm h2.1, if_false] at e
    cases ha : isUpperASCII a <;> cases hb : isUpperASCII b <;> simp [ha, hb] at e
    · rw [hl a b ha hb e.1, loop_inj sep tr hu hl hs p q h1.2 h2.2 h3.2 h4.2 e.2]
    · exact absurd (hs a ha e.1).symm h3.1
    · exact absurd (hs b hb e.1.symm).symm h4.1
    · rw [hu a b ha hb e.1, loop_inj sep tr hu hl hs p q h1.2 h2.2 h3.2 h4.2 e.2]

theorem loop_exported (sep : UInt8) (tr : UInt8 → UInt8) {names : List Bytes} (h : Exported names) :
    sep :: loop sep tr true (pathOf names) = loop sep tr false ((pathOf names).filter (· ≠ dot)) := by
  obtain ⟨h1, u, r, e, hu⟩ := exported_path h
  rw [← loop_filter sep tr _ h1, e]
  simp [loop, hu]

theorem loop_iff (sep : UInt8) (tr : UInt8 → UInt8)
    (hu : ∀ a b, isUpperASCII a = true → isUpperASCII b = true → tr a = tr b → a = b)
    (hl : ∀ a b, isUpperASCII a = false → isUpperASCII b = false → tr a = tr b → a = b)
    (hs : ∀ a, isUpperASCII a = false → tr a = sep → a = sep) (n m : List Bytes) (hn : Exported n) (hm : Exported m)
    (h1 : sep ∉ pathOf n) (h2 : sep ∉ pathOf m) :
    loop sep tr true (pathOf n) = loop sep tr true (pathOf m) ↔
      (pathOf n).filter (· ≠ dot) = (pathOf m).filter (· ≠ dot) := by
  have e1 := loop_exported sep tr hn
  have e2 := loop_exported sep tr hm
  constructor
  · intro e
    rw [e, e2] at e1
    exact (loop_inj sep tr hu hl hs _ _ (by simp) (by simp) (fun h => h2 (List.mem_filter.1 h).1)
      (fun h => h1 (List.mem_filter.1 h).1) e1).symm
  · intro e
    rw [e, ← e2] at e1
    simpa using e1

theorem upper_inj_upper : ∀ a b : UInt8, isUpperASCII a = true → isUpperASCII b = true → upperASCII a = upperASCII b → a = b := by
  intro a b ha hb; rw [upper_of_upper ha, upper_of_upper hb]; exact id

theorem upper_inj_other (a b : UInt8) (ha : isUpperASCII a = false) (hb : isUpperASCII b = false)
    (e : upperASCII a = upperASCII b) : a = b := by
  have h : ∀ c : UInt8, isUpperASCII c = false → lowerASCII (upperASCII c) = c := all_bytes (by decide +kernel)
  rw [← h a ha, ← h b hb, e]

theorem lower_inj_upper (a b : UInt8) (ha : isUpperASCII a = true) (hb : isUpperASCII b = true)
    (e : lowerASCII a = lowerASCII b) : a = b := by
  have h : ∀ c : UInt8, isUpperASCII c = true → upperASCII (lowerASCII c) = c := all_bytes (by decide +kernel)
  rw [← h a ha, ← h b hb, e]

/-- C52 for flags: two exported fields (field names beginning with an ASCII upper-case letter; Go identifiers contain
no dash) have the same flag name iff their paths are equal after deleting the dots. -/
theorem C52_flag (n m : List Bytes) (hn : Exported n) (hm : Exported m) (h1 : dash ∉ pathOf n) (h2 : dash ∉ pathOf m) :
    flagStyle (pathOf n) = flagStyle (pathOf m) ↔ (pathOf n).filter (· ≠ dot) = (pathOf m).filter (· ≠ dot) := by
  rw [flagStyle_loop, flagStyle_loop]
  refine loop_iff dash lowerASCII lower_inj_upper ?_ ?_ n m hn hm h1 h2
  · intro a b ha hb e; rwa [lower_of_not_upper ha, lower_of_not_upper hb] at e
  · intro a ha e; rwa [lower_of_not_upper ha] at e

/-- C52 for environment variables: the same for names without underscores.  Missing: names with underscores, where it
is false (`C52_env_violated`). -/
theorem C52_env_partial (n m : List Bytes) (hn : Exported n) (hm : Exported m) (h1 : underscore ∉ pathOf n)
    (h2 : underscore ∉ pathOf m) :
    envStyle (pathOf n) = envStyle (pathOf m) ↔ (pathOf n).filter (· ≠ dot) = (pathOf m).filter (· ≠ dot) := by
  rw [envStyle_loop, envStyle_loop]
  refine loop_iff underscore upperASCII upper_inj_upper upper_inj_other ?_ n m hn hm h1 h2
  have : ∀ a : UInt8, upperASCII a = underscore → a = underscore := all_bytes (by decide +kernel)
  exact fun a _ => this a

/-- C52 is violated for environment variables: the fields `A.B` and `A_b` are different also without dots and have
different flags, but share the environment variable `A_B`. -/
theorem C52_env_violated : ∃ n m : List Bytes, Exported n ∧ Exported m ∧
    (pathOf n).filter (· ≠ dot) ≠ (pathOf m).filter (· ≠ dot) ∧ envStyle (pathOf n) = envStyle (pathOf m) ∧
    flagStyle (pathOf n) ≠ flagStyle (pathOf m) :=
  ⟨[ascii "A", ascii "B"], [ascii "A_b"], ⟨by simp, by simp [ascii, isUpper_eq, isUpperASCII], by decide⟩,
    ⟨by simp, by simp [ascii, isUpper_eq, isUpperASCII], by decide⟩, by decide, by decide, by decide⟩

/-- C52 is violated for names that begin with an upper-case letter outside ASCII (here U+00C4, bytes C3 84): the paths
`A.Ä` and `AÄ` are equal without dots but have different names. -/
theorem C52_nonascii_violated : ∃ n m : List Bytes, n = [[65], [0xC3, 0x84]] ∧ m = [[65, 0xC3, 0x84]] ∧
    (pathOf n).filter (· ≠ dot) = (pathOf m).filter (· ≠ dot) ∧ flagStyle (pathOf n) ≠ flagStyle (pathOf m) ∧
    envStyle (pathOf n) ≠ envStyle (pathOf m) :=
  ⟨_, _, rfl, rfl, by decide, by decide, by decide⟩

/-- Non-vacuity: `Foo.BarBaz` and `FooBar.Baz` share their names. -/
example : Exported [ascii "Foo", ascii "BarBaz"] ∧ Exported [ascii "FooBar", ascii "Baz"] ∧
    dash ∉ pathOf [ascii "Foo", ascii "BarBaz"] ∧ underscore ∉ pathOf [ascii "Foo", ascii "BarBaz"] ∧
    flagStyle (pathOf [ascii "Foo", ascii "BarBaz"]) = flagStyle (pathOf [ascii "FooBar", ascii "Baz"]) :=
  ⟨⟨by simp, by simp [ascii, isUpper_eq, isUpperASCII], by decide⟩, ⟨by simp, by simp [ascii, isUpper_eq, isUpperASCII], by decide⟩, by decide,
    by decide, by decide⟩

end Gears.Conf
