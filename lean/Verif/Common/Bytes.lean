/-
Byte strings, and the functions of the packages strings, strconv, net/url and encoding/base64 of Go that several parts of
the repository use.
-/

namespace Gears.Str

abbrev Bytes := List UInt8

def ascii (s : String) : Bytes := s.toList.map (fun c => UInt8.ofNat c.toNat)

theorem all_bytes {P : UInt8 → Prop} (h : ∀ i : Fin 256, P (UInt8.ofFin i)) (b : UInt8) : P b := by
  have := h b.toFin
  simpa using this

/-! ## strings.Split and strings.Join -/

/-- `strings.Split` for a separator of one byte. -/
def split (sep : UInt8) : Bytes → List Bytes
  | [] => [[]]
  | c :: l =>
    if c = sep then [] :: split sep l
    else match split sep l with
      | [] => [[c]]
      | w :: ws => (c :: w) :: ws

/-- `strings.Join` for a separator of one byte. -/
def join (sep : UInt8) : List Bytes → Bytes
  | [] => []
  | [w] => w
  | w :: ws => w ++ sep :: join sep ws

theorem split_ne (sep : UInt8) (s : Bytes) : split sep s ≠ [] := by
  cases s with
  | nil => simp [split]
  | cons c l =>
    simp only [split]
    split
    · simp
    · split <;> simp

theorem join_cons (sep : UInt8) (w : Bytes) {ws : List Bytes} (h : ws ≠ []) : join sep (w :: ws) = w ++ sep :: join sep ws := by
  cases ws with
  | nil => exact absurd rfl h
  | cons v vs => rfl

theorem join_split (sep : UInt8) (s : Bytes) : join sep (split sep s) = s := by
  induction s with
  | nil => rfl
  | cons c l ih =>
    have hne := split_ne sep l
    simp only [split]
    split
    · rename_i h; rw [join_cons _ _ hne, ih, h]; rfl
    · cases hs : split sep l with
      | nil => exact absurd hs hne
      | cons w ws =>
        rw [hs] at ih
        cases ws with
        | nil => simp only [join] at ih ⊢; rw [ih]
        | cons v vs => simp only [join] at ih ⊢; rw [List.cons_append, ih]

theorem split_free (sep : UInt8) (s : Bytes) : ∀ w ∈ split sep s, sep ∉ w := by
  induction s with
  | nil => simp [split]
  | cons c l ih =>
    simp only [split]
    split
    · intro w hw
      rcases List.mem_cons.1 hw with rfl | hw
      · simp
      · exact ih w hw
    · rename_i h
      cases hs : split sep l with
      | nil => intro w hw; simp at hw; subst hw; simpa using Ne.symm h
      | cons v vs =>
        rw [hs] at ih
        intro w hw
        rcases List.mem_cons.1 hw with rfl | hw
        · rw [List.mem_cons, not_or]
          exact ⟨Ne.symm h, ih v (by simp)⟩
        · exact ih w (by simp [hw])

theorem split_of_free {sep : UInt8} : ∀ {s : Bytes}, sep ∉ s → split sep s = [s]
  | [], _ => rfl
  | c :: l, h => by
    rw [List.mem_cons, not_or] at h
    simp only [split, Ne.symm h.1, if_false, split_of_free h.2]

theorem split_append {sep : UInt8} : ∀ {w : Bytes} (s : Bytes), sep ∉ w → split sep (w ++ sep :: s) = w :: split sep s
  | [], s, _ => by simp [split]
  | c :: l, s, h => by
    rw [List.mem_cons, not_or] at h
    rw [List.cons_append]
    simp only [split, Ne.symm h.1, if_false, split_append s h.2]

theorem split_join {sep : UInt8} : ∀ {ws : List Bytes}, ws ≠ [] → (∀ w ∈ ws, sep ∉ w) → split sep (join sep ws) = ws
  | [], h, _ => absurd rfl h
  | [w], _, h => split_of_free (h w (by simp))
  | w :: v :: vs, _, h => by
    rw [join_cons _ _ (by simp), split_append _ (h w (by simp)), split_join (by simp) (fun x hx => h x (by simp at hx ⊢; exact .inr hx))]

/-- Two parts: one separator. -/
theorem split_two (sep : UInt8) (s a b : Bytes) : split sep s = [a, b] ↔ s = a ++ sep :: b ∧ sep ∉ a ∧ sep ∉ b := by
  constructor
  · intro h
    have h1 := join_split sep s
    have h2 := split_free sep s
    rw [h] at h1 h2
    exact ⟨h1.symm, h2 a (by simp), h2 b (by simp)⟩
  · rintro ⟨rfl, h1, h2⟩
    rw [split_append _ h1, split_of_free h2]

/-! ## strings.Cut and strings.LastIndex -/

/-- The parts before and after the first separator. -/
def cut (sep : UInt8) : Bytes → Bytes × Option Bytes
  | [] => ([], none)
  | c :: l => if c = sep then ([], some l) else (c :: (cut sep l).1, (cut sep l).2)

theorem cut_of_free {sep : UInt8} : ∀ {s : Bytes}, sep ∉ s → cut sep s = (s, none)
  | [], _ => rfl
  | c :: l, h => by
    rw [List.mem_cons, not_or] at h
    simp only [cut, Ne.symm h.1, if_false, cut_of_free h.2]

theorem cut_append {sep : UInt8} : ∀ {w : Bytes} (s : Bytes), sep ∉ w → cut sep (w ++ sep :: s) = (w, some s)
  | [], s, _ => by simp [cut]
  | c :: l, s, h => by
    rw [List.mem_cons, not_or] at h
    rw [List.cons_append]
    simp only [cut, Ne.symm h.1, if_false, cut_append s h.2]

theorem cut_some {sep : UInt8} : ∀ {s v : Bytes}, (cut sep s).2 = some v → s = (cut sep s).1 ++ sep :: v ∧ sep ∉ (cut sep s).1
  | [], v, h => by simp [cut] at h
  | c :: l, v, h => by
    simp only [cut] at h ⊢
    split
    · rename_i hc
      rw [if_pos hc] at h
      simp at h
      simp [h, hc]
    · rename_i hc
      rw [if_neg hc] at h
      obtain ⟨h1, h2⟩ := cut_some h
      refine ⟨by rw [List.cons_append, ← h1], ?_⟩
      rw [List.mem_cons, not_or]
      exact ⟨Ne.symm hc, h2⟩

theorem cut_none {sep : UInt8} : ∀ {s : Bytes}, (cut sep s).2 = none → (cut sep s).1 = s ∧ sep ∉ s
  | [], _ => by simp [cut]
  | c :: l, h => by
    simp only [cut] at h ⊢
    split
    · rename_i hc; rw [if_pos hc] at h; simp at h
    · rename_i hc
      rw [if_neg hc] at h
      obtain ⟨h1, h2⟩ := cut_none h
      exact ⟨by rw [h1], by rw [List.mem_cons, not_or]; exact ⟨Ne.symm hc, h2⟩⟩

/-- The parts before and after the last separator. -/
def cutLast (sep : UInt8) : Bytes → Option (Bytes × Bytes)
  | [] => none
  | c :: l =>
    match cutLast sep l with
    | some (a, b) => some (c :: a, b)
    | none => if c = sep then some ([], l) else none

theorem cutLast_of_free {sep : UInt8} : ∀ {s : Bytes}, sep ∉ s → cutLast sep s = none
  | [], _ => rfl
  | c :: l, h => by
    rw [List.mem_cons, not_or] at h
    simp [cutLast, cutLast_of_free h.2, Ne.symm h.1]

theorem cutLast_append {sep : UInt8} : ∀ (a : Bytes) {b : Bytes}, sep ∉ b → cutLast sep (a ++ sep :: b) = some (a, b)
  | [], b, h => by simp [cutLast, cutLast_of_free h]
  | c :: a, b, h => by simp [cutLast, cutLast_append a h]

/-! ## strconv.Itoa -/

/-- The decimal digits. -/
def natDigits (n : Nat) : Bytes :=
  if n < 10 then [UInt8.ofNat (48 + n)] else natDigits (n / 10) ++ [UInt8.ofNat (48 + n % 10)]

def itoa (z : Int) : Bytes := if z < 0 then 45 :: natDigits z.natAbs else natDigits z.natAbs

/-! ## net/url: query escaping -/

def isHex (c : UInt8) : Bool := (97 ≤ c && c ≤ 102) || (65 ≤ c && c ≤ 70) || (48 ≤ c && c ≤ 57)

/-- `unhex` -/
def unhex (c : UInt8) : UInt8 :=
  if 48 ≤ c ∧ c ≤ 57 then c - 48
  else if 97 ≤ c ∧ c ≤ 102 then c - 97 + 10
  else if 65 ≤ c ∧ c ≤ 70 then c - 65 + 10
  else 0

/-- `unescape`; `plus`: '+' is a space (`QueryUnescape`), or not (user info, path). -/
def unescape (plus : Bool) : Bytes → Option Bytes
  | [] => some []
  | 37 :: a :: b :: l =>
    if isHex a && isHex b then (unescape plus l).map (fun r => (unhex a * 16 + unhex b) :: r) else none
  | c :: l =>
    if c = 37 then none
    else if c = 43 && plus then (unescape plus l).map (fun r => 32 :: r)
    else (unescape plus l).map (fun r => c :: r)

/-- `QueryUnescape` -/
def queryUnescape (s : Bytes) : Option Bytes := unescape true s

/-- The bytes that are not escaped by `QueryEscape`. -/
def unreserved (c : UInt8) : Bool :=
  (97 ≤ c && c ≤ 122) || (65 ≤ c && c ≤ 90) || (48 ≤ c && c ≤ 57) || c = 45 || c = 95 || c = 46 || c = 126

/-- A digit of "0123456789ABCDEF" -/
def upperhex (n : UInt8) : UInt8 := if n < 10 then 48 + n else 55 + n

/-- `QueryEscape` -/
def queryEscape : Bytes → Bytes
  | [] => []
  | c :: l =>
    if c = 32 then 43 :: queryEscape l
    else if unreserved c then c :: queryEscape l
    else 37 :: upperhex (c / 16) :: upperhex (c % 16) :: queryEscape l

theorem hex_roundtrip : ∀ c : UInt8, isHex (upperhex (c / 16)) = true ∧ isHex (upperhex (c % 16)) = true ∧
    unhex (upperhex (c / 16)) * 16 + unhex (upperhex (c % 16)) = c := all_bytes (by decide +kernel)

theorem unreserved_plain : ∀ c : UInt8, unreserved c = true → c ≠ 37 ∧ c ≠ 43 ∧ c ≠ 32 ∧ c ≠ 38 ∧ c ≠ 61 ∧ c ≠ 44 ∧ c ≠ 35 ∧
    c ≠ 63 ∧ c ≠ 47 ∧ c ≠ 58 ∧ c ≠ 64 ∧ c ≠ 59 := all_bytes (by decide +kernel)

theorem unescape_plain {plus : Bool} {c : UInt8} {l : Bytes} (h1 : c ≠ 37) (h2 : plus = true → c ≠ 43) :
    unescape plus (c :: l) = (unescape plus l).map (fun r => c :: r) := by
  have h3 : (c = 43 && plus) = false := by
    cases plus
    · simp
    · simp [h2 rfl]
  cases l with
  | nil => simp [unescape, h1, h3]
  | cons a l =>
    cases l with
    | nil =>
      rw [unescape.eq_def]
      simp [h1, h3]
    | cons b l =>
      rw [unescape.eq_def]
      split
      · simp at *
      · rename_i heq; simp at heq; exact absurd heq.1 h1
      · rename_i heq; simp at heq; obtain ⟨rfl, rfl⟩ := heq; simp [h1, h3]

theorem unescape_percent {plus : Bool} {a b : UInt8} {l : Bytes} (h : isHex a = true ∧ isHex b = true) :
    unescape plus (37 :: a :: b :: l) = (unescape plus l).map (fun r => (unhex a * 16 + unhex b) :: r) := by
  simp [unescape, h]

/-- What was escaped comes back. -/
theorem unescape_escape (s : Bytes) : queryUnescape (queryEscape s) = some s := by
  unfold queryUnescape
  induction s with
  | nil => rfl
  | cons c l ih =>
    simp only [queryEscape]
    split
    · rename_i h
      subst h
      have : unescape true (43 :: queryEscape l) = (unescape true (queryEscape l)).map (fun r => 32 :: r) := by
        rw [unescape.eq_def]
        split
        · simp at *
        · rename_i heq; simp at heq
        · rename_i heq; simp at heq; obtain ⟨rfl, rfl⟩ := heq; simp
      rw [this, ih]; rfl
    · split
      · rename_i h
        have := unreserved_plain c h
        rw [unescape_plain this.1 (fun _ => this.2.1), ih]; rfl
      · obtain ⟨h1, h2, h3⟩ := hex_roundtrip c
        rw [unescape_percent ⟨h1, h2⟩, ih, h3]; rfl

theorem upperhex_unreserved : ∀ c : UInt8, unreserved (upperhex (c / 16)) = true ∧ unreserved (upperhex (c % 16)) = true :=
  all_bytes (by decide +kernel)

/-- What escaped text consists of. -/
theorem escape_bytes (s : Bytes) : ∀ c ∈ queryEscape s, unreserved c = true ∨ c = 37 ∨ c = 43 := by
  induction s with
  | nil => simp [queryEscape]
  | cons c l ih =>
    simp only [queryEscape]
    intro x hx
    split at hx
    · rcases List.mem_cons.1 hx with rfl | hx
      · simp
      · exact ih x hx
    · split at hx
      · rename_i h
        rcases List.mem_cons.1 hx with rfl | hx
        · exact .inl h
        · exact ih x hx
      · simp only [List.mem_cons] at hx
        obtain ⟨h1, h2⟩ := upperhex_unreserved c
        rcases hx with rfl | rfl | rfl | hx
        · simp
        · exact .inl h1
        · exact .inl h2
        · exact ih x hx

theorem unescape_unreserved (plus : Bool) (s : Bytes) (h : ∀ c ∈ s, unreserved c = true) : unescape plus s = some s := by
  induction s with
  | nil => rfl
  | cons c l ih =>
    have := unreserved_plain c (h c (by simp))
    rw [unescape_plain this.1 (fun _ => this.2.1), ih (fun x hx => h x (by simp [hx]))]; rfl

/-! ## encoding/base64.StdEncoding -/

/-- The alphabet A–Z a–z 0–9 + / -/
def b64char (n : Nat) : UInt8 :=
  if n < 26 then UInt8.ofNat (65 + n) else if n < 52 then UInt8.ofNat (71 + n) else if n < 62 then UInt8.ofNat (n - 4)
  else if n = 62 then 43 else 47

def b64val (c : UInt8) : Option Nat :=
  if 65 ≤ c ∧ c ≤ 90 then some (c.toNat - 65)
  else if 97 ≤ c ∧ c ≤ 122 then some (c.toNat - 71)
  else if 48 ≤ c ∧ c ≤ 57 then some (c.toNat + 4)
  else if c = 43 then some 62
  else if c = 47 then some 63
  else none

/-- `EncodeToString` -/
def b64encode : Bytes → Bytes
  | [] => []
  | [a] =>
    let n := a.toNat * 65536
    [b64char (n / 262144), b64char (n / 4096 % 64), 61, 61]
  | [a, b] =>
    let n := a.toNat * 65536 + b.toNat * 256
    [b64char (n / 262144), b64char (n / 4096 % 64), b64char (n / 64 % 64), 61]
  | a :: b :: c :: l =>
    let n := a.toNat * 65536 + b.toNat * 256 + c.toNat
    b64char (n / 262144) :: b64char (n / 4096 % 64) :: b64char (n / 64 % 64) :: b64char (n % 64) :: b64encode l

/-- `DecodeString`, on text without line breaks: quanta of four characters; the last may be padded; bits that are left
over are ignored. -/
def b64decodeQuanta : Bytes → Option Bytes
  | [] => some []
  | a :: b :: c :: d :: l =>
    match b64val a, b64val b with
    | some x, some y =>
      if c = 61 then
        if d = 61 ∧ l = [] then
          let n := x * 262144 + y * 4096
          some [UInt8.ofNat (n / 65536)]
        else none
      else match b64val c with
        | none => none
        | some z =>
          if d = 61 then
            if l = [] then
              let n := x * 262144 + y * 4096 + z * 64
              some [UInt8.ofNat (n / 65536), UInt8.ofNat (n / 256 % 256)]
            else none
          else match b64val d with
            | none => none
            | some w =>
              let n := x * 262144 + y * 4096 + z * 64 + w
              (b64decodeQuanta l).map fun r =>
                UInt8.ofNat (n / 65536) :: UInt8.ofNat (n / 256 % 256) :: UInt8.ofNat (n % 256) :: r
    | _, _ => none
  | _ => none

/-- `DecodeString`: line breaks are ignored. -/
def b64decode (s : Bytes) : Option Bytes := b64decodeQuanta (s.filter fun c => c ≠ 10 ∧ c ≠ 13)

theorem b64_roundtrip : ∀ n : Fin 64, b64val (b64char n) = some n.val ∧ b64char n ≠ 61 ∧ b64char n ≠ 10 ∧ b64char n ≠ 13 := by
  decide +kernel

theorem b64_rt {n : Nat} (h : n < 64) : b64val (b64char n) = some n ∧ b64char n ≠ 61 ∧ b64char n ≠ 10 ∧ b64char n ≠ 13 :=
  b64_roundtrip ⟨n, h⟩

theorem ofNat_toNat' (a : UInt8) {n : Nat} (h : n = a.toNat) : UInt8.ofNat n = a := by subst h; simp

theorem b64_quanta (s : Bytes) : b64decodeQuanta (b64encode s) = some s ∧ ∀ c ∈ b64encode s, c ≠ 10 ∧ c ≠ 13 := by
  have key : ∀ k, ∀ s : Bytes, s.length ≤ k → b64decodeQuanta (b64encode s) = some s ∧ ∀ c ∈ b64encode s, c ≠ 10 ∧ c ≠ 13 := by
    intro k
    induction k with
    | zero =>
      intro s hs
      have : s = [] := List.length_eq_zero_iff.1 (by omega)
      subst this
      exact ⟨rfl, by simp [b64encode]⟩
    | succ k ih =>
      intro s hs
      match s with
      | [] => exact ⟨rfl, by simp [b64encode]⟩
      | [a] =>
        have ha := a.toNat_lt
        have h1 := b64_rt (n := a.toNat * 65536 / 262144) (by omega)
        have h2 := b64_rt (n := a.toNat * 65536 / 4096 % 64) (by omega)
        refine ⟨?_, ?_⟩
        · simp only [b64encode, b64decodeQuanta, h1.1, h2.1, if_true, and_self]
          rw [ofNat_toNat' a (by omega)]
        · intro c hc
          simp only [b64encode, List.mem_cons, List.not_mem_nil, or_false] at hc
          rcases hc with rfl | rfl | rfl | rfl
          · exact h1.2.2
          · exact h2.2.2
          · decide
          · decide
      | [a, b] =>
        have ha := a.toNat_lt
        have hb := b.toNat_lt
        have h1 := b64_rt (n := (a.toNat * 65536 + b.toNat * 256) / 262144) (by omega)
        have h2 := b64_rt (n := (a.toNat * 65536 + b.toNat * 256) / 4096 % 64) (by omega)
        have h3 := b64_rt (n := (a.toNat * 65536 + b.toNat * 256) / 64 % 64) (by omega)
        refine ⟨?_, ?_⟩
        · simp only [b64encode, b64decodeQuanta, h1.1, h2.1, h3.1, h3.2.1, if_true, if_false]
          rw [ofNat_toNat' a (by omega), ofNat_toNat' b (by omega)]
        · intro c hc
          simp only [b64encode, List.mem_cons, List.not_mem_nil, or_false] at hc
          rcases hc with rfl | rfl | rfl | rfl
          · exact h1.2.2
          · exact h2.2.2
          · exact h3.2.2
          · decide
      | a :: b :: c :: l =>
        have ha := a.toNat_lt
        have hb := b.toNat_lt
        have hc := c.toNat_lt
        have h1 := b64_rt (n := (a.toNat * 65536 + b.toNat * 256 + c.toNat) / 262144) (by omega)
        have h2 := b64_rt (n := (a.toNat * 65536 + b.toNat * 256 + c.toNat) / 4096 % 64) (by omega)
        have h3 := b64_rt (n := (a.toNat * 65536 + b.toNat * 256 + c.toNat) / 64 % 64) (by omega)
        have h4 := b64_rt (n := (a.toNat * 65536 + b.toNat * 256 + c.toNat) % 64) (by omega)
        obtain ⟨i1, i2⟩ := ih l (by simp at hs; omega)
        refine ⟨?_, ?_⟩
        · simp only [b64encode, b64decodeQuanta, h1.1, h2.1, h3.1, h3.2.1, h4.1, h4.2.1, if_false, i1, Option.map_some]
          rw [ofNat_toNat' a (by omega), ofNat_toNat' b (by omega), ofNat_toNat' c (by omega)]
        · intro x hx
          simp only [b64encode, List.mem_cons] at hx
          rcases hx with rfl | rfl | rfl | rfl | hx
          · exact h1.2.2
          · exact h2.2.2
          · exact h3.2.2
          · exact h4.2.2
          · exact i2 x hx
  exact key _ s (Nat.le_refl _)

/-- What was encoded comes back. -/
theorem b64decode_encode (s : Bytes) : b64decode (b64encode s) = some s := by
  obtain ⟨h1, h2⟩ := b64_quanta s
  unfold b64decode
  rw [List.filter_eq_self.2 (fun c hc => by simpa using h2 c hc), h1]

example : b64encode (ascii "user:pass") = ascii "dXNlcjpwYXNz" ∧ b64encode (ascii "a") = ascii "YQ==" ∧
    b64decode (ascii "YQ=") = none ∧ queryEscape (ascii "a b/c") = ascii "a+b%2Fc" ∧ queryUnescape (ascii "%4") = none ∧
    itoa (-120) = ascii "-120" := by decide +kernel

/-! ## Substrings -/

def isPrefix : Bytes → Bytes → Bool
  | [], _ => true
  | _ :: _, [] => false
  | a :: p, b :: s => a = b && isPrefix p s

/-- `strings.Index(s, p) != -1` -/
def contains (p : Bytes) : Bytes → Bool
  | [] => isPrefix p []
  | c :: s => isPrefix p (c :: s) || contains p s

theorem isPrefix_iff (p : Bytes) : ∀ s, isPrefix p s = true ↔ ∃ r, s = p ++ r := by
  induction p with
  | nil => intro s; simp [isPrefix]
  | cons a p ih =>
    intro s
    cases s with
    | nil => simp [isPrefix]
    | cons b s =>
      simp only [isPrefix, Bool.and_eq_true, decide_eq_true_eq, List.cons_append, List.cons.injEq]
      rw [ih]
      constructor
      · rintro ⟨rfl, r, hr⟩; exact ⟨r, rfl, hr⟩
      · rintro ⟨r, rfl, hr⟩; exact ⟨rfl, r, hr⟩

theorem contains_iff (p : Bytes) : ∀ s, contains p s = true ↔ ∃ a b, s = a ++ p ++ b := by
  intro s
  induction s with
  | nil =>
    simp only [contains]
    rw [isPrefix_iff]
    constructor
    · rintro ⟨r, hr⟩; exact ⟨[], r, hr⟩
    · rintro ⟨a, b, h⟩
      simp at h
      obtain ⟨rfl, rfl, rfl⟩ := h
      exact ⟨[], rfl⟩
  | cons c s ih =>
    simp only [contains, Bool.or_eq_true]
    rw [isPrefix_iff, ih]
    constructor
    · rintro (⟨r, hr⟩ | ⟨a, b, h⟩)
      · exact ⟨[], r, hr⟩
      · exact ⟨c :: a, b, by simp [h]⟩
    · rintro ⟨a, b, h⟩
      cases a with
      | nil => exact .inl ⟨b, h⟩
      | cons x a => simp at h; exact .inr ⟨a, b, by simp [h.2]⟩

end Gears.Str
