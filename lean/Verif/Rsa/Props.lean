import Verif.Rsa.Model

/-
C76, C77, C86, C87.
-/

namespace Gears.Rsa

open Gears.Str

/-! ## C76 -/

/-- At how many places a text begins in another. -/
def occ (p : Bytes) : Bytes → Nat
  | [] => if isPrefix p [] then 1 else 0
  | c :: s => (if isPrefix p (c :: s) then 1 else 0) + occ p s

theorem contains_occ (p s : Bytes) : contains p s = true ↔ 0 < occ p s := by
  induction s with
  | nil => simp only [contains, occ]; split <;> simp_all
  | cons c s ih =>
    simp only [contains, occ, Bool.or_eq_true, ih]
    split <;> rename_i h <;> simp only [h, true_or, true_iff, false_or, Bool.false_eq_true] <;> omega

theorem isPrefix_line {p : Bytes} (hp : 10 ∉ p) (a b : Bytes) : isPrefix p (a ++ 10 :: b) = isPrefix p a := by
  induction p generalizing a with
  | nil => simp [isPrefix]
  | cons x p ih =>
    rw [List.mem_cons, not_or] at hp
    cases a with
    | nil => simp [isPrefix, Ne.symm hp.1]
    | cons y a => simp [isPrefix, ih hp.2]

/-- A text without newline lies within a line. -/
theorem occ_line {p : Bytes} (h0 : p ≠ []) (hp : 10 ∉ p) (a b : Bytes) : occ p (a ++ 10 :: b) = occ p a + occ p b := by
  induction a with
  | nil =>
    cases p with
    | nil => exact absurd rfl h0
    | cons x p =>
      rw [List.mem_cons, not_or] at hp
      simp [occ, isPrefix, Ne.symm hp.1]
  | cons c a ih =>
    simp only [List.cons_append, occ]
    rw [← List.cons_append, isPrefix_line hp, ih]
    omega

/-- The types of keys. -/
def Typ (typ : Bytes) : Prop := typ = ascii "RSA PRIVATE KEY" ∨ typ = ascii "PUBLIC KEY" ∨ typ = ascii "CERTIFICATE"

/-- Wrapped text. -/
def wrap (typ s : Bytes) : Bytes :=
  ascii "-----BEGIN " ++ typ ++ ascii "-----" ++ 10 :: (s ++ 10 :: (ascii "-----END " ++ typ ++ ascii "-----"))

def bMark : Bytes := ascii "-----BEGIN"
def eMark : Bytes := ascii "-----END"

theorem wrap_occ {typ : Bytes} (ht : Typ typ) (s : Bytes) :
    occ bMark (wrap typ s) = 1 + occ bMark s ∧ occ eMark (wrap typ s) = occ eMark s + 1 := by
  unfold wrap
  rw [occ_line (by decide +kernel) (by decide +kernel), occ_line (by decide +kernel) (by decide +kernel),
    occ_line (by decide +kernel) (by decide +kernel), occ_line (by decide +kernel) (by decide +kernel)]
  have h : occ bMark (ascii "-----BEGIN " ++ typ ++ ascii "-----") = 1 ∧ occ bMark (ascii "-----END " ++ typ ++ ascii "-----") = 0 ∧
      occ eMark (ascii "-----BEGIN " ++ typ ++ ascii "-----") = 0 ∧ occ eMark (ascii "-----END " ++ typ ++ ascii "-----") = 1 := by
    rcases ht with rfl | rfl | rfl <;> decide +kernel
  rw [h.1, h.2.1, h.2.2.1, h.2.2.2]
  exact ⟨by omega, by omega⟩

theorem normalize_eq (s typ : Bytes) : normalizePem s typ = if 0 < occ bMark s ∧ 0 < occ eMark s then s else wrap typ s := by
  unfold normalizePem
  have h1 := contains_occ bMark s
  have h2 := contains_occ eMark s
  have e1 : ascii "-----\n" = ascii "-----" ++ [10] := by decide +kernel
  have e2 : ascii "\n-----END " = 10 :: ascii "-----END " := by decide +kernel
  have hw : ascii "-----BEGIN " ++ typ ++ ascii "-----\n" ++ s ++ ascii "\n-----END " ++ typ ++ ascii "-----" = wrap typ s := by
    rw [e1, e2]; simp [wrap]
  rw [hw]
  change (if (!contains bMark s || !contains eMark s) = true then _ else _) = _
  cases hb : contains bMark s <;> cases he : contains eMark s <;> simp [hb, he] at h1 h2 <;> simp [h1, h2] <;> omega

/-- **C76** (idempotent; texts with both marks are kept; all others are put between a BEGIN and an END line). -/
theorem C76_normalize (typ : Bytes) (ht : Typ typ) (s : Bytes) :
    normalizePem (normalizePem s typ) typ = normalizePem s typ ∧
    (0 < occ bMark s → 0 < occ eMark s → normalizePem s typ = s) ∧
    (occ bMark s = 0 ∨ occ eMark s = 0 → normalizePem s typ =
      ascii "-----BEGIN " ++ typ ++ ascii "-----" ++ 10 :: (s ++ 10 :: (ascii "-----END " ++ typ ++ ascii "-----"))) := by
  refine ⟨?_, fun h1 h2 => by rw [normalize_eq, if_pos ⟨h1, h2⟩], fun h => by rw [normalize_eq, if_neg (by omega)]; rfl⟩
  rw [normalize_eq s]
  split
  · rename_i h; rw [normalize_eq, if_pos h]
  · have := wrap_occ ht s
    rw [normalize_eq, if_pos (by omega)]

/-- The full statement about the pairs of marks. -/
def C76Claim : Prop := ∀ typ, Typ typ → ∀ s, occ bMark s = 0 ∨ occ eMark s = 0 →
  occ bMark (normalizePem s typ) = 1 ∧ occ eMark (normalizePem s typ) = 1

/-- **C76** does not hold for a text with one mark only: it gets a second one. -/
theorem C76_violated : ¬ C76Claim := by
  intro h
  have := (h (ascii "PUBLIC KEY") (.inr (.inl rfl)) (ascii "-----BEGIN PUBLIC KEY-----") (by decide +kernel)).1
  revert this
  decide +kernel

/-- **C76**, what holds: a text without marks gets exactly one pair. -/
theorem C76_partial (typ : Bytes) (ht : Typ typ) (s : Bytes) (h1 : occ bMark s = 0) (h2 : occ eMark s = 0) :
    occ bMark (normalizePem s typ) = 1 ∧ occ eMark (normalizePem s typ) = 1 := by
  rw [normalize_eq, if_neg (by omega)]
  have := wrap_occ ht s
  omega

example : occ bMark (normalizePem (ascii "QUJD") (ascii "CERTIFICATE")) = 1 := by decide +kernel

/-! ## C77 -/

variable {K : Type}

/-- Private key and certificate: what the readers give. -/
def Good (dec : Bytes → Option Block) (parse : Bytes → Option K) (typ s : Bytes) (k : K) : Prop :=
  ∃ b, dec s = some b ∧ b.type = typ ∧ parse b.bytes = some k

/-- **C77**, what holds: the readers of private keys and certificates never panic, give the key of a block of the right
type, and an error otherwise; the reader of public keys does so if the block holds no key of another kind. -/
theorem C77_partial (dec : Bytes → Option Block) (s : Bytes) :
    (∀ parse : Bytes → Option K, readPrivateKeyBytes dec parse s ≠ .panic ∧
      (∀ k, readPrivateKeyBytes dec parse s = .ok k ↔ Good dec parse (ascii "RSA PRIVATE KEY") s k) ∧
      ((∀ k, ¬ Good dec parse (ascii "RSA PRIVATE KEY") s k) → readPrivateKeyBytes dec parse s = .err)) ∧
    (∀ parse : Bytes → Option K, readX509CertificateBytes dec parse s ≠ .panic ∧
      (∀ k, readX509CertificateBytes dec parse s = .ok k ↔ Good dec parse (ascii "CERTIFICATE") s k) ∧
      ((∀ k, ¬ Good dec parse (ascii "CERTIFICATE") s k) → readX509CertificateBytes dec parse s = .err)) ∧
    (∀ parse : Bytes → Option (PubKey K),
      (∀ k, readPublicKeyBytes dec parse s = .ok k ↔ Good dec parse (ascii "PUBLIC KEY") s (.rsa k)) ∧
      (readPublicKeyBytes dec parse s = .panic ↔ Good dec parse (ascii "PUBLIC KEY") s .other) ∧
      ((∀ k, ¬ Good dec parse (ascii "PUBLIC KEY") s k) → readPublicKeyBytes dec parse s = .err)) := by
  refine ⟨fun parse => ?_, fun parse => ?_, fun parse => ?_⟩
  · simp only [readPrivateKeyBytes, Good]
    cases hd : dec s with
    | none => simp
    | some b =>
      by_cases ht : b.type = ascii "RSA PRIVATE KEY"
      · cases hp : parse b.bytes <;> simp [ht, hp]
      · simp [ht]
  · simp only [readX509CertificateBytes, Good]
    cases hd : dec s with
    | none => simp
    | some b =>
      by_cases ht : b.type = ascii "CERTIFICATE"
      · cases hp : parse b.bytes <;> simp [ht, hp]
      · simp [ht]
  · simp only [readPublicKeyBytes, Good]
    cases hd : dec s with
    | none => simp
    | some b =>
      by_cases ht : b.type = ascii "PUBLIC KEY"
      · cases hp : parse b.bytes with
        | none => simp [ht, hp]
        | some k => cases k <;> simp [ht, hp]
      · simp [ht]

/-- The functions on texts read the normalised text; the `Must` functions panic exactly where the others give an error or
panic. -/
theorem C77_texts (dec : Bytes → Option Block) (s : Bytes) :
    (∀ parse : Bytes → Option K, readPrivateKey dec parse s = readPrivateKeyBytes dec parse (normalizePem s (ascii "RSA PRIVATE KEY"))) ∧
    (∀ parse : Bytes → Option (PubKey K), readPublicKey dec parse s = readPublicKeyBytes dec parse (normalizePem s (ascii "PUBLIC KEY"))) ∧
    (∀ parse : Bytes → Option K, readX509Certificate dec parse s = readX509CertificateBytes dec parse (normalizePem s (ascii "CERTIFICATE"))) ∧
    (∀ r : Res K, (∀ k, must r = .ok k ↔ r = .ok k) ∧ (must r = .panic ↔ ∀ k, r ≠ .ok k)) :=
  ⟨fun _ => rfl, fun _ => rfl, fun _ => rfl, fun r => by cases r <;> simp [must]⟩

/-! ## Reading what was written -/

theorem cutStr_spec (p : Bytes) : ∀ (a : Bytes) {b : Bytes}, (∀ i < a.length, isPrefix p ((a ++ p ++ b).drop i) = false) →
    cutStr p (a ++ p ++ b) = some (a, b) := by
  intro a
  induction a with
  | nil =>
    intro b _
    simp only [List.nil_append]
    have hp : isPrefix p (p ++ b) = true := (isPrefix_iff _ _).2 ⟨b, rfl⟩
    cases hpb : p ++ b with
    | nil =>
      rw [hpb] at hp
      rw [List.append_eq_nil_iff] at hpb
      simp [cutStr, hp, hpb.2]
    | cons c l =>
      rw [hpb] at hp
      simp only [cutStr, hp, if_true]
      rw [← hpb, List.drop_left' rfl]
  | cons c a ih =>
    intro b h
    have h0 := h 0 (by simp)
    simp only [List.drop_zero, List.cons_append] at h0
    have h1 : ∀ i < a.length, isPrefix p ((a ++ p ++ b).drop i) = false := by
      intro i hi
      have := h (i + 1) (by simp; omega)
      simpa using this
    simp only [List.cons_append, cutStr, h0, Bool.false_eq_true, if_false, ih h1, Option.map_some]

/-- A newline followed by a dash does not occur before the END line if there are no dashes. -/
theorem cutStr_end {body t : Bytes} (h : 45 ∉ body) : cutStr (10 :: endMark) (body ++ (10 :: endMark ++ t)) = some (body, t) := by
  have := cutStr_spec (10 :: endMark) body (b := t) ?_
  · simpa using this
  · intro i hi
    cases hc : isPrefix (10 :: endMark) (List.drop i (body ++ 10 :: endMark ++ t)) with
    | false => rfl
    | true =>
      exfalso
      obtain ⟨r, hr⟩ := (isPrefix_iff _ _).1 hc
      have e : endMark = 45 :: ascii "----END " := by decide +kernel
      have h1 : (body ++ 10 :: endMark ++ t)[i + 1]? = some 45 := by
        have := congrArg (·[1]?) hr
        simp only [List.getElem?_drop] at this
        rw [this, e]; rfl
      by_cases hlt : i + 1 < body.length
      · rw [List.append_assoc, List.getElem?_append_left hlt] at h1
        exact h (List.mem_of_getElem? h1)
      · have hi' : i + 1 = body.length := by omega
        rw [List.append_assoc, List.getElem?_append_right (by omega), hi'] at h1
        simp at h1

theorem trimBlank_snoc (s : Bytes) (c : UInt8) (h1 : c ≠ 32) (h2 : c ≠ 9) : trimBlank (s ++ [c]) = s ++ [c] := by
  simp [trimBlank, h1, h2]

theorem trimCR_snoc (s : Bytes) (c : UInt8) (h : c ≠ 13) : trimCR (s ++ [c]) = s ++ [c] := by
  simp [trimCR, h]

theorem mem_trimBlank {s : Bytes} {c : UInt8} (h : c ∈ trimBlank s) : c ∈ s := by
  unfold trimBlank at h
  rw [List.mem_reverse] at h
  exact List.mem_reverse.1 ((List.dropWhile_suffix _).subset h)

theorem mem_trimCR {s : Bytes} {c : UInt8} (h : c ∈ trimCR s) : c ∈ s := by
  unfold trimCR at h
  split at h
  · exact List.dropLast_subset _ h
  · exact h

theorem getLine_mem (a b : Bytes) : ∀ c ∈ (getLine (a ++ 10 :: b)).1, c ∈ a := by
  have key : ∀ a : Bytes, ∃ w r, cut 10 (a ++ 10 :: b) = (w, some r) ∧ ∀ c ∈ w, c ∈ a := by
    intro a
    induction a with
    | nil => exact ⟨[], b, by simp [cut], by simp⟩
    | cons x a ih =>
      obtain ⟨w, r, h1, h2⟩ := ih
      by_cases hx : x = 10
      · exact ⟨[], a ++ 10 :: b, by simp [cut, hx], by simp⟩
      · refine ⟨x :: w, r, by simp [cut, hx, h1], ?_⟩
        intro c hc
        rw [List.mem_cons] at hc ⊢
        exact hc.imp id (h2 c)
  obtain ⟨w, r, h1, h2⟩ := key a
  intro c hc
  unfold getLine at hc
  rw [h1] at hc
  exact h2 c (mem_trimCR (mem_trimBlank hc))

/-- The line with the type. -/
theorem typeLine_eq {typ rest : Bytes} (h : 10 ∉ typ) : getLine (typ ++ dashes ++ 10 :: rest) = (typ ++ dashes, rest) := by
  have hd : dashes = ascii "----" ++ [45] := by decide +kernel
  have hn : 10 ∉ typ ++ dashes := by
    rw [List.mem_append, not_or]; exact ⟨h, by decide +kernel⟩
  unfold getLine
  rw [cut_append rest hn]
  simp only
  rw [hd, ← List.append_assoc, trimCR_snoc _ _ (by decide), trimBlank_snoc _ _ (by decide) (by decide)]

theorem decode_block (again : Bytes → Option Block) {typ rest body trailer tail b : Bytes} (ht : 10 ∉ typ) (h0 : rest ≠ [])
    (hcolon : 58 ∉ (getLine rest).1)
    (hend : (if isPrefix endMark rest = true then some ([], rest.drop endMark.length) else cutStr (10 :: endMark) rest) =
      some (body, trailer))
    (htr : trailer = typ ++ dashes ++ tail) (htail : (getLine tail).1 = [])
    (hb : b64decode (removeBlanks body) = some b) :
    decode again (beginMark ++ typ ++ dashes ++ 10 :: rest) = some ⟨typ, b⟩ := by
  have h1 : isPrefix beginMark (beginMark ++ typ ++ dashes ++ 10 :: rest) = true :=
    (isPrefix_iff _ _).2 ⟨typ ++ dashes ++ 10 :: rest, by simp⟩
  have h2 : (beginMark ++ typ ++ dashes ++ 10 :: rest).drop beginMark.length = typ ++ dashes ++ 10 :: rest := by
    rw [List.append_assoc, List.append_assoc, List.drop_left' rfl, List.append_assoc]
  have h3 : isPrefix dashes.reverse (typ ++ dashes).reverse = true :=
    (isPrefix_iff _ _).2 ⟨typ.reverse, by rw [List.reverse_append]⟩
  have h4 : (typ ++ dashes).take ((typ ++ dashes).length - dashes.length) = typ := by
    rw [List.length_append, Nat.add_sub_cancel, List.take_left' rfl]
  have h5 : headers (rest.length + 1) false rest = some (false, rest) := by
    simp [headers, h0, hcolon]
  have h6 : isPrefix (typ ++ dashes) trailer = true := (isPrefix_iff _ _).2 ⟨tail, htr⟩
  have h7 : trailer.drop (typ ++ dashes).length = tail := by rw [htr, List.drop_left' rfl]
  simp only [decode, h1, if_true, h2, typeLine_eq ht, h3, h4, h5, Bool.not_true, Bool.not_false, Bool.true_and,
    Bool.false_eq_true, if_false, hend, h6, h7, htail, hb, ne_eq, not_true_eq_false]

theorem decode_body (again : Bytes → Option Block) {typ body tail b : Bytes} (ht : 10 ∉ typ) (h45 : 45 ∉ body)
    (h58 : 58 ∉ body) (htail : (getLine tail).1 = []) (hb : b64decode (removeBlanks body) = some b) :
    decode again (beginMark ++ typ ++ dashes ++ 10 :: (body ++ 10 :: (endMark ++ typ ++ dashes ++ tail))) = some ⟨typ, b⟩ := by
  refine decode_block again ht (by simp) (fun hm => h58 (getLine_mem _ _ _ hm)) (body := body) (tail := tail)
    (trailer := typ ++ dashes ++ tail) ?_ rfl htail hb
  have hn : isPrefix endMark (body ++ 10 :: (endMark ++ typ ++ dashes ++ tail)) = false := by
    have e : endMark = 45 :: ascii "----END " := by decide +kernel
    cases body with
    | nil => rw [e]; simp [isPrefix]
    | cons c l =>
      rw [List.mem_cons, not_or] at h45
      rw [e]; simp [isPrefix, h45.1]
  rw [hn]
  have := cutStr_end (body := body) (t := typ ++ dashes ++ tail) h45
  simpa using this

/-! ## C87 -/

/-- The bytes of base64 text with blanks and newlines. -/
def bareByte (c : UInt8) : Bool := (b64val c).isSome || c = 61 || c = 32 || c = 9 || c = 10 || c = 13

theorem bare_no (c : UInt8) : bareByte c = true → c ≠ 45 ∧ c ≠ 58 := by
  revert c; exact all_bytes (by decide +kernel)

theorem occ_free {p s : Bytes} {x : UInt8} (hp : ∃ q, p = x :: q) (h : x ∉ s) : occ p s = 0 := by
  obtain ⟨q, rfl⟩ := hp
  induction s with
  | nil => rfl
  | cons c s ih =>
    rw [List.mem_cons, not_or] at h
    simp [occ, isPrefix, h.1, ih h.2]

/-- A bare key, without BEGIN and END lines, is decoded. -/
theorem decode_bare (again : Bytes → Option Block) {typ : Bytes} (ht : Typ typ) {s b : Bytes} (hs : ∀ c ∈ s, bareByte c = true)
    (hb : b64decode (removeBlanks s) = some b) : decode again (normalizePem s typ) = some ⟨typ, b⟩ := by
  have h45 : 45 ∉ s := fun hm => (bare_no _ (hs _ hm)).1 rfl
  have h58 : 58 ∉ s := fun hm => (bare_no _ (hs _ hm)).2 rfl
  have hn : 10 ∉ typ := by rcases ht with rfl | rfl | rfl <;> decide +kernel
  rw [normalize_eq, if_neg (by rw [occ_free ⟨_, show bMark = 45 :: ascii "----BEGIN" by decide +kernel⟩ h45]; omega)]
  have := decode_body again hn h45 h58 (tail := []) (by decide) hb
  simp only [List.append_nil] at this
  exact this

/-- **C87.**  Keys may be given as bare base64 text, broken into lines and with blanks in any way: they are read as what
the text encodes. -/
theorem C87_bare (again : Bytes → Option Block) (s b : Bytes) (hs : ∀ c ∈ s, bareByte c = true)
    (hb : b64decode (removeBlanks s) = some b) :
    (∀ (parse : Bytes → Option K) k, parse b = some k → readPrivateKey (decode again) parse s = .ok k) ∧
    (∀ (parse : Bytes → Option (PubKey K)) k, parse b = some (.rsa k) → readPublicKey (decode again) parse s = .ok k) ∧
    (∀ (parse : Bytes → Option K) k, parse b = some k → readX509Certificate (decode again) parse s = .ok k) := by
  refine ⟨fun parse k hk => ?_, fun parse k hk => ?_, fun parse k hk => ?_⟩
  · simp [readPrivateKey, readPrivateKeyBytes, decode_bare again (.inl rfl) hs hb, hk]
  · simp [readPublicKey, readPublicKeyBytes, decode_bare again (.inr (.inl rfl)) hs hb, hk]
  · simp [readX509Certificate, readX509CertificateBytes, decode_bare again (.inr (.inr rfl)) hs hb, hk]

/-- Text that encodes bytes: insert blanks and newlines into the base64 encoding at any places. -/
theorem C87_insert (b s : Bytes) (h : s.filter (fun c => c ≠ 32 && c ≠ 9 && c ≠ 10 && c ≠ 13) = b64encode b) :
    b64decode (removeBlanks s) = some b := by
  have h1 := b64_quanta b
  unfold b64decode removeBlanks
  rw [List.filter_filter]
  have : s.filter (fun a => decide (a ≠ 10 ∧ a ≠ 13) && (a ≠ 32 && a ≠ 9)) = b64encode b := by
    rw [← h]
    apply List.filter_congr
    intro c _
    by_cases h1 : c = 32 <;> by_cases h2 : c = 9 <;> by_cases h3 : c = 10 <;> by_cases h4 : c = 13 <;> simp [h1, h2, h3, h4]
  rw [this]
  exact h1.1

example : decode (fun _ => none) (normalizePem (ascii " QU\nJD\r\n") (ascii "PUBLIC KEY")) = some ⟨ascii "PUBLIC KEY", ascii "ABC"⟩ := by
  decide +kernel

/-! ## C86 -/

theorem lines_spec (n : Nat) : ∀ s : Bytes, s.length ≤ n → (s = [] → lines n s = []) ∧
    (s ≠ [] → ∃ body, lines n s = body ++ [10] ∧ body.filter (fun c => c ≠ 10) = s.filter (fun c => c ≠ 10) ∧
      ∀ c ∈ body, c ∈ s ∨ c = 10) := by
  induction n with
  | zero =>
    intro s hs
    have : s = [] := List.length_eq_zero_iff.1 (by omega)
    subst this
    exact ⟨fun _ => rfl, fun h => absurd rfl h⟩
  | succ n ih =>
    intro s hs
    refine ⟨fun h => by simp [lines, h], fun h => ?_⟩
    simp only [lines, h, if_false]
    have hl : 0 < s.length := List.length_pos_iff.2 h
    obtain ⟨h1, h2⟩ := ih (s.drop 64) (by rw [List.length_drop]; omega)
    by_cases hd : s.drop 64 = []
    · rw [h1 hd]
      have : s.take 64 = s := by
        have := List.take_append_drop 64 s
        rw [hd, List.append_nil] at this; exact this
      rw [this]
      exact ⟨s, rfl, rfl, fun c hc => .inl hc⟩
    · obtain ⟨body, e1, e2, e3⟩ := h2 hd
      refine ⟨s.take 64 ++ 10 :: body, by rw [e1]; simp, ?_, ?_⟩
      · rw [List.filter_append, List.filter_cons_of_neg (by simp), e2, ← List.filter_append, List.take_append_drop]
      · intro c hc
        rw [List.mem_append, List.mem_cons] at hc
        rcases hc with hc | hc | hc
        · exact .inl (List.mem_of_mem_take hc)
        · exact .inr hc
        · exact (e3 c hc).imp List.mem_of_mem_drop id

theorem b64char_byte : ∀ n : Fin 64, b64char n ≠ 45 ∧ b64char n ≠ 58 ∧ b64char n ≠ 32 ∧ b64char n ≠ 9 := by decide +kernel

theorem b64char_no {n : Nat} (h : n < 64) : b64char n ≠ 45 ∧ b64char n ≠ 58 ∧ b64char n ≠ 32 ∧ b64char n ≠ 9 := b64char_byte ⟨n, h⟩

theorem b64encode_no (s : Bytes) : ∀ c ∈ b64encode s, c ≠ 45 ∧ c ≠ 58 ∧ c ≠ 32 ∧ c ≠ 9 := by
  have key : ∀ k, ∀ s : Bytes, s.length ≤ k → ∀ c ∈ b64encode s, c ≠ 45 ∧ c ≠ 58 ∧ c ≠ 32 ∧ c ≠ 9 := by
    intro k
    induction k with
    | zero =>
      intro s hs
      have : s = [] := List.length_eq_zero_iff.1 (by omega)
      subst this
      simp [b64encode]
    | succ k ih =>
      intro s hs c hc
      match s, hs, hc with
      | [], _, hc => simp [b64encode] at hc
      | [x], _, hc =>
        have := x.toNat_lt
        simp only [b64encode, List.mem_cons, List.not_mem_nil, or_false] at hc
        rcases hc with rfl | rfl | rfl | rfl
        · exact b64char_no (by omega)
        · exact b64char_no (by omega)
        · decide
        · decide
      | [x, y], _, hc =>
        have := x.toNat_lt
        have := y.toNat_lt
        simp only [b64encode, List.mem_cons, List.not_mem_nil, or_false] at hc
        rcases hc with rfl | rfl | rfl | rfl
        · exact b64char_no (by omega)
        · exact b64char_no (by omega)
        · exact b64char_no (by omega)
        · decide
      | x :: y :: z :: l, hs, hc =>
        have := x.toNat_lt
        have := y.toNat_lt
        have := z.toNat_lt
        simp only [b64encode, List.mem_cons] at hc
        rcases hc with rfl | rfl | rfl | rfl | hc
        · exact b64char_no (by omega)
        · exact b64char_no (by omega)
        · exact b64char_no (by omega)
        · exact b64char_no (by omega)
        · exact ih l (by simp at hs; omega) c hc
  exact key _ s (Nat.le_refl _)

/-- `pem.Decode` reads what `pem.Encode` wrote. -/
theorem decode_encode (again : Bytes → Option Block) (b : Block) (ht : 10 ∉ b.type) (hc : 58 ∉ b.type) :
    decode again (encode b) = some b := by
  obtain ⟨h1, h2⟩ := lines_spec (b64encode b.bytes).length (b64encode b.bytes) (Nat.le_refl _)
  have hq := b64_quanta b.bytes
  have hno := b64encode_no b.bytes
  obtain ⟨typ, bytes⟩ := b
  simp only at *
  unfold encode
  by_cases h0 : b64encode bytes = []
  · simp only [h1 h0]
    have hb : bytes = [] := by
      have := hq.1
      rw [h0] at this
      simpa [b64decodeQuanta] using this.symm
    subst hb
    have := decode_block again (rest := endMark ++ typ ++ dashes ++ [10]) (body := []) (trailer := typ ++ dashes ++ [10])
      (tail := [10]) (b := []) ht (by simp) ?_ ?_ rfl (by decide) rfl
    · simpa using this
    · have hcut : getLine (endMark ++ typ ++ dashes ++ [10]) = ((endMark ++ typ) ++ dashes, []) :=
        typeLine_eq (typ := endMark ++ typ) (by rw [List.mem_append, not_or]; exact ⟨by decide +kernel, ht⟩)
      rw [hcut]
      simp only [List.mem_append, not_or]
      exact ⟨⟨by decide +kernel, hc⟩, by decide +kernel⟩
    · have hp : isPrefix endMark (endMark ++ typ ++ dashes ++ [10]) = true := (isPrefix_iff _ _).2 ⟨typ ++ dashes ++ [10], by simp⟩
      rw [if_pos hp, List.append_assoc, List.append_assoc, List.drop_left' rfl, List.append_assoc]
  · obtain ⟨body, e1, e2, e3⟩ := h2 h0
    simp only [e1]
    have hbody : ∀ c ∈ body, c ≠ 45 ∧ c ≠ 58 ∧ c ≠ 32 ∧ c ≠ 9 := by
      intro c hc
      rcases e3 c hc with h | rfl
      · exact hno c h
      · decide
    have hrb : removeBlanks body = body := by
      unfold removeBlanks
      rw [List.filter_eq_self]
      intro c hc
      have := hbody c hc
      simp [this]
    have hdec : b64decode (removeBlanks body) = some bytes := by
      rw [hrb]
      unfold b64decode
      have : body.filter (fun c => decide (c ≠ 10 ∧ c ≠ 13)) = b64encode bytes := by
        have e4 : body.filter (fun c => decide (c ≠ 10 ∧ c ≠ 13)) = (body.filter (fun c => c ≠ 10)).filter (fun c => c ≠ 13) := by
          rw [List.filter_filter]
          apply List.filter_congr
          intro c _
          by_cases h1 : c = 10 <;> by_cases h2 : c = 13 <;> simp [h1, h2]
        have e5 : (b64encode bytes).filter (fun c => c ≠ 10) = b64encode bytes :=
          List.filter_eq_self.2 (fun c hc => by simpa using (hq.2 c hc).1)
        have e6 : (b64encode bytes).filter (fun c => c ≠ 13) = b64encode bytes :=
          List.filter_eq_self.2 (fun c hc => by simpa using (hq.2 c hc).2)
        rw [e4, e2, e5, e6]
      rw [this]
      exact hq.1
    have := decode_body again ht (fun hm => (hbody _ hm).1 rfl) (fun hm => (hbody _ hm).2.1 rfl) (tail := [10]) (by decide) hdec
    simpa using this

theorem pub_plain : 10 ∉ ascii "PUBLIC KEY" ∧ 58 ∉ ascii "PUBLIC KEY" := by decide +kernel

/-- **C86.**  The public key that was extracted as PEM is read back, if the parser reads what was marshalled. -/
theorem C86_roundtrip (again : Bytes → Option Block) (marshal : K → Option Bytes) (parse : Bytes → Option (PubKey K)) (k : K)
    (hlaw : ∀ bs, marshal k = some bs → parse bs = some (.rsa k)) (pem : Bytes) (h : extractPublicKeyPem marshal k = some pem) :
    readPublicKey (decode again) parse pem = .ok k ∧ readPublicKeyBytes (decode again) parse pem = .ok k := by
  unfold extractPublicKeyPem at h
  split at h
  · simp at h
  · rename_i bs hbs
    simp only [Option.some.injEq] at h
    have hd : decode again pem = some ⟨ascii "PUBLIC KEY", bs⟩ := by
      rw [← h]; exact decode_encode again _ pub_plain.1 pub_plain.2
    have hn : normalizePem pem (ascii "PUBLIC KEY") = pem := by
      have hb : contains bMark pem = true := (contains_iff _ _).2 ⟨[], 32 :: (ascii "PUBLIC KEY" ++ dashes ++
        10 :: lines (b64encode bs).length (b64encode bs) ++ endMark ++ ascii "PUBLIC KEY" ++ dashes ++ [10]), by
          rw [← h, encode, show beginMark = bMark ++ [32] by decide +kernel]; simp⟩
      have he : contains eMark pem = true := (contains_iff _ _).2 ⟨beginMark ++ ascii "PUBLIC KEY" ++ dashes ++
        10 :: lines (b64encode bs).length (b64encode bs), 32 :: (ascii "PUBLIC KEY" ++ dashes ++ [10]), by
          rw [← h, encode, show endMark = eMark ++ [32] by decide +kernel]; simp⟩
      rw [normalize_eq, if_pos ⟨(contains_occ _ _).1 hb, (contains_occ _ _).1 he⟩]
    rw [readPublicKey, hn]
    simp [readPublicKeyBytes, hd, hlaw bs hbs]

example : extractPublicKeyPem (fun k : Bytes => some k) (ascii "ABC") =
    some (ascii "-----BEGIN PUBLIC KEY-----\nQUJD\n-----END PUBLIC KEY-----\n") := by decide +kernel

/-- The full statement of C77 for public keys. -/
def C77Claim (dec : Bytes → Option Block) : Prop := ∀ (parse : Bytes → Option (PubKey Nat)) (s : Bytes),
  readPublicKey dec parse s ≠ .panic

/-- **C77** does not hold: a well-formed public key of another kind than RSA makes the reader panic. -/
theorem C77_violated (again : Bytes → Option Block) : ¬ C77Claim (decode again) ∧
    ∀ (parse : Bytes → Option (PubKey K)) (bs : Bytes), parse bs = some .other →
      readPublicKeyBytes (decode again) parse (encode ⟨ascii "PUBLIC KEY", bs⟩) = .panic := by
  refine ⟨fun h => h (fun _ => some .other) (ascii "QUJD") ?_, fun parse bs hp => ?_⟩
  · have := decode_bare again (typ := ascii "PUBLIC KEY") (.inr (.inl rfl)) (s := ascii "QUJD") (b := ascii "ABC")
      (by decide +kernel) (by decide +kernel)
    simp [readPublicKey, readPublicKeyBytes, this]
  · simp [readPublicKeyBytes, decode_encode again ⟨ascii "PUBLIC KEY", bs⟩ pub_plain.1 pub_plain.2, hp]

end Gears.Rsa
