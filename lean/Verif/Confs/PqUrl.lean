import Verif.Confs.PqLemmas
import Verif.Confs.Dsn
import Verif.Procs.UrlProps

/-
C122: which configurations net/url finds again in the DSN for postgres.
-/

namespace Gears.Pq

open Gears.Str Gears.Utf8 Gears.Confs
open Gears.Url (Esc HostText Host HostChar UserChar Digit Visible Means Query Hier Authority Scheme Port)

/-! ## Specification -/

/-- The parts of a URL are the configured values. -/
def Carried (conf : PostgresqlConf) (u : Url.URL) : Prop :=
  u.user = some (conf.username, some conf.password) ∧ splitHostPort u.host = some (conf.host, itoa conf.port) ∧
    u.path = 47 :: conf.database

/-- The values that need no escapes. -/
structure UrlPlain (conf : PostgresqlConf) : Prop where
  /-- letters, digits and -._~!$&'()*+,;=@ -/
  user : ∀ c ∈ conf.username, UserChar c ∧ c ≠ 37 ∧ c ≠ 58
  /-- the same, and the colon -/
  password : ∀ c ∈ conf.password, UserChar c ∧ c ≠ 37
  /-- letters, digits and -._~!$&'()*+,;=<>" and everything beyond ASCII -/
  host : ∀ c ∈ conf.host, (128 ≤ c ∨ HostChar c) ∧ c ≠ 58 ∧ c ≠ 91 ∧ c ≠ 93
  port : 0 ≤ conf.port
  /-- no control characters, no percent, question mark, hash -/
  database : ∀ c ∈ conf.database, (32 ≤ c ∧ c ≠ 127) ∧ c ≠ 37 ∧ c ≠ 63 ∧ c ≠ 35

/-- Keys without control characters and #%&+;= -/
def KeysPlain (order : List (Bytes × Bytes)) : Prop := ∀ x ∈ order, ∀ c ∈ x.1, keyByte c = true

/-! ## Proofs -/

theorem before {a b s t : Bytes} {c : UInt8} (h : a ++ c :: s = b ++ c :: t) (ha : c ∉ a) : b = a ∨ ∃ w, b = a ++ c :: w := by
  rcases List.append_eq_append_iff.1 h with ⟨w, h1, h2⟩ | ⟨w, h1, h2⟩
  · cases w with
    | nil => exact .inl (by simpa using h1)
    | cons d w =>
      simp at h2
      exact .inr ⟨w, by rw [h1, h2.1]⟩
  · cases w with
    | nil => exact .inl (by simpa using h1.symm)
    | cons d w =>
      simp at h2
      exact absurd (by rw [h1, ← h2.1]; simp) ha

theorem same {a b s t : Bytes} {c : UInt8} (h : a ++ c :: s = b ++ c :: t) (ha : c ∉ a) (hb : c ∉ b) : a = b ∧ s = t := by
  rcases before h ha with rfl | ⟨w, rfl⟩
  · exact ⟨rfl, by simpa using h⟩
  · simp at hb

theorem esc_length {s r : Bytes} (h : Esc s r) : r.length ≤ s.length ∧ (37 ∈ s → r.length < s.length) := by
  induction h with
  | nil => simp
  | plain hc _ ih =>
    refine ⟨by simp; omega, fun hm => ?_⟩
    rcases List.mem_cons.1 hm with e | hm
    · exact absurd e.symm hc
    · have := ih.2 hm; simp; omega
  | percent _ _ _ ih => exact ⟨by simp; omega, fun _ => by simp; omega⟩

theorem esc_plain : ∀ {s : Bytes}, 37 ∉ s → Esc s s
  | [], _ => .nil
  | c :: s, h => by
    rw [List.mem_cons, not_or] at h
    exact .plain (Ne.symm h.1) (esc_plain h.2)

theorem hostText_length {z : Bool} {s r : Bytes} (h : HostText z s r) : r.length ≤ s.length ∧ (r.length = s.length → r = s ∧ ∀ c ∈ s, 128 ≤ c ∨ HostChar c) := by
  induction h with
  | nil => simp
  | @plain c s r hc _ ih =>
    refine ⟨by simp; omega, fun e => ?_⟩
    obtain ⟨h1, h2⟩ := ih.2 (by simpa using e)
    exact ⟨by rw [h1], fun d hd => (List.mem_cons.1 hd).elim (fun e => e ▸ hc) (h2 d)⟩
  | percent _ _ _ _ ih => exact ⟨by simp; omega, fun e => by simp at e; omega⟩

/-- A byte of a host is not one that ends it. -/
def Inside (c : UInt8) : Prop := c ≠ 64 ∧ c ≠ 47 ∧ c ≠ 63 ∧ c ≠ 35

instance (c : UInt8) : Decidable (Inside c) := inferInstanceAs (Decidable (_ ∧ _))

theorem hostChar_inside (c : UInt8) : Url.hostOk c = true → Inside c := by
  revert c
  exact all_bytes (by decide +kernel)

theorem userChar_inside (c : UInt8) : Url.userinfoByte c = true → c ≠ 47 ∧ c ≠ 63 ∧ c ≠ 35 ∧ Url.isCtl c = false := by
  revert c
  exact all_bytes (by decide +kernel)

theorem high_inside (c : UInt8) : 128 ≤ c → Inside c := by
  revert c
  exact all_bytes (by decide +kernel)

theorem ofNat_high {n : Nat} (h : 128 ≤ n) (h2 : n < 256) : 128 ≤ UInt8.ofNat n := by
  rw [UInt8.le_iff_toNat_le, toNat_ofNat h2]
  exact h

theorem hex_lt {c : UInt8} {n : Nat} (h : Url.Hex c n) : n < 16 := by unfold Url.Hex at h; omega

theorem hex_25 {m n : Nat} (h1 : Url.Hex 50 m) (h2 : Url.Hex 53 n) : 16 * m + n = 37 := by
  have e1 : m = 2 := by unfold Url.Hex at h1; simp at h1; omega
  have e2 : n = 5 := by unfold Url.Hex at h2; simp at h2; omega
  omega

theorem hostText_inside {z : Bool} {s r : Bytes} (h : HostText z s r) : ∀ c ∈ r, Inside c := by
  induction h with
  | nil => simp
  | plain hc _ ih =>
    intro d hd
    rcases List.mem_cons.1 hd with rfl | hd
    · rcases hc with hc | hc
      · exact high_inside d hc
      · exact hostChar_inside d ((Url.hostChar_iff d).2 hc)
    · exact ih d hd
  | @percent a b m n s r h1 h2 h3 _ ih =>
    intro d hd
    rcases List.mem_cons.1 hd with rfl | hd
    · have hm := hex_lt h1
      have hn := hex_lt h2
      rcases h3 with ⟨rfl, rfl⟩ | ⟨-, h3⟩ | ⟨-, h3 | h3⟩
      · rw [hex_25 h1 h2]; decide
      · exact high_inside _ (ofNat_high h3 (by omega))
      · rw [h3]; decide
      · exact hostChar_inside _ ((Url.hostChar_iff _).2 h3)
    · exact ih d hd

theorem host_inside {s h : Bytes} (hh : Host s h) : ∀ c ∈ h, Inside c := by
  cases hh with
  | name _ _ h => exact hostText_inside h
  | address _ _ _ _ _ h => exact hostText_inside h
  | zone _ _ _ _ _ h1 h2 h3 =>
    intro c hc
    rw [List.mem_append, List.mem_append] at hc
    rcases hc with (hc | hc) | hc
    · exact hostText_inside h1 c hc
    · exact hostText_inside h2 c hc
    · exact hostText_inside h3 c hc

/-- What `net.SplitHostPort` gives. -/
theorem split_inv {s h p : Bytes} (hs : splitHostPort s = some (h, p)) : 91 ∉ h ∧ (∀ c ∈ h, c ∈ s) ∧
    (s.head? ≠ some 91 → s = h ++ 58 :: p ∧ 58 ∉ h ∧ 93 ∉ h) := by
  unfold splitHostPort at hs
  split at hs
  · simp at hs
  · rename_i a port hc
    obtain ⟨e, -⟩ := Url.cutLast_some hc
    split at hs
    · rename_i hh
      split at hs
      · simp at hs
      · rename_i x _ hcut
        split at hs
        · rename_i hx
          split at hs
          · simp at hs
          · rename_i hno
            simp only [Option.some.injEq, Prod.mk.injEq] at hs
            obtain ⟨rfl, rfl⟩ := hs
            have hsub : ∀ c ∈ x, c ∈ s := fun c hc => by rw [e, ← hx]; simp [hc]
            have hd : ∀ c ∈ x.drop 1, c ∈ s.drop 1 := fun c hc => by
              rw [e, ← hx]
              cases x with
              | nil => simp at hc
              | cons y x => simp at hc ⊢; exact .inl hc
            refine ⟨fun hm => ?_, fun c hc => hsub c (List.mem_of_mem_drop hc), fun h0 => absurd hh h0⟩
            apply hno
            rw [List.contains_iff_mem.2 (hd 91 hm)]; rfl
        · simp at hs
    · rename_i hh
      split at hs
      · simp at hs
      · rename_i hno
        simp at hs
        obtain ⟨rfl, rfl⟩ := hs
        simp only [Bool.or_eq_true, List.contains_iff_mem, not_or] at hno
        refine ⟨fun hm => hno.1.2 (by rw [e]; simp [hm]), fun c hc => by rw [e]; simp [hc],
          fun _ => ⟨e, hno.1.1, fun hm => hno.2 (by rw [e]; simp [hm])⟩⟩

theorem split_name {h p : Bytes} (h1 : 58 ∉ h) (h2 : 91 ∉ h) (h3 : 93 ∉ h) (hp : ∀ c ∈ p, c ≠ 58 ∧ c ≠ 91 ∧ c ≠ 93) :
    splitHostPort (h ++ 58 :: p) = some (h, p) := by
  have h58 : 58 ∉ p := fun hm => (hp _ hm).1 rfl
  have h91 : 91 ∉ p := fun hm => (hp _ hm).2.1 rfl
  have h93 : 93 ∉ p := fun hm => (hp _ hm).2.2 rfl
  have hh : (h ++ 58 :: p).head? ≠ some 91 := by
    cases h with
    | nil => simp
    | cons c h => simp at h2 ⊢; exact fun e => h2.1 e.symm
  unfold splitHostPort
  rw [cutLast_append h h58]
  simp only
  rw [if_neg hh, if_neg (by simp [h1, h2, h3, h91, h93])]

theorem itoa_bytes (z : Int) : ∀ c ∈ itoa z, Procs.isDigit c = true ∨ c = 45 := by
  intro c hc
  by_cases h : 0 ≤ z
  · exact .inl (itoa_digits z h c hc)
  · unfold itoa at hc
    rw [if_pos (by omega), List.mem_cons] at hc
    rcases hc with rfl | hc
    · exact .inr rfl
    · have := itoa_digits (z.natAbs : Int) (by omega) c (by unfold itoa; rw [if_neg (by omega)]; simpa using hc)
      exact .inl this

theorem digit_inside (c : UInt8) : Procs.isDigit c = true → Inside c ∧ c ≠ 58 ∧ c ≠ 91 ∧ c ≠ 93 ∧ Url.isDig c = true ∧ Url.hostOk c = true ∧ Url.isCtl c = false := by
  revert c
  exact all_bytes (by decide +kernel)

/-- The DSN without its scheme. -/
def body (conf : PostgresqlConf) (q : Bytes) : Bytes :=
  conf.username ++ 58 :: (conf.password ++ 64 :: (conf.host ++ 58 :: (itoa conf.port ++ 47 :: (conf.database ++ 63 :: q))))

/-- The options with the parts of their values. -/
def items (order : List (Bytes × Bytes)) : List (Bytes × Bytes) :=
  order.flatMap fun x => (split 44 (trimSpace x.2)).map fun t => (x.1, trimSpace t)

/-- The query of the DSN. -/
def queryText (order : List (Bytes × Bytes)) : Bytes := join 38 ((items order).map fun x => itemOf (x.1, queryEscape x.2, x.2))

theorem items_key {order : List (Bytes × Bytes)} (hk : KeysPlain order) : KeysPlain (items order) := by
  intro x hx
  unfold items at hx
  rw [List.mem_flatMap] at hx
  obtain ⟨y, hy, hx⟩ := hx
  rw [List.mem_map] at hx
  obtain ⟨t, -, rfl⟩ := hx
  exact hk y hy

theorem items_ok {order : List (Bytes × Bytes)} (hk : KeysPlain order) :
    ∀ w ∈ (items order).map fun x => itemOf (x.1, queryEscape x.2, x.2), w ≠ [] ∧ ∀ c ∈ w, rawByte c = true := by
  intro w hw
  rw [List.mem_map] at hw
  obtain ⟨x, hx, rfl⟩ := hw
  exact ⟨by simp [itemOf], item_bytes (itemOk_escape _ _ (items_key hk x hx))⟩

theorem query_bytes {order : List (Bytes × Bytes)} (hk : KeysPlain order) : ∀ c ∈ queryText order, Url.isCtl c = false ∧ c ≠ 35 := by
  intro c hc
  rcases join_mem 38 _ c hc with rfl | ⟨w, h, hcw⟩
  · decide
  · have := rawByte_no c ((items_ok hk w h).2 c hcw)
    exact ⟨this.2.2.2, this.2.1⟩

theorem postgres_text : ascii "postgres://" = ascii "postgres" ++ 58 :: 47 :: [47] := by decide +kernel

theorem dsn_eq (conf : PostgresqlConf) {order : List (Bytes × Bytes)} (hk : KeysPlain order) :
    buildPgDsn conf order = ascii "postgres" ++ 58 :: 47 :: 47 :: body conf (queryText order) := by
  have ho : order.flatMap optionText = ((items order).map fun x => itemOf (x.1, queryEscape x.2, x.2)).flatMap (· ++ [38]) := by
    unfold items
    induction order with
    | nil => rfl
    | cons x l ih =>
      rw [List.flatMap_cons, ih (fun y hy => hk y (by simp [hy])), List.flatMap_cons, List.map_append, List.flatMap_append]
      congr 1
      unfold optionText itemOf
      rw [List.map_map, List.flatMap_map]
      rfl
  unfold buildPgDsn
  rw [ho, trimAmp_items _ _ (fun w h => ⟨(items_ok hk w h).1, fun c hc => (rawByte_no c ((items_ok hk w h).2 c hc)).1⟩), postgres_text]
  unfold body queryText
  simp

theorem scheme_postgres : Scheme (ascii "postgres") := by
  refine ⟨112, ascii "ostgres", by decide +kernel, .inl (by decide), ?_⟩
  intro b hb
  have : ∀ b ∈ ascii "ostgres", 97 ≤ b ∧ b ≤ 122 := by decide +kernel
  exact .inl (.inl (this b hb))

theorem scheme_no58 {s : Bytes} (h : Scheme s) : 58 ∉ s := by
  obtain ⟨c, l, rfl, hc, hl⟩ := h
  intro hm
  rcases List.mem_cons.1 hm with rfl | hm
  · rcases hc with hc | hc <;> revert hc <;> decide
  · rcases hl _ hm with h | h | h | h | h <;> revert h <;> (try unfold Url.Letter) <;> (try unfold Digit) <;> decide

/-- The parts of a text that means a URL with user and password. -/
theorem means_inv {x : Bytes} {u : Url.URL} {n m : Bytes} (h : Means (ascii "postgres" ++ 58 :: 47 :: 47 :: x) u) (hu : u.user = some (n, some m))
    {db : Bytes} (hp : u.path = 47 :: db) : ∃ u' p' hs d' q, (x = u' ++ 58 :: (p' ++ 64 :: (hs ++ 47 :: d')) ++ q) ∧ (q = [] ∨ q.head? = some 63) ∧
      58 ∉ u' ∧ (∀ c ∈ u' ++ 58 :: p', UserChar c) ∧ Esc u' n ∧ Esc p' m ∧ 64 ∉ hs ∧ 47 ∉ hs ∧ Host hs u.host ∧ Esc d' db ∧ 63 ∉ d' := by
  generalize ht : ascii "postgres" ++ 58 :: 47 :: 47 :: x = t at h
  cases h with
  | star => exact absurd ht (by intro e; have := congrArg List.head? e; revert this; simp [ascii])
  | path h0 => rw [← ht] at h0; simp [ascii] at h0
  | @scheme sc r s q fq u hsc hq hh =>
    obtain ⟨e1, e2⟩ := same ht (scheme_no58 scheme_postgres) (scheme_no58 hsc)
    subst e1
    have hr : ∃ q', r = s ++ q' ∧ (q' = [] ∨ q'.head? = some 63) ∧ 63 ∉ s := by
      cases hq with
      | none h => exact ⟨[], by simp, .inl rfl, h⟩
      | empty h => exact ⟨_, rfl, .inr rfl, h⟩
      | some h _ => exact ⟨_, rfl, .inr rfl, h⟩
    obtain ⟨q', hr, hq', h63⟩ := hr
    have hs2 : [47, 47] <+: s := by
      rw [hr] at e2
      rcases s with _ | ⟨a, _ | ⟨b, s⟩⟩
      · simp at e2
        rcases hq' with h | h
        · rw [h] at e2; simp at e2
        · rw [← e2] at h; simp at h
      · simp at e2
        rcases hq' with h | h
        · rw [h] at e2; simp at e2
        · rw [← e2.2] at h; simp at h
      · simp at e2
        exact ⟨s, by rw [← e2.1, ← e2.2.1]; rfl⟩
    cases hh with
    | rootless h0 =>
      obtain ⟨w, rfl⟩ := hs2
      simp at h0
    | path _ h0 => exact absurd hs2 h0
    | @full a s' p h user h47 hs' ha he =>
      simp only at hu hp ⊢
      subst hu hp
      obtain ⟨d', rfl, hd⟩ : ∃ d', s' = 47 :: d' ∧ Esc d' db := by
        rcases hs' with rfl | hs'
        · cases he
        · cases s' with
          | nil => simp at hs'
          | cons c d' =>
            simp at hs'; subst hs'
            cases he with
            | plain _ h => exact ⟨d', rfl, h⟩
      cases ha with
      | @password u' p' n m hs h h64 hho hch h58 e1 e2' =>
        refine ⟨u', p', hs, d', q', ?_, hq', h58, hch, e1, e2', h64, fun hm => h47 (by simp [hm]), hho, hd, fun hm => h63 (by simp [hm])⟩
        rw [hr] at e2
        simpa using e2

theorem url_necessary (conf : PostgresqlConf) (q x : Bytes) (u : Url.URL) (hv : Visible (ascii "postgres" ++ 58 :: 47 :: 47 :: x))
    (h35 : 35 ∉ x) (hx : ∃ z, body conf q = x ++ z ∧ (z = [] ∨ z.head? = some 35)) (h : Means (ascii "postgres" ++ 58 :: 47 :: 47 :: x) u)
    (hc : Carried conf u) : UrlPlain conf := by
  obtain ⟨c1, c2, c3⟩ := hc
  obtain ⟨u', p', hs, d', q', rfl, hq', h58, hch, eu, ep, h64, h47, hho, ed, h63⟩ := means_inv h c1 c3
  obtain ⟨z, hx, hz⟩ := hx
  obtain ⟨s1, s2, s3⟩ := split_inv c2
  have hin : ∀ c ∈ conf.host, Inside c := fun c hc => host_inside hho c (s2 c hc)
  have hport : ∀ c ∈ itoa conf.port, Inside c := fun c hc => by
    rcases itoa_bytes _ c hc with h | rfl
    · exact (digit_inside c h).1
    · decide
  have hin2 : ∀ c ∈ conf.host ++ 58 :: itoa conf.port, Inside c := by
    intro c hc
    rw [List.mem_append, List.mem_cons] at hc
    rcases hc with hc | rfl | hc
    · exact hin c hc
    · decide
    · exact hport c hc
  have hch2 : ∀ c ∈ p', c ≠ 47 := fun c hc => (userChar_inside c ((Url.userChar_iff c).2 (hch c (by simp [hc])))).1
  -- the user
  have hx1 : u' ++ 58 :: (p' ++ 64 :: (hs ++ 47 :: d') ++ q' ++ z) = body conf q := by rw [hx]; simp
  have hu : conf.username = u' := by
    rcases before hx1 h58 with h | ⟨w, h⟩
    · exact h
    · have := (esc_length eu).1
      rw [h] at this
      simp at this
      omega
  subst hu
  have hx2 : p' ++ 64 :: (hs ++ 47 :: d') ++ q' ++ z = conf.password ++ 64 :: (conf.host ++ 58 :: (itoa conf.port ++ 47 :: (conf.database ++ 63 :: q))) := by
    unfold body at hx1
    simpa using hx1
  -- the password
  have hp : p' = conf.password := by
    have hx2' : p' ++ (64 :: (hs ++ 47 :: d') ++ q' ++ z) = conf.password ++ (64 :: (conf.host ++ 58 :: (itoa conf.port ++ 47 :: (conf.database ++ 63 :: q)))) := by
      rw [← hx2]; simp
    rcases List.append_eq_append_iff.1 hx2' with ⟨w, h1, h2⟩ | ⟨w, h1, h2⟩
    · have := (esc_length ep).1
      rw [h1] at this
      simp at this
      have hw : w = [] := List.length_eq_zero_iff.1 (by omega)
      subst hw
      simpa using h1.symm
    · cases w with
      | nil => simpa using h1
      | cons c w =>
        simp only [List.cons_append, List.cons.injEq] at h2
        obtain ⟨rfl, h2⟩ := h2
        have h3 : (w ++ 64 :: hs) ++ 47 :: (d' ++ q' ++ z) = (conf.host ++ 58 :: itoa conf.port) ++ 47 :: (conf.database ++ 63 :: q) := by
          simp at h2 ⊢; exact h2.symm
        obtain ⟨e, -⟩ := same h3 (by
          intro hm
          rw [List.mem_append, List.mem_cons] at hm
          rcases hm with hm | hm | hm
          · exact hch2 47 (by rw [h1]; simp [hm]) rfl
          · simp at hm
          · exact h47 hm) (fun hm => (hin2 _ hm).2.1 rfl)
        exact absurd rfl (hin2 64 (by rw [← e]; simp)).1
  subst hp
  have hx3 : hs ++ 47 :: (d' ++ q' ++ z) = (conf.host ++ 58 :: itoa conf.port) ++ 47 :: (conf.database ++ 63 :: q) := by
    simpa using hx2
  obtain ⟨e1, e2⟩ := same hx3 h47 (fun hm => (hin2 _ hm).2.1 rfl)
  -- the database
  have hd : d' = conf.database := by
    rw [List.append_assoc] at e2
    rcases List.append_eq_append_iff.1 e2 with ⟨w, h1, h2⟩ | ⟨w, h1, h2⟩
    · have := (esc_length ed).1
      rw [h1] at this
      simp at this
      have hw : w = [] := List.length_eq_zero_iff.1 (by omega)
      subst hw
      simpa using h1.symm
    · cases w with
      | nil => simpa using h1
      | cons c w =>
        simp at h2
        exact absurd (by rw [h1, ← h2.1]; simp) h63
  subst hd
  have no37 : ∀ {s : Bytes}, Esc s s → 37 ∉ s := fun e hm => absurd ((esc_length e).2 hm) (by omega)
  have hhead : hs.head? ≠ some 91 := by
    rw [e1]
    cases hh : conf.host with
    | nil => simp
    | cons c l => 
      simp
      rintro rfl
      exact s1 (by rw [hh]; simp)
  obtain ⟨ht, hdig⟩ : HostText false hs u.host ∧ (∀ a p, hs = a ++ 58 :: p → 58 ∉ p → ∀ c ∈ p, Digit c) := by
    have key : ∀ h, Host hs h → HostText false hs h ∧ (∀ a p, hs = a ++ 58 :: p → 58 ∉ p → ∀ c ∈ p, Digit c) := by
      intro h hho
      cases hho with
      | name _ h1 h2 => exact ⟨h2, h1⟩
      | address h0 => exact absurd h0 hhead
      | zone h0 => exact absurd h0 hhead
    exact key _ hho
  have hport0 : 0 ≤ conf.port := by
    refine Decidable.byContradiction fun hneg => ?_
    have h45 : 45 ∈ itoa conf.port := by unfold itoa; rw [if_pos (by omega)]; simp
    have := hdig _ _ e1 (fun hm => by
      rcases itoa_bytes _ _ hm with h | h
      · exact (digit_inside _ h).2.1 rfl
      · simp at h) 45 h45
    revert this
    unfold Digit
    decide
  have hl := hostText_length ht
  have hh91 : u.host.head? ≠ some 91 := by
    intro h0
    have hlen : 0 < u.host.length := by
      cases hu : u.host with
      | nil => rw [hu] at h0; simp at h0
      | cons _ _ => simp
    generalize u.host = uh at ht h0
    cases ht with
    | nil => simp at h0
    | plain hc _ => simp at h0; subst h0; simp at hhead
    | percent h1 h2 h3 _ =>
      simp only [List.head?_cons, Option.some.injEq] at h0
      have hm := hex_lt h1
      have hn := hex_lt h2
      rcases h3 with ⟨rfl, rfl⟩ | ⟨-, h3⟩ | ⟨h3, -⟩
      · rw [hex_25 h1 h2] at h0; revert h0; decide
      · have := ofNat_high h3 (by omega)
        rw [h0] at this
        revert this
        decide
      · simp at h3
  obtain ⟨f1, f2, f3⟩ := s3 hh91
  obtain ⟨g1, g2⟩ := hl.2 (by rw [f1, e1])
  refine ⟨fun c hc => ⟨hch c (by simp [hc]), ?_, ?_⟩, fun c hc => ⟨hch c (by simp [hc]), ?_⟩, fun c hc => ⟨g2 c (by rw [e1]; simp [hc]), ?_, ?_, ?_⟩, hport0,
    fun c hc => ⟨?_, ?_, ?_, ?_⟩⟩
  · rintro rfl; exact no37 eu hc
  · rintro rfl; exact h58 hc
  · rintro rfl; exact no37 ep hc
  · rintro rfl; exact f2 hc
  · rintro rfl; exact s1 hc
  · rintro rfl; exact f3 hc
  · have := hv c (by simp [hc])
    exact this
  · rintro rfl; exact no37 ed hc
  · rintro rfl; exact h63 hc
  · rintro rfl; exact h35 (by simp [hc])

end Gears.Pq
