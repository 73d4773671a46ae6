import Verif.Confs.Pq

/-
Quoting and scanning of connection strings (C122).
-/

namespace Gears.Pq

open Gears.Str Gears.Utf8 Gears.Confs

/-! ## Runes -/

theorem decode_width {s : Bytes} (h : s ≠ []) : 1 ≤ (decodeRune s).2 ∧ (decodeRune s).2 ≤ s.length := by
  rcases decode_cases h with h1 | ⟨r, rest, h1, h2, h3⟩
  · rw [h1]
    have := List.length_pos_iff.2 h
    simp only; omega
  · rw [h3]
    have := List.length_pos_iff.2 (encode_ne r)
    have e := congrArg List.length h2
    rw [List.length_append] at e
    simp only; omega

theorem runesN_fuel : ∀ (n m : Nat) (s : Bytes), s.length ≤ n → s.length ≤ m → runesN n s = runesN m s
  | 0, 0, _, _, _ => rfl
  | 0, _ + 1, s, h, _ => by
    have : s = [] := List.length_eq_zero_iff.1 (by omega)
    subst this; rfl
  | _ + 1, 0, s, _, h => by
    have : s = [] := List.length_eq_zero_iff.1 (by omega)
    subst this; rfl
  | n + 1, m + 1, [], _, _ => rfl
  | n + 1, m + 1, b :: l, hn, hm => by
    have hw := decode_width (s := b :: l) (by simp)
    simp only [runesN]
    rw [runesN_fuel n m _ (by rw [List.length_drop]; omega) (by rw [List.length_drop]; omega)]

theorem runes_nil : runes [] = [] := rfl

theorem runes_ne {s : Bytes} (h : s ≠ []) : runes s = (decodeRune s).1 :: runes (s.drop (decodeRune s).2) := by
  cases s with
  | nil => exact absurd rfl h
  | cons b l =>
    have hw := decode_width (s := b :: l) (by simp)
    show runesN (l.length + 1) (b :: l) = _
    simp only [runesN]
    rw [runesN_fuel _ ((b :: l).drop (decodeRune (b :: l)).2).length _ (by rw [List.length_drop]; simp at hw ⊢; omega) (Nat.le_refl _)]
    rfl

theorem lo_ge (c : Nat) : 0x80 ≤ lo c := by unfold lo; split <;> (try split) <;> omega

/-- A character ends before a byte of ASCII. -/
theorem decode_before {a : Bytes} (h : a ≠ []) {c : UInt8} (hc : c.toNat < 128) (b : Bytes) : decodeRune (a ++ c :: b) = decodeRune a := by
  have hl := lo_ge
  match a with
  | [] => exact absurd rfl h
  | [x] =>
    simp only [List.cons_append, List.nil_append, decodeRune]
    have := hl x.toNat
    split
    · rfl
    · split
      · rfl
      · split
        · rw [if_neg (by omega)]
        · split
          · cases b with
            | nil => rfl
            | cons b1 b => simp only; rw [if_neg (by omega)]
          · split
            · rcases b with _ | ⟨b1, _ | ⟨b2, b⟩⟩
              · rfl
              · rfl
              · simp only; rw [if_neg (by omega)]
            · rfl
  | [x, y] =>
    simp only [List.cons_append, List.nil_append, decodeRune]
    split
    · rfl
    · split
      · rfl
      · split
        · rfl
        · split
          · rw [if_neg (by omega)]
          · split
            · cases b with
              | nil => rfl
              | cons b1 b => simp only; rw [if_neg (by omega)]
            · rfl
  | [x, y, z] =>
    simp only [List.cons_append, List.nil_append, decodeRune]
    split
    · rfl
    · split
      · rfl
      · split
        · rfl
        · split
          · rfl
          · split
            · rw [if_neg (by omega)]
            · rfl
  | x :: y :: z :: w :: a => rfl

theorem decode_ascii {c : UInt8} (hc : c.toNat < 128) (b : Bytes) : decodeRune (c :: b) = (c.toNat, 1) := by
  simp only [decodeRune]; rw [if_pos (by omega)]

theorem runes_ascii {c : UInt8} (hc : c.toNat < 128) (b : Bytes) : runes (c :: b) = c.toNat :: runes b := by
  rw [runes_ne (by simp), decode_ascii hc]; rfl

theorem runes_append (n : Nat) : ∀ (a : Bytes), a.length ≤ n → ∀ {c : UInt8}, c.toNat < 128 → ∀ b,
    runes (a ++ c :: b) = runes a ++ c.toNat :: runes b := by
  induction n with
  | zero =>
    intro a h c hc b
    have : a = [] := List.length_eq_zero_iff.1 (by omega)
    subst this
    exact runes_ascii hc b
  | succ n ih =>
    intro a h c hc b
    by_cases ha : a = []
    · subst ha; exact runes_ascii hc b
    · have hw := decode_width ha
      rw [runes_ne (s := a ++ c :: b) (by simp), decode_before ha hc, runes_ne ha, List.drop_append_of_le_length hw.2,
        ih (a.drop (decodeRune a).2) (by rw [List.length_drop]; omega) hc b]
      rfl

theorem runes_cat (a : Bytes) {c : UInt8} (hc : c.toNat < 128) (b : Bytes) : runes (a ++ c :: b) = runes a ++ c.toNat :: runes b :=
  runes_append a.length a (Nat.le_refl _) hc b

theorem runes_mem (n : Nat) : ∀ (s : Bytes), s.length ≤ n → ∀ r ∈ runes s, Scalar r ∧ (r < 128 → UInt8.ofNat r ∈ s) := by
  induction n with
  | zero =>
    intro s h r hr
    have : s = [] := List.length_eq_zero_iff.1 (by omega)
    subst this
    simp [runes_nil] at hr
  | succ n ih =>
    intro s h r hr
    by_cases hs : s = []
    · subst hs; simp [runes_nil] at hr
    · have hw := decode_width hs
      rw [runes_ne hs, List.mem_cons] at hr
      rcases hr with rfl | hr
      · rcases decode_cases hs with h1 | ⟨r, rest, h1, h2, h3⟩
        · rw [h1]; exact ⟨by decide, by simp⟩
        · rw [h3]
          refine ⟨h1, fun hlt => ?_⟩
          simp only at hlt ⊢
          rw [h2, encode_ascii hlt]
          simp
      · obtain ⟨h1, h2⟩ := ih _ (by rw [List.length_drop]; omega) r hr
        exact ⟨h1, fun hlt => List.mem_of_mem_drop (h2 hlt)⟩

theorem runes_utf8 : ∀ (rs : List Nat), (∀ r ∈ rs, Scalar r) → runes (utf8 rs) = rs
  | [], _ => rfl
  | r :: rs, h => by
    have e : utf8 (r :: rs) = encodeRune r ++ utf8 rs := by simp [utf8]
    have hd := decode_encode (h r (by simp)) (utf8 rs)
    rw [e, runes_ne (by simp [encode_ne]), hd]
    simp only [List.drop_left']
    rw [runes_utf8 rs fun x hx => h x (by simp [hx])]

/-- `string([]rune(s))`: bytes that are not part of a character become U+FFFD. -/
def clean (s : Bytes) : Bytes := utf8 (runes s)

theorem clean_valid {s : Bytes} (h : Valid s) : clean s = s := by
  obtain ⟨rs, h1, rfl⟩ := h
  unfold clean
  rw [runes_utf8 rs h1]

theorem valid_clean (s : Bytes) : Valid (clean s) := ⟨runes s, fun r hr => (runes_mem s.length s (Nat.le_refl _) r hr).1, rfl⟩

/-! ## Quoting -/

def escR : List Nat → List Nat
  | [] => []
  | r :: l => if r = 39 || r = 92 then 92 :: r :: escR l else r :: escR l

theorem escR_append (a b : List Nat) : escR (a ++ b) = escR a ++ escR b := by
  induction a with
  | nil => rfl
  | cons r a ih => simp only [List.cons_append, escR, ih]; split <;> rfl

theorem escR_free (a : List Nat) (h1 : 39 ∉ a) (h2 : 92 ∉ a) : escR a = a := by
  induction a with
  | nil => rfl
  | cons r a ih =>
    simp only [List.mem_cons, not_or] at h1 h2
    simp [escR, Ne.symm h1.1, Ne.symm h2.1, ih h1.2 h2.2]

theorem esc_free (a : Bytes) (h1 : 39 ∉ a) (h2 : 92 ∉ a) : esc a = a := by
  induction a with
  | nil => rfl
  | cons r a ih =>
    simp only [List.mem_cons, not_or] at h1 h2
    simp [esc, Ne.symm h1.1, Ne.symm h2.1, ih h1.2 h2.2]

theorem esc_append (a b : Bytes) : esc (a ++ b) = esc a ++ esc b := by
  induction a with
  | nil => rfl
  | cons r a ih => simp only [List.cons_append, esc, ih]; split <;> rfl

/-- The first byte to be escaped. -/
theorem first_special : ∀ (v : Bytes), (39 ∉ v ∧ 92 ∉ v) ∨ ∃ a c b, v = a ++ c :: b ∧ 39 ∉ a ∧ 92 ∉ a ∧ (c = 39 ∨ c = 92)
  | [] => .inl (by simp)
  | c :: v => by
    by_cases hc : c = 39 ∨ c = 92
    · exact .inr ⟨[], c, v, rfl, by simp, by simp, hc⟩
    · rw [not_or] at hc
      rcases first_special v with ⟨h1, h2⟩ | ⟨a, d, b, rfl, h1, h2, h3⟩
      · exact .inl ⟨by simp [h1, Ne.symm hc.1], by simp [h2, Ne.symm hc.2]⟩
      · exact .inr ⟨c :: a, d, b, rfl, by simp [h1, Ne.symm hc.1], by simp [h2, Ne.symm hc.2], h3⟩

theorem runes_free {v : Bytes} {c : UInt8} (hc : c.toNat < 128) (h : c ∉ v) : c.toNat ∉ runes v := fun hm => by
  have := (runes_mem v.length v (Nat.le_refl _) _ hm).2 hc
  rw [ofNat_toNat' c rfl] at this
  exact h this

theorem runes_esc (n : Nat) : ∀ v : Bytes, v.length ≤ n → runes (esc v) = escR (runes v) := by
  induction n with
  | zero =>
    intro v h
    have : v = [] := List.length_eq_zero_iff.1 (by omega)
    subst this; rfl
  | succ n ih =>
    intro v h
    rcases first_special v with ⟨h1, h2⟩ | ⟨a, c, b, rfl, h1, h2, h3⟩
    · rw [esc_free v h1 h2, escR_free _ (runes_free (c := 39) (by decide) h1) (runes_free (c := 92) (by decide) h2)]
    · have hc : c.toNat < 128 := by rcases h3 with rfl | rfl <;> decide
      have hs : (c = 39 || c = 92) = true := by rcases h3 with rfl | rfl <;> rfl
      have hs' : (c.toNat = 39 || c.toNat = 92) = true := by rcases h3 with rfl | rfl <;> rfl
      rw [esc_append, esc_free a h1 h2]
      simp only [esc, hs, if_true]
      rw [runes_cat a (c := 92) (by decide), runes_ascii hc, runes_cat a hc, escR_append,
        escR_free _ (runes_free (c := 39) (by decide) h1) (runes_free (c := 92) (by decide) h2)]
      simp only [escR, hs', if_true]
      rw [ih b (by simp at h; omega)]
      rfl

theorem scan_quoted (k rest : List Nat) : ∀ (rs acc : List Nat), parseOpts (.quoted k acc) (escR rs ++ 39 :: rest) =
    (parseOpts .start rest).map (pair k (rs.reverse ++ acc) :: ·)
  | [], acc => by simp [escR, parseOpts]
  | r :: rs, acc => by
    by_cases hr : r = 39 ∨ r = 92
    · have : (r = 39 || r = 92) = true := by rcases hr with rfl | rfl <;> rfl
      simp only [escR, this, if_true, List.cons_append, parseOpts]
      rw [if_neg (by decide), scan_quoted k rest rs]
      simp
    · have h2 : ¬ (r = 39 || r = 92) = true := by simpa using hr
      rw [not_or] at hr
      have e : escR (r :: rs) = r :: escR rs := by simp only [escR]; rw [if_neg h2]
      rw [e, List.cons_append]
      simp only [parseOpts]
      rw [if_neg hr.1, if_neg hr.2, scan_quoted k rest rs]
      simp

theorem scan_key (rest : List Nat) : ∀ (ks k : List Nat), (∀ r ∈ ks, isSpace r = false ∧ r ≠ 61) →
    parseOpts (.key k) (ks ++ 61 :: rest) = parseOpts (.val (ks.reverse ++ k)) rest
  | [], k, _ => by
    simp only [List.nil_append, parseOpts]
    rw [if_neg (by decide), if_pos trivial]; rfl
  | r :: ks, k, h => by
    obtain ⟨h1, h2⟩ := h r (by simp)
    simp only [List.cons_append, parseOpts, h1, h2, if_false, Bool.false_eq_true]
    rw [scan_key rest ks (r :: k) fun x hx => h x (by simp [hx])]
    simp

theorem scan_start (rest : List Nat) (ks : List Nat) (h : ∀ r ∈ ks, isSpace r = false ∧ r ≠ 61) :
    parseOpts .start (ks ++ 61 :: rest) = parseOpts (.val ks.reverse) rest := by
  cases ks with
  | nil =>
    simp only [List.nil_append, parseOpts]
    rw [if_neg (by decide), if_pos trivial]; rfl
  | cons r ks =>
    obtain ⟨h1, h2⟩ := h r (by simp)
    simp only [List.cons_append, parseOpts, h1, h2, if_false, Bool.false_eq_true]
    rw [scan_key rest ks [r] fun x hx => h x (by simp [hx])]
    simp

/-- A key that the scanner reads as it is written. -/
def KeyScan (k : Bytes) : Prop := ∀ r ∈ runes k, isSpace r = false ∧ r ≠ 61

theorem scan_kv (x : Bytes × Bytes) (hk : KeyScan x.1) (rest : List Nat) :
    parseOpts .start (runes (kv x) ++ rest) = (parseOpts .start rest).map ((clean x.1, clean x.2) :: ·) := by
  unfold kv
  rw [show x.1 ++ 61 :: 39 :: esc x.2 ++ [39] = x.1 ++ 61 :: (39 :: esc x.2 ++ [39]) by simp, runes_cat x.1 (c := 61) (by decide)]
  rw [show (39 :: esc x.2 ++ [39] : Bytes) = 39 :: (esc x.2 ++ 39 :: []) by simp, runes_ascii (c := 39) (by decide),
    runes_cat (esc x.2) (c := 39) (by decide), runes_esc x.2.length x.2 (Nat.le_refl _), runes_nil]
  show parseOpts .start ((runes x.1 ++ 61 :: 39 :: (escR (runes x.2) ++ [39])) ++ rest) = _
  rw [show (runes x.1 ++ 61 :: 39 :: (escR (runes x.2) ++ [39])) ++ rest = runes x.1 ++ 61 :: (39 :: (escR (runes x.2) ++ 39 :: rest)) by simp]
  rw [scan_start _ _ hk]
  simp only [parseOpts]
  rw [if_neg (by decide), if_pos trivial, scan_quoted]
  simp [pair, clean]

theorem kv_last (x : Bytes × Bytes) : ∃ w, kv x = w ++ [39] := ⟨_, rfl⟩

/-- The scanner finds what was quoted. -/
theorem scan_all : ∀ (items : List (Bytes × Bytes)), (∀ x ∈ items, KeyScan x.1) →
    parseOpts .start (runes (join 32 (items.map kv))) = some (items.map fun x => (clean x.1, clean x.2))
  | [], _ => rfl
  | [x], h => by
    have := scan_kv x (h x (by simp)) []
    simp only [List.append_nil] at this
    simp only [List.map, join]
    rw [this]; rfl
  | x :: y :: l, h => by
    have ih := scan_all (y :: l) fun z hz => h z (by simp at hz ⊢; exact .inr hz)
    rw [List.map_cons, join_cons _ _ (by simp), runes_cat _ (c := 32) (by decide), scan_kv x (h x (by simp))]
    have : parseOpts .start ((32 : UInt8).toNat :: runes (join 32 ((y :: l).map kv))) = parseOpts .start (runes (join 32 ((y :: l).map kv))) := by
      simp only [parseOpts]
      rw [if_pos (by decide)]
    rw [this, ih]; rfl

/-! ## Sorting and looking up -/

theorem insert_kv (x : Bytes × Bytes) : ∀ (l : List (Bytes × Bytes)), ∃ l' : List (Bytes × Bytes), l'.Perm (x :: l) ∧ insert (kv x) (l.map kv) = l'.map kv
  | [] => ⟨[x], .refl _, rfl⟩
  | y :: l => by
    simp only [List.map_cons, insert]
    split
    · exact ⟨x :: y :: l, .refl _, rfl⟩
    · obtain ⟨l', h1, h2⟩ := insert_kv x l
      exact ⟨y :: l', (h1.cons y).trans (.swap x y l), by rw [h2]; rfl⟩

theorem sort_kv : ∀ (l : List (Bytes × Bytes)), ∃ l' : List (Bytes × Bytes), l'.Perm l ∧ sort (l.map kv) = l'.map kv
  | [] => ⟨[], .refl _, rfl⟩
  | x :: l => by
    obtain ⟨l1, h1, h2⟩ := sort_kv l
    obtain ⟨l2, h3, h4⟩ := insert_kv x l1
    refine ⟨l2, h3.trans (h1.cons x), ?_⟩
    have : sort ((x :: l).map kv) = insert (kv x) (sort (l.map kv)) := rfl
    rw [this, h2, h4]

theorem fold_other (k : Bytes) : ∀ (l : List (Bytes × Bytes)) (o : Map), (∀ x ∈ l, x.1 ≠ k) → l.foldl (fun o x => o.set x.1 x.2) o k = o k
  | [], _, _ => rfl
  | x :: l, o, h => by
    rw [List.foldl_cons, fold_other k l _ fun y hy => h y (by simp [hy])]
    simp [Map.set, Ne.symm (h x (by simp))]

theorem fold_mem (k v : Bytes) : ∀ (l : List (Bytes × Bytes)) (o : Map), (l.map (·.1)).Nodup → (k, v) ∈ l →
    l.foldl (fun o x => o.set x.1 x.2) o k = some v
  | x :: l, o, hn, h => by
    rw [List.map_cons, List.nodup_cons] at hn
    rcases List.mem_cons.1 h with rfl | h
    · rw [List.foldl_cons, fold_other k l _ fun y hy e => hn.1 (by rw [← e]; exact List.mem_map.2 ⟨y, hy, rfl⟩)]
      simp [Map.set]
    · exact fold_mem k v l _ hn.2 h

/-- What the driver has read, for every environment, if no key occurs twice. -/
theorem settings {items : List (Bytes × Bytes)} (hk : ∀ x ∈ items, KeyScan x.1 ∧ Valid x.1) (hn : (items.map (·.1)).Nodup) :
    ∃ l, parseOpts .start (runes (join 32 (sort ((items.filter (·.2 ≠ [])).map kv)))) = some l ∧ ∀ base : Map,
      (∀ k v, (k, v) ∈ items → v ≠ [] → l.foldl (fun o x => o.set x.1 x.2) base k = some (clean v)) ∧
      ∀ k, (∀ v, (k, v) ∈ items → v = []) → l.foldl (fun o x => o.set x.1 x.2) base k = base k := by
  obtain ⟨l', h1, h2⟩ := sort_kv (items.filter (·.2 ≠ []))
  have hmem : ∀ x ∈ l', x ∈ items ∧ x.2 ≠ [] := fun x hx => by
    have := h1.mem_iff.1 hx
    simpa using this
  have hscan := scan_all l' fun x hx => (hk x (hmem x hx).1).1
  have hc : ∀ x ∈ l', clean x.1 = x.1 := fun x hx => clean_valid (hk x (hmem x hx).1).2
  have hkeys : (l'.map fun x => (clean x.1, clean x.2)).map (·.1) = l'.map (·.1) := by
    rw [List.map_map]
    exact List.map_congr_left fun x hx => hc x hx
  have hnd : (l'.map (·.1)).Nodup := by
    rw [(h1.map (·.1)).nodup_iff]
    exact (List.Sublist.map (fun x : Bytes × Bytes => x.1) (List.filter_sublist (l := items))).nodup hn
  refine ⟨_, by rw [h2]; exact hscan, fun base => ⟨fun k v hm hv => ?_, fun k hm => ?_⟩⟩
  · refine fold_mem k (clean v) _ base (by rw [hkeys]; exact hnd) ?_
    have : (k, v) ∈ l' := h1.mem_iff.2 (by simpa using ⟨hm, hv⟩)
    rw [List.mem_map]
    exact ⟨(k, v), this, by rw [hc _ this]⟩
  · refine fold_other k _ base fun x hx e => ?_
    rw [List.mem_map] at hx
    obtain ⟨y, hy, rfl⟩ := hx
    simp only [hc y hy] at e
    obtain ⟨y1, y2⟩ := hmem y hy
    exact y2 (hm y.2 (by rw [← e]; exact y1))

end Gears.Pq
