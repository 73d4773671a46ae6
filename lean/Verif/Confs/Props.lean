import Verif.Confs.Model
import Verif.Procs.Props

/-
C69–C74 and C84–C85.
-/

namespace Gears.Confs

open Gears.Str

/-! ## C69 -/

/-- **C69.** -/
theorem C69_text (dur : Int → Bytes) (u p u' p' : Bytes) :
    (∀ c : MysqlConf, { c with username := u, password := p }.text dur = { c with username := u', password := p' }.text dur) ∧
    (∀ c : PostgresqlConf, { c with username := u, password := p }.text dur = { c with username := u', password := p' }.text dur) ∧
    (∀ c : OracleConf, { c with username := u, password := p }.text dur = { c with username := u', password := p' }.text dur) ∧
    (∀ c : RedisConf, { c with password := p }.text = { c with password := p' }.text) ∧
    (∀ c : EsConf, { c with username := u, password := p }.text = { c with username := u', password := p' }.text) ∧
    (∀ c : PprofConf, { c with username := u, password := p }.text = { c with username := u', password := p' }.text) :=
  ⟨fun _ => rfl, fun _ => rfl, fun _ => rfl, fun _ => rfl, fun _ => rfl, fun _ => rfl⟩

example : (RedisConf.mk (ascii "h") 1 (ascii "secret") 2 3 4).text = ascii "{Host: h, Port: 1, Password: ***, Pool: 2, MinIdle: 3}" := by
  decide +kernel

/-! ## C70 -/

theorem natDigits_spec (n : Nat) : Procs.Digits (natDigits n) n ∧ natDigits n ≠ [] := by
  induction n using Nat.strongRecOn with
  | _ n ih =>
    rw [natDigits]
    split
    · rename_i h
      have := Procs.Digits.snoc n h .nil
      simp only [List.nil_append, Nat.mul_zero, Nat.zero_add] at this
      exact ⟨this, by simp⟩
    · rename_i h
      have := Procs.Digits.snoc (n % 10) (by omega) (ih (n / 10) (by omega)).1
      rw [show 10 * (n / 10) + n % 10 = n by omega] at this
      exact ⟨this, by simp⟩

/-- `Itoa` gives a decimal integer with the value. -/
theorem itoa_decimal (z : Int) : Procs.Decimal (itoa z) z := by
  obtain ⟨h1, h2⟩ := natDigits_spec z.natAbs
  unfold itoa
  split
  · rename_i h
    have := Procs.Decimal.minus h1 h2
    rwa [show -(z.natAbs : Int) = z by omega] at this
  · rename_i h
    have := Procs.Decimal.plain h1 h2
    rwa [show (z.natAbs : Int) = z by omega] at this

theorem itoa_inj {a b : Int} (h : itoa a = itoa b) : a = b := by
  have h1 := itoa_decimal a
  have h2 := itoa_decimal b
  rw [h] at h1
  rw [Procs.takeSign_spec] at h1 h2
  exact h1.2.2.trans h2.2.2.symm

theorem digits_no {n : Nat} {c : UInt8} (hc : Procs.isDigit c = false) : c ∉ natDigits n := by
  have h := ((Procs.digits_iff _ _).1 (natDigits_spec n).1).1
  rw [List.all_eq_true] at h
  intro hm
  have := h c hm
  rw [hc] at this; simp at this

theorem itoa_no {z : Int} {c : UInt8} (hc : Procs.isDigit c = false) (h45 : c ≠ 45) : c ∉ itoa z := by
  unfold itoa
  split
  · rw [List.mem_cons, not_or]; exact ⟨h45, digits_no hc⟩
  · exact digits_no hc

theorem limits_inj {a b : Int} {w t : Bytes} (h : itoa a ++ (44 :: w ++ (itoa a ++ t)) = itoa b ++ (44 :: w ++ (itoa b ++ t))) :
    a = b := by
  have h1 := cut_append (sep := 44) (w := itoa a) (w ++ (itoa a ++ t)) (itoa_no (by decide) (by decide))
  have h2 := cut_append (sep := 44) (w := itoa b) (w ++ (itoa b ++ t)) (itoa_no (by decide) (by decide))
  simp only [List.cons_append] at h
  rw [h, h2] at h1
  simp only [Prod.mk.injEq] at h1
  exact (itoa_inj h1.1).symm

/-- The full statement of C70 for mysql: the text determines both limits. -/
def C70Claim (dur : Int → Bytes) : Prop := ∀ (c c' : MysqlConf), c.text dur = c'.text dur →
  c.maxOpenConns = c'.maxOpenConns ∧ c.maxIdleConns = c'.maxIdleConns

/-- **C70** does not hold. -/
theorem C70_violated (dur : Int → Bytes) : ¬ C70Claim dur := by
  intro h
  have := (h ⟨[], 0, [], [], [], 1, 0, 0, 0, 0, 0, [], false, []⟩ ⟨[], 0, [], [], [], 2, 0, 0, 0, 0, 0, [], false, []⟩ rfl).1
  simp at this

/-- MaxOpenConns is not shown. -/
theorem C70_open_violated (dur : Int → Bytes) (n n' : Int) :
    (∀ c : MysqlConf, { c with maxOpenConns := n }.text dur = { c with maxOpenConns := n' }.text dur) ∧
    (∀ c : PostgresqlConf, { c with maxOpenConns := n }.text dur = { c with maxOpenConns := n' }.text dur) ∧
    (∀ c : OracleConf, { c with maxOpenConns := n }.text dur = { c with maxOpenConns := n' }.text dur) :=
  ⟨fun _ => rfl, fun _ => rfl, fun _ => rfl⟩

/-- **C70**, the part that holds: configurations that differ in MaxIdleConns only are printed differently. -/
theorem C70_partial (dur : Int → Bytes) (n n' : Int) (h : n ≠ n') :
    (∀ c : MysqlConf, { c with maxIdleConns := n }.text dur ≠ { c with maxIdleConns := n' }.text dur) ∧
    (∀ c : PostgresqlConf, { c with maxIdleConns := n }.text dur ≠ { c with maxIdleConns := n' }.text dur) ∧
    (∀ c : OracleConf, { c with maxIdleConns := n }.text dur ≠ { c with maxIdleConns := n' }.text dur) := by
  refine ⟨fun c hc => h ?_, fun c hc => h ?_, fun c hc => h ?_⟩
  · exact limits_inj (w := ascii " MaxIdleConns: ") (List.append_cancel_left hc)
  · exact limits_inj (w := ascii " MaxIdleConns: ") (List.append_cancel_left hc)
  · exact limits_inj (w := ascii " MaxIdleConns: ") (List.append_cancel_left hc)

/-! ## C71 -/

/-- Query unescaping: '+' is a space, %XY the byte with this number, all else but '%' stands for itself. -/
inductive Unescaped : Bytes → Bytes → Prop
  | nil : Unescaped [] []
  | space {s t : Bytes} (h : Unescaped s t) : Unescaped (43 :: s) (32 :: t)
  | hex {s t : Bytes} (a b : UInt8) (ha : isHex a = true) (hb : isHex b = true) (h : Unescaped s t) :
      Unescaped (37 :: a :: b :: s) ((unhex a * 16 + unhex b) :: t)
  | other {s t : Bytes} (c : UInt8) (h1 : c ≠ 37) (h2 : c ≠ 43) (h : Unescaped s t) : Unescaped (c :: s) (c :: t)

theorem unescape_plus (s : Bytes) : unescape true (43 :: s) = (unescape true s).map (fun r => 32 :: r) := by
  rw [unescape.eq_def]
  split
  · simp at *
  · rename_i heq; simp at heq
  · rename_i heq; simp at heq; obtain ⟨rfl, rfl⟩ := heq; simp

theorem unescape_iff (s t : Bytes) : queryUnescape s = some t ↔ Unescaped s t := by
  unfold queryUnescape
  constructor
  · have : ∀ k, ∀ s t : Bytes, s.length ≤ k → unescape true s = some t → Unescaped s t := by
      intro k
      induction k with
      | zero =>
        intro s t hs h
        have : s = [] := List.length_eq_zero_iff.1 (by omega)
        subst this
        simp [unescape] at h
        subst h
        exact .nil
      | succ k ih =>
        intro s t hs h
        cases s with
        | nil => simp [unescape] at h; subst h; exact .nil
        | cons c l =>
          simp at hs
          by_cases h1 : c = 37
          · subst h1
            match l with
            | [] => simp [unescape] at h
            | [a] => simp [unescape] at h
            | a :: b :: r =>
              simp only [unescape] at h
              split at h
              · rename_i hab
                simp at hab
                rw [Option.map_eq_some_iff] at h
                obtain ⟨t', ht', rfl⟩ := h
                simp at hs
                exact .hex a b hab.1 hab.2 (ih r t' (by omega) ht')
              · simp at h
          · by_cases h2 : c = 43
            · subst h2
              rw [unescape_plus, Option.map_eq_some_iff] at h
              obtain ⟨t', ht', rfl⟩ := h
              exact .space (ih l t' hs ht')
            · rw [unescape_plain h1 (fun _ => h2), Option.map_eq_some_iff] at h
              obtain ⟨t', ht', rfl⟩ := h
              exact .other c h1 h2 (ih l t' hs ht')
    exact this _ s t (Nat.le_refl _)
  · intro h
    induction h with
    | nil => rfl
    | space h ih => rw [unescape_plus, ih]; rfl
    | hex a b ha hb h ih => rw [unescape_percent ⟨ha, hb⟩, ih]; rfl
    | other c h1 h2 h ih => rw [unescape_plain h1 (fun _ => h2), ih]; rfl

/-- A well-formed item `name=escaped`, without any other '='. -/
def Item (item name value : Bytes) : Prop := ∃ e, item = name ++ 61 :: e ∧ 61 ∉ name ∧ 61 ∉ e ∧ Unescaped e value

theorem applyItem_spec (m : Map) (item : Bytes) :
    (∀ name value, Item item name value → applyItem m item = m.set name value) ∧
    ((∀ name value, ¬ Item item name value) → applyItem m item = m) := by
  constructor
  · rintro name value ⟨e, he, h1, h2, hu⟩
    have hs := (split_two 61 item name e).2 ⟨he, h1, h2⟩
    rw [← unescape_iff] at hu
    simp [applyItem, hs, hu]
  · intro h
    unfold applyItem
    split
    · rename_i a b hs
      split
      · rfl
      · rename_i v hv
        obtain ⟨h1, h2, h3⟩ := (split_two 61 item a b).1 hs
        exact absurd ⟨b, h1, h2, h3, (unescape_iff b v).1 hv⟩ (h a v)
    · rfl

theorem applyItem_name (m : Map) (item name : Bytes) (h : ∀ v, ¬ Item item name v) : applyItem m item name = m name := by
  by_cases hi : ∃ n v, Item item n v
  · obtain ⟨n, v, hi⟩ := hi
    rw [(applyItem_spec m item).1 n v hi]
    have : name ≠ n := by rintro rfl; exact h v hi
    simp [Map.set, this]
  · rw [(applyItem_spec m item).2 (fun n v hn => hi ⟨n, v, hn⟩)]

theorem foldl_name (items : List Bytes) (name : Bytes) : ∀ (m : Map), (∀ i ∈ items, ∀ v, ¬ Item i name v) →
    items.foldl applyItem m name = m name := by
  induction items with
  | nil => intro m _; rfl
  | cons i l ih =>
    intro m h
    rw [List.foldl_cons, ih _ (fun j hj => h j (by simp [hj])), applyItem_name _ _ _ (h i (by simp))]

theorem applyParams_eq (m : Map) (items : List Bytes) (h0 : items ≠ []) (h : ∀ i ∈ items, 38 ∉ i) :
    applyParams m (join 38 items) = items.foldl applyItem m := by
  unfold applyParams
  split
  · rw [split_join h0 h]
  · rename_i hp
    have hp : join 38 items = [] := by simpa using hp
    have := split_join h0 h
    rw [hp] at this
    rw [← this]
    have hi : applyItem m [] = m := by simp [applyItem, split]
    exact hi.symm

/-- **C71** (items).  Params is the items joined by '&': the option has the value of the last well-formed item with its
name, and if there is none, what it had before. -/
theorem C71_params (m : Map) (items : List Bytes) (h0 : items ≠ []) (h : ∀ i ∈ items, 38 ∉ i) (name : Bytes) :
    (∀ l1 item l2 value, items = l1 ++ item :: l2 → Item item name value → (∀ i ∈ l2, ∀ v, ¬ Item i name v) →
      applyParams m (join 38 items) name = some value) ∧
    ((∀ i ∈ items, ∀ v, ¬ Item i name v) → applyParams m (join 38 items) name = m name) := by
  rw [applyParams_eq m items h0 h]
  refine ⟨fun l1 item l2 value he hi hl => ?_, fun hn => foldl_name items name m hn⟩
  rw [he, List.foldl_append, List.foldl_cons, foldl_name l2 name _ hl, (applyItem_spec _ item).1 name value hi]
  simp [Map.set]

/-- Every Params string is the join of its items in exactly one way. -/
theorem C71_items (params : Bytes) : ∃ items : List Bytes, (items ≠ [] ∧ (∀ i ∈ items, 38 ∉ i) ∧ params = join 38 items) ∧
    ∀ items', items' ≠ [] → (∀ i ∈ items', 38 ∉ i) → params = join 38 items' → items' = items := by
  refine ⟨split 38 params, ⟨split_ne _ _, split_free _ _, (join_split _ _).symm⟩, fun items' h0 h he => ?_⟩
  rw [he, split_join h0 h]

/-- **C71** (order).  Computed options, then the customizer, then Params for postgres and oracle; Params, then the
customizer for mysql. -/
theorem C71_order :
    (∀ conf f, pgOptions conf (some f) = applyParams (f (if conf.connectTimeout ≠ 0 then
        Map.empty.set (ascii "connect_timeout") (itoa conf.connectTimeout) else Map.empty)) conf.params) ∧
    (∀ conf, pgOptions conf none = pgOptions conf (some id)) ∧
    (∀ conf f m, oracleOptions conf (some f) = some m → ∃ computed, m = applyParams (f computed) conf.params ∧
      (∀ k, computed k = if k = ascii "CONNECTION TIMEOUT" ∧ conf.connectTimeout ≠ 0 then some (itoa conf.connectTimeout)
        else if k = ascii "server" ∧ conf.servers ≠ [] then some conf.servers
        else if k = ascii "SID" ∧ conf.sid ≠ [] then some conf.sid else none)) ∧
    (∀ conf, oracleOptions conf none = oracleOptions conf (some id)) ∧
    (∀ conf f, oracleOptions conf f = none ↔ conf.sid = [] ∧ conf.service = []) ∧
    (∀ loc conf f, prepareMysql loc conf (some f) = (prepareMysql loc conf none).map f) ∧
    (∀ loc conf mc, prepareMysql loc conf none = some mc → mc.params = applyParams Map.empty conf.params) := by
  refine ⟨fun conf f => rfl, fun conf => rfl, fun conf f m h => ?_, fun conf => ?_, fun conf f => ?_, fun loc conf f => ?_,
    fun loc conf mc h => ?_⟩
  · unfold oracleOptions at h
    split at h
    · simp at h
    · simp only [Option.some.injEq] at h
      subst h
      refine ⟨_, rfl, fun k => ?_⟩
      by_cases h1 : conf.connectTimeout = 0 <;> by_cases h2 : conf.servers = [] <;> by_cases h3 : conf.sid = [] <;>
        simp [h1, h2, h3, Map.set, Map.empty]
  · unfold oracleOptions; split <;> rfl
  · unfold oracleOptions; split
    · rename_i h; simp [h]
    · rename_i h; simp only [reduceCtorEq, false_iff]; exact h
  · unfold prepareMysql
    simp only
    split <;> simp_all
  · unfold prepareMysql at h
    simp only at h
    split at h
    · simp at h
    · simp at h; subst h; rfl

example : applyParams Map.empty (ascii "a=1&b&c=%2z&a=%20x&d=1=2") (ascii "a") = some (ascii " x") ∧
    applyParams Map.empty (ascii "a=1&b&c=%2z&a=%20x&d=1=2") (ascii "c") = none ∧
    applyParams Map.empty (ascii "a=1&b&c=%2z&a=%20x&d=1=2") (ascii "d") = none := by decide +kernel

example : Item (ascii "a=%20x") (ascii "a") (ascii " x") :=
  ⟨ascii "%20x", rfl, by decide, by decide, .hex 50 48 rfl rfl (.other 120 (by decide) (by decide) .nil)⟩

/-! ## C84 -/

theorem escape_free (s : Bytes) : 38 ∉ queryEscape s ∧ 61 ∉ queryEscape s := by
  have h := escape_bytes s
  constructor <;> intro hm <;> rcases h _ hm with h | h | h <;> revert h <;> decide

/-- **C84.**  Options that are written as `name=QueryEscape(value)` arrive. -/
theorem C84_roundtrip (m : Map) (l : List (Bytes × Bytes)) (hl : l ≠ []) (hn : ∀ x ∈ l, 38 ∉ x.1 ∧ 61 ∉ x.1)
    (hd : (l.map (·.1)).Nodup) (x : Bytes × Bytes) (hx : x ∈ l) :
    applyParams m (join 38 (l.map fun x => x.1 ++ 61 :: queryEscape x.2)) x.1 = some x.2 := by
  have hitem : ∀ y : Bytes × Bytes, y ∈ l → Item (y.1 ++ 61 :: queryEscape y.2) y.1 y.2 := fun y hy =>
    ⟨queryEscape y.2, rfl, (hn y hy).2, (escape_free _).2, (unescape_iff _ _).1 (unescape_escape _)⟩
  obtain ⟨l1, l2, rfl⟩ := List.append_of_mem hx
  refine (C71_params m _ (by simp) ?_ x.1).1 (l1.map fun x => x.1 ++ 61 :: queryEscape x.2) (x.1 ++ 61 :: queryEscape x.2)
    (l2.map fun x => x.1 ++ 61 :: queryEscape x.2) x.2 (by simp) (hitem x (by simp)) ?_
  · intro i hi
    rw [List.mem_map] at hi
    obtain ⟨y, hy, rfl⟩ := hi
    rw [List.mem_append, not_or, List.mem_cons, not_or]
    exact ⟨(hn y hy).1, by decide, (escape_free _).1⟩
  · intro i hi v hv
    rw [List.mem_map] at hi
    obtain ⟨y, hy, rfl⟩ := hi
    obtain ⟨e, he, h1, h2, -⟩ := hv
    have g1 := (split_two 61 _ _ _).2 ⟨he, h1, h2⟩
    have g2 := (split_two 61 _ _ _).2 ⟨rfl, (hn y (by simp [hy])).2, (escape_free y.2).2⟩
    rw [g1] at g2
    simp at g2
    rw [List.map_append, List.map_cons] at hd
    have := (List.nodup_append.1 hd).2.1
    rw [List.nodup_cons] at this
    exact this.1 (List.mem_map.2 ⟨y, hy, g2.1.symm⟩)

/-! ## C72 -/

/-- **C72** (fasthttp).  The handler runs exactly if both are configured and the header decodes to them, with or without
the word Basic; a colon in one of them makes it unreachable. -/
theorem C72_fasthttp (conf : PprofConf) (header : Bytes) :
    fasthttpPprof conf header = .runs ↔ conf.username ≠ [] ∧ conf.password ≠ [] ∧ 58 ∉ conf.username ∧ 58 ∉ conf.password ∧
      b64decode (trimPrefix header (ascii "Basic ")) = some (conf.username ++ 58 :: conf.password) := by
  unfold fasthttpPprof
  by_cases h1 : conf.username = [] ∨ conf.password = []
  · rw [if_pos h1]
    constructor
    · intro h; simp at h
    · rintro ⟨g1, g2, -⟩; rcases h1 with h1 | h1 <;> contradiction
  · rw [if_neg h1]
    rw [not_or] at h1
    simp only [ne_eq, h1, not_false_eq_true, true_and]
    by_cases h2 : trimPrefix header (ascii "Basic ") = []
    · rw [if_pos h2, h2]
      constructor
      · intro h; simp at h
      · rintro ⟨-, -, h⟩
        have : b64decode [] = some [] := rfl
        rw [this] at h
        simp at h
    · rw [if_neg h2]
      cases hd : b64decode (trimPrefix header (ascii "Basic ")) with
      | none => simp
      | some b =>
        simp only [Option.some.injEq]
        have key := fun u p => split_two 58 b u p
        constructor
        · intro h
          split at h
          · rename_i u p hs
            obtain ⟨g1, g2, g3⟩ := (key u p).1 hs
            split at h
            · simp at h
            · rename_i hc
              simp only [not_or, Decidable.not_not] at hc
              rw [← hc.1, ← hc.2]
              exact ⟨g2, g3, g1⟩
          · simp at h
        · rintro ⟨g1, g2, g3⟩
          rw [(key conf.username conf.password).2 ⟨g3, g1, g2⟩]
          simp

/-- **C72** (fasthttp, reachability).  With the header of the configured credentials it runs, if they are free of colons. -/
theorem C72_reachable (conf : PprofConf) (h1 : conf.username ≠ []) (h2 : conf.password ≠ []) (h3 : 58 ∉ conf.username)
    (h4 : 58 ∉ conf.password) :
    fasthttpPprof conf (ascii "Basic " ++ b64encode (conf.username ++ 58 :: conf.password)) = .runs := by
  rw [C72_fasthttp]
  refine ⟨h1, h2, h3, h4, ?_⟩
  have : isPrefix (ascii "Basic ") (ascii "Basic " ++ b64encode (conf.username ++ 58 :: conf.password)) = true :=
    (isPrefix_iff _ _).2 ⟨_, rfl⟩
  rw [trimPrefix, if_pos this, List.drop_left' rfl, b64decode_encode]

/-- Requests without credentials, or with others, do not reach it. -/
theorem C72_others (conf : PprofConf) (u p : Bytes) (h : 58 ∉ u) (hne : u ≠ conf.username ∨ p ≠ conf.password) :
    fasthttpPprof conf [] ≠ .runs ∧
    fasthttpPprof conf (ascii "Basic " ++ b64encode (u ++ 58 :: p)) ≠ .runs := by
  constructor
  · rw [Ne, C72_fasthttp]
    rintro ⟨-, -, -, -, hd⟩
    have : b64decode (trimPrefix [] (ascii "Basic ")) = some [] := rfl
    rw [this] at hd
    simp at hd
  · rw [Ne, C72_fasthttp]
    rintro ⟨-, -, h3, -, hd⟩
    have : isPrefix (ascii "Basic ") (ascii "Basic " ++ b64encode (u ++ 58 :: p)) = true := (isPrefix_iff _ _).2 ⟨_, rfl⟩
    rw [trimPrefix, if_pos this, List.drop_left' rfl, b64decode_encode] at hd
    simp only [Option.some.injEq] at hd
    have e1 := cut_append (sep := 58) (w := u) p h
    have e2 := cut_append (sep := 58) (w := conf.username) conf.password h3
    rw [hd, e2] at e1
    simp only [Prod.mk.injEq, Option.some.injEq] at e1
    rcases hne with hne | hne
    · exact hne e1.1.symm
    · exact hne e1.2.symm

/-- **C72** (gin).  The filter lets exactly the header of the configured credentials through, and nothing if they are not
both configured. -/
theorem C72_gin (conf : PprofConf) (header : Bytes) :
    (ginPprof conf header = .passes ↔ conf.username ≠ [] ∧ conf.password ≠ [] ∧
      header = ascii "Basic " ++ b64encode (conf.username ++ 58 :: conf.password)) ∧
    (conf.username = [] ∨ conf.password = [] → ginPprof conf header = .notFound) := by
  unfold ginPprof
  by_cases h1 : conf.username = [] ∨ conf.password = []
  · rw [if_pos h1]
    refine ⟨⟨fun h => by simp at h, ?_⟩, fun _ => rfl⟩
    rintro ⟨g1, g2, -⟩; rcases h1 with h1 | h1 <;> contradiction
  · rw [if_neg h1]
    refine ⟨?_, fun h => absurd h h1⟩
    rw [not_or] at h1
    simp only [ne_eq, h1, not_false_eq_true, true_and]
    by_cases h2 : header = []
    · subst h2
      rw [if_pos rfl]
      constructor
      · intro h; simp at h
      · intro h
        have := congrArg List.length h
        simp [ascii] at this
    · rw [if_neg h2]
      by_cases h3 : ascii "Basic " ++ b64encode (conf.username ++ 58 :: conf.password) = header
      · rw [if_pos h3]; exact ⟨fun _ => h3.symm, fun _ => rfl⟩
      · rw [if_neg h3]; exact ⟨fun h => by simp at h, fun h => absurd h.symm h3⟩

example : fasthttpPprof ⟨ascii "user", ascii "pass", 0, 0⟩ (ascii "Basic dXNlcjpwYXNz") = .runs ∧
    fasthttpPprof ⟨ascii "user", ascii "pass", 0, 0⟩ (ascii "Basic dXNlcjpwYXN0") = .refused ∧
    ginPprof ⟨ascii "user", ascii "pass", 0, 0⟩ (ascii "Basic dXNlcjpwYXNz") = .passes := by decide +kernel

/-! ## C73 -/

/-- What a client trusts when it verifies servers. -/
inductive Trust where
  | anything
  | hostRoots
  | certs (files : List Bytes)
deriving DecidableEq

/-- The meaning of a TLS configuration; without one the default is used. -/
def trust : Option TlsConfig → Trust
  | none => .hostRoots
  | some c =>
    if c.insecureSkipVerify then .anything
    else match c.rootCAs with
      | none => .hostRoots
      | some l => .certs l

/-- What the options ask for. -/
def wanted (c : FastHttpClientConf) : Trust :=
  if c.sslTrustMode = ascii "CUSTOM" ∧ c.sslTrustCerts ≠ [] then .certs (split 44 c.sslTrustCerts)
  else if c.sslTrustMode = ascii "INSECURE" then .anything
  else .hostRoots

/-- The full statement of C73. -/
def C73Claim : Prop := ∀ (kp : Bool) (ok : Bytes → Bool) (c : FastHttpClientConf) (t : Option TlsConfig),
  newFastHttpClient kp ok c = some t → trust t = wanted c

theorem C73_violated : ¬ C73Claim := by
  intro h
  have := h true (fun _ => true) ⟨[], [], ascii "CUSTOM", ascii "ca.pem"⟩ none (by decide +kernel)
  revert this
  decide +kernel

/-- **C73** does not hold: without a client certificate, mode CUSTOM uses the roots of the host. -/
theorem C73_custom_violated (kp : Bool) (ok : Bytes → Bool) (c : FastHttpClientConf) (t : Option TlsConfig)
    (h : newFastHttpClient kp ok c = some t) (h1 : c.certChain = []) (h2 : c.privateKey = [])
    (h3 : c.sslTrustMode = ascii "CUSTOM") (h4 : c.sslTrustCerts ≠ []) : trust t = .hostRoots := by
  simp only [newFastHttpClient, h1, h2, h3, h4, ne_eq, not_true_eq_false, or_self, if_false, not_false_eq_true, and_self,
    if_true] at h
  split at h <;> simp at h
  subst h
  rfl

example : newFastHttpClient true (fun _ => true) ⟨[], [], ascii "CUSTOM", ascii "ca.pem"⟩ = some none := by decide +kernel

/-- **C73**, what holds: the mode is honoured if it is not CUSTOM, or if a client certificate is configured. -/
theorem C73_partial (kp : Bool) (ok : Bytes → Bool) (c : FastHttpClientConf) (t : Option TlsConfig)
    (h : newFastHttpClient kp ok c = some t)
    (h1 : (c.certChain ≠ [] ∨ c.privateKey ≠ []) ∨ ¬ (c.sslTrustMode = ascii "CUSTOM" ∧ c.sslTrustCerts ≠ [])) :
    trust t = wanted c := by
  by_cases hk : c.certChain ≠ [] ∨ c.privateKey ≠ []
  · unfold newFastHttpClient at h
    simp only [hk, if_true] at h
    cases kp
    · simp at h
    · simp only [if_true] at h
      unfold wanted
      split at h
      · rename_i hm
        rw [if_pos hm]
        split at h <;> simp at h
        subst h; simp [trust]
      · rename_i hm
        rw [if_neg hm]
        split at h
        · rename_i hi; rw [if_pos hi]; simp at h; subst h; simp [trust]
        · rename_i hi; rw [if_neg hi]; simp at h; subst h; simp [trust]
  · have hm := h1.resolve_left hk
    unfold newFastHttpClient at h
    simp only [hk, if_false, hm] at h
    unfold wanted
    rw [if_neg hm]
    split at h
    · rename_i hi; rw [if_pos hi]; simp at h; subst h; simp [trust]
    · rename_i hi; rw [if_neg hi]; simp at h; subst h; simp [trust]

/-- Client certificates are used if configured. -/
theorem C73_certificates (kp : Bool) (ok : Bytes → Bool) (c : FastHttpClientConf) (t : Option TlsConfig)
    (h : newFastHttpClient kp ok c = some t) (hk : c.certChain ≠ [] ∨ c.privateKey ≠ []) :
    kp = true ∧ ∃ x, t = some x ∧ x.certificates = [(c.certChain, c.privateKey)] := by
  unfold newFastHttpClient at h
  simp only [hk, if_true] at h
  cases kp
  · simp at h
  · simp only [if_true] at h
    (repeat' split at h) <;> simp at h <;> subst h <;> exact ⟨rfl, _, rfl, rfl⟩

example : newFastHttpClient true (fun _ => true) ⟨ascii "c", ascii "k", ascii "CUSTOM", ascii "a,b"⟩ =
    some (some ⟨[(ascii "c", ascii "k")], some [ascii "a", ascii "b"], false⟩) := by decide +kernel

/-! ## C74 -/

/-- The full statement of C74. -/
def C74Claim : Prop := ∀ conf : EsConf, (esTransport conf).maxConnsPerHost = conf.maxConnsPerHost ∧
  (esTransport conf).maxIdleConnsPerHost = conf.maxIdleConnsPerHost

/-- **C74** does not hold: the connections per host are never limited, and the limit on idle connections per host is the
other option. -/
theorem C74_violated : ¬ C74Claim ∧ ∀ conf : EsConf, (esTransport conf).maxConnsPerHost = 0 ∧
    (esTransport conf).maxIdleConnsPerHost = conf.maxConnsPerHost := by
  refine ⟨fun h => ?_, fun _ => ⟨rfl, rfl⟩⟩
  have := (h ⟨[], [], [], 10, 5⟩).1
  simp [esTransport, defaultTransport] at this

/-- What holds: idle connections per host are at most MaxConnsPerHost, idle connections in total at most
MaxIdleConnsPerHost; so with one host, and a positive MaxIdleConnsPerHost, it bounds the idle connections of this host. -/
theorem C74_partial (conf : EsConf) : (esTransport conf).maxIdleConns = conf.maxIdleConnsPerHost ∧
    (esTransport conf).maxIdleConnsPerHost = conf.maxConnsPerHost := ⟨rfl, rfl⟩

example : esTransport ⟨[], [], [], 10, 5⟩ = ⟨0, 10, 5⟩ := rfl

/-! ## C85 -/

/-- **C85.**  A database is returned only if it was opened and could be reached, with the configured limits; idle
connections are limited by the limit of open ones, too. -/
theorem C85_pool (openOk pingOk : Bool) (maxOpen maxIdle lifetime : Int) (p : Pool)
    (h : newDb openOk pingOk maxOpen maxIdle lifetime = some p) :
    openOk = true ∧ pingOk = true ∧
    (0 < maxOpen → p.maxOpen = maxOpen) ∧ (maxOpen ≤ 0 → p.maxOpen = 0) ∧
    (maxIdle ≤ 0 → p.maxIdle = 0) ∧ (0 < maxIdle → maxOpen ≤ 0 → p.maxIdle = maxIdle) ∧
    (0 < maxIdle → 0 < maxOpen → p.maxIdle = min maxIdle maxOpen) ∧
    (0 ≤ lifetime → p.maxLifetime = lifetime) := by
  unfold newDb at h
  cases openOk <;> cases pingOk <;> simp at h
  subst h
  refine ⟨rfl, rfl, ?_, ?_, ?_, ?_, ?_, ?_⟩ <;>
    simp only [Pool.setMaxLifetime, Pool.setMaxIdle, Pool.setMaxOpen, Pool.open] <;> intros <;> (repeat' split) <;> omega

/-- **C85** (endpoints).  The clients get the configured endpoint and credentials. -/
theorem C85_endpoints :
    (∀ loc conf mc, prepareMysql loc conf none = some mc → mc.user = conf.username ∧ mc.passwd = conf.password ∧
      mc.addr = conf.host ++ 58 :: itoa conf.port ∧ mc.dbName = conf.database ∧ mc.timeout = conf.timeout ∧
      mc.readTimeout = conf.readTimeout ∧ mc.writeTimeout = conf.writeTimeout ∧ mc.parseTime = conf.parseTime ∧
      (conf.loc = [] → mc.loc = 0) ∧ (conf.loc ≠ [] → loc conf.loc = some mc.loc)) ∧
    (∀ loc conf f, prepareMysql loc conf f = none ↔ conf.loc ≠ [] ∧ loc conf.loc = none) ∧
    (∀ conf, prepareRedis conf none = ⟨conf.host ++ 58 :: itoa conf.port, conf.password, conf.pool, conf.minIdle, conf.db⟩) ∧
    (∀ conf f, prepareRedis conf (some f) = f (prepareRedis conf none)) ∧
    (∀ host port host' port', 58 ∉ host → 58 ∉ host' → host ++ 58 :: itoa port = host' ++ 58 :: itoa port' →
      host = host' ∧ port = port') := by
  refine ⟨fun loc conf mc h => ?_, fun loc conf f => ?_, fun conf => rfl, fun conf f => rfl,
    fun host port host' port' h h' he => ?_⟩
  · unfold prepareMysql at h
    simp only at h
    split at h
    · simp at h
    · rename_i l hl
      simp at h; subst h
      refine ⟨rfl, rfl, rfl, rfl, rfl, rfl, rfl, rfl, fun h0 => ?_, fun h0 => ?_⟩
      · simp [h0] at hl; simp [hl]
      · rw [if_pos h0] at hl; exact hl
  · unfold prepareMysql
    simp only
    by_cases h0 : conf.loc = []
    · simp [h0]
    · simp only [ne_eq, h0, not_false_eq_true, if_true, true_and]
      cases loc conf.loc <;> simp
  · have h1 := cut_append (sep := 58) (itoa port) h
    have h2 := cut_append (sep := 58) (itoa port') h'
    rw [he, h2] at h1
    simp at h1
    exact ⟨h1.1.symm, (itoa_inj h1.2).symm⟩

example : newDb true true 10 20 0 = some ⟨10, 10, 0⟩ ∧ newDb true false 10 20 0 = none := by decide

end Gears.Confs
