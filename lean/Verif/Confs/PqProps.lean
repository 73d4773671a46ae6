import Verif.Confs.PqUrl

/-
C122: the settings with which lib/pq connects.
-/

namespace Gears.Pq

open Gears.Str Gears.Utf8 Gears.Confs
open Gears.Url (Esc HostText Host HostChar UserChar Digit Visible Means Query Hier Authority Scheme Port)

/-! ## Specification -/

/-- The driver asks the server for these. -/
structure Configured (conf : PostgresqlConf) (m : Map) (host : Bytes) (o : Map) : Prop where
  user : (o (ascii "user")).getD [] = conf.username
  password : (o (ascii "password")).getD [] = conf.password
  host : (o (ascii "host")).getD [] = host
  port : (o (ascii "port")).getD [] = itoa conf.port
  database : (o (ascii "dbname")).getD [] = conf.database
  options : ∀ k v, m k = some v → (o k).getD [] = v

/-- The environment does not ask for what the driver cannot do. -/
def EnvOk (env : Env) : Prop :=
  (∀ v, env.base (ascii "client_encoding") = some v → isUTF8 v = true) ∧ ∀ v, env.base (ascii "datestyle") = some v → v = ascii "ISO, MDY"

/-- The full statement of C122: the driver connects with what was configured, whatever the environment. -/
def C122Claim : Prop := ∀ (conf : PostgresqlConf) (m : Map) (order : List (Bytes × Bytes)) (env : Env), Ranges m order → EnvOk env →
  ∃ o, connect env (buildPgDsn conf order) = some o ∧ Configured conf m conf.host o

/-- The settings made from the configuration. -/
def reserved : List Bytes := [ascii "user", ascii "password", ascii "host", ascii "port", ascii "dbname"]

/-- Keys of options: without control characters, #%&+;= and white space, UTF-8, and not the name of another setting. -/
structure KeyPlain (k : Bytes) : Prop where
  bytes : ∀ c ∈ k, keyByte c = true
  runes : ∀ r ∈ runes k, isSpace r = false
  valid : Valid k
  free : k ∉ reserved
  encoding : k ≠ ascii "client_encoding"
  date : k ≠ ascii "datestyle"

/-- A value that is not empty, or that the environment has none for. -/
def Settled (env : Env) (k v : Bytes) : Prop :=
  v ≠ [] ∨ (env.base k = none ∧ k ≠ ascii "user" ∧ k ≠ ascii "application_name")

/-- What the rest needs. -/
structure Plain (conf : PostgresqlConf) (host : Bytes) (order : List (Bytes × Bytes)) (env : Env) : Prop where
  known : EnvOk env
  keys : ∀ x ∈ order, KeyPlain x.1
  /-- no comma, no space at the ends -/
  values : ∀ x ∈ order, 44 ∉ x.2 ∧ trimSpace x.2 = x.2 ∧ Valid x.2 ∧ Settled env x.1 x.2
  user : conf.username ≠ []
  password : Settled env (ascii "password") conf.password
  host : Valid host ∧ Settled env (ascii "host") host
  database : Valid conf.database ∧ Settled env (ascii "dbname") conf.database

/-! ## Proofs -/

/-- The URL of the DSN. -/
def urlOf (conf : PostgresqlConf) (h q : Bytes) : Url.URL :=
  { scheme := ascii "postgres", user := some (conf.username, some conf.password), host := h, path := 47 :: conf.database,
    forceQuery := decide (q = []), rawQuery := q }

theorem lower_postgres : (ascii "postgres").map Url.lower = ascii "postgres" := by decide +kernel

theorem scheme_bytes : ∀ c ∈ ascii "postgres", Url.isCtl c = false ∧ c ≠ 35 := by decide +kernel

theorem visible_of {s : Bytes} (h : ∀ c ∈ s, Url.isCtl c = false) : Visible s := by
  rw [← Url.visible_iff, List.any_eq_false]
  intro c hc
  rw [h c hc]; simp

/-- The URL is read as it was written. -/
theorem url_read {conf : PostgresqlConf} {order : List (Bytes × Bytes)} {h : Bytes} (hk : KeysPlain order)
    (hu : ∀ c ∈ conf.username, UserChar c ∧ c ≠ 37 ∧ c ≠ 58) (hp : ∀ c ∈ conf.password, UserChar c ∧ c ≠ 37)
    (hd : ∀ c ∈ conf.database, Url.isCtl c = false ∧ c ≠ 37 ∧ c ≠ 63 ∧ c ≠ 35)
    (hh : ∀ c ∈ conf.host ++ 58 :: itoa conf.port, Inside c ∧ Url.isCtl c = false) (hho : Host (conf.host ++ 58 :: itoa conf.port) h) :
    urlParse (buildPgDsn conf order) = some (urlOf conf h (queryText order)) := by
  have hui : ∀ c ∈ conf.username ++ 58 :: conf.password, UserChar c := by
    intro c hc
    rw [List.mem_append, List.mem_cons] at hc
    rcases hc with hc | rfl | hc
    · exact (hu c hc).1
    · rw [← Url.userChar_iff]; decide
    · exact (hp c hc).1
  have hub : ∀ c ∈ conf.username ++ 58 :: conf.password, c ≠ 47 ∧ c ≠ 63 ∧ c ≠ 35 ∧ Url.isCtl c = false := fun c hc =>
    userChar_inside c ((Url.userChar_iff c).2 (hui c hc))
  have hauth : ∀ c ∈ conf.username ++ 58 :: conf.password ++ 64 :: (conf.host ++ 58 :: itoa conf.port), c ≠ 47 ∧ c ≠ 63 ∧ c ≠ 35 ∧ Url.isCtl c = false := by
    intro c hc
    rw [List.mem_append, List.mem_cons] at hc
    rcases hc with hc | rfl | hc
    · exact hub c hc
    · decide
    · have := hh c hc
      exact ⟨this.1.2.1, this.1.2.2.1, this.1.2.2.2, this.2⟩
  have hbody : body conf (queryText order) = (conf.username ++ 58 :: conf.password ++ 64 :: (conf.host ++ 58 :: itoa conf.port)) ++ 47 :: conf.database ++ 63 :: queryText order := by
    simp [body]
  have hall : ∀ c ∈ buildPgDsn conf order, Url.isCtl c = false ∧ c ≠ 35 := by
    intro c hc
    rw [dsn_eq conf hk, hbody, List.mem_append] at hc
    rcases hc with hc | hc
    · exact scheme_bytes c hc
    · rw [List.mem_cons, List.mem_cons, List.mem_cons, List.mem_append, List.mem_append, List.mem_cons, List.mem_cons] at hc
      rcases hc with rfl | rfl | rfl | (hc | rfl | hc) | rfl | hc
      · decide
      · decide
      · decide
      · exact ⟨(hauth c hc).2.2.2, (hauth c hc).2.2.1⟩
      · decide
      · exact ⟨(hd c hc).1, (hd c hc).2.2.2⟩
      · decide
      · exact query_bytes hk c hc
  have hm : Means (buildPgDsn conf order) (urlOf conf h (queryText order)) := by
    have ha : Authority (conf.username ++ 58 :: conf.password ++ 64 :: (conf.host ++ 58 :: itoa conf.port)) (some (conf.username, some conf.password)) h :=
      .password (fun hm => (hh _ hm).1.1 rfl) hho hui (fun hm => (hu _ hm).2.2 rfl) (esc_plain fun hm => (hu _ hm).2.1 rfl)
        (esc_plain fun hm => (hp _ hm).2 rfl)
    have hf : Hier (ascii "postgres") (decide (queryText order = [])) (queryText order)
        (47 :: 47 :: (conf.username ++ 58 :: conf.password ++ 64 :: (conf.host ++ 58 :: itoa conf.port)) ++ 47 :: conf.database) (urlOf conf h (queryText order)) :=
      .full (fun hm => (hauth _ hm).1 rfl) (.inr rfl) ha (esc_plain (s := 47 :: conf.database) fun hm => by
        rcases List.mem_cons.1 hm with h | hm
        · simp at h
        · exact (hd _ hm).2.1 rfl)
    have h63 : 63 ∉ 47 :: 47 :: (conf.username ++ 58 :: conf.password ++ 64 :: (conf.host ++ 58 :: itoa conf.port)) ++ 47 :: conf.database := by
      intro hm
      rw [List.mem_append, List.mem_cons, List.mem_cons, List.mem_cons] at hm
      rcases hm with (hm | hm | hm) | hm | hm
      · simp at hm
      · simp at hm
      · exact (hauth _ hm).2.1 rfl
      · simp at hm
      · exact (hd _ hm).2.2.1 rfl
    rw [dsn_eq conf hk, hbody]
    have hq : Query (47 :: 47 :: ((conf.username ++ 58 :: conf.password ++ 64 :: (conf.host ++ 58 :: itoa conf.port)) ++ 47 :: conf.database ++ 63 :: queryText order))
        (47 :: 47 :: (conf.username ++ 58 :: conf.password ++ 64 :: (conf.host ++ 58 :: itoa conf.port)) ++ 47 :: conf.database)
        (decide (queryText order = [])) (queryText order) := by
      by_cases h0 : queryText order = []
      · rw [h0]; exact .empty h63
      · rw [decide_eq_false h0]; exact .some h63 h0
    have := Means.scheme scheme_postgres hq (u := urlOf conf h (queryText order)) (by rw [lower_postgres]; exact hf)
    exact this
  have hcut : cut 35 (buildPgDsn conf order) = (buildPgDsn conf order, none) := cut_of_free fun hm => (hall _ hm).2 rfl
  unfold urlParse
  rw [hcut]
  simp only
  rw [(Url.C113_parse _ _).2 ⟨visible_of fun c hc => (hall c hc).1, hm⟩]
  rfl

theorem host_ctl (c : UInt8) : Url.hostOk c = true → Url.isCtl c = false := by
  revert c
  exact all_bytes (by decide +kernel)

theorem high_ctl (c : UInt8) : 128 ≤ c → Url.isCtl c = false := by
  revert c
  exact all_bytes (by decide +kernel)

theorem db_ctl (c : UInt8) : (32 ≤ c ∧ c ≠ 127) → Url.isCtl c = false := by
  revert c
  exact all_bytes (by decide +kernel)

theorem hostText_plain : ∀ {s : Bytes}, (∀ c ∈ s, 128 ≤ c ∨ HostChar c) → HostText false s s
  | [], _ => .nil
  | c :: s, h => .plain (h c (by simp)) (hostText_plain fun d hd => h d (by simp [hd]))

theorem hostBytes {conf : PostgresqlConf} (h : ∀ c ∈ conf.host, 128 ≤ c ∨ HostChar c) (hp : 0 ≤ conf.port) :
    ∀ c ∈ conf.host ++ 58 :: itoa conf.port, (Inside c ∧ Url.isCtl c = false) ∧ (128 ≤ c ∨ HostChar c) := by
  intro c hc
  rw [List.mem_append, List.mem_cons] at hc
  rcases hc with hc | rfl | hc
  · refine ⟨?_, h c hc⟩
    rcases h c hc with h | h
    · exact ⟨high_inside c h, high_ctl c h⟩
    · have := (Url.hostChar_iff c).2 h
      exact ⟨hostChar_inside c this, host_ctl c this⟩
  · exact ⟨by decide, .inr (by rw [← Url.hostChar_iff]; decide)⟩
  · have := digit_inside c (itoa_digits _ hp c hc)
    exact ⟨⟨this.1, this.2.2.2.2.2.2⟩, .inr ((Url.hostChar_iff c).1 this.2.2.2.2.2.1)⟩

theorem port_split {conf : PostgresqlConf} (hp : 0 ≤ conf.port) {a p : Bytes} (e : conf.host ++ 58 :: itoa conf.port = a ++ 58 :: p) (h : 58 ∉ p) :
    ∀ c ∈ p, Digit c := by
  have h2 : 58 ∉ itoa conf.port := fun hm => (digit_inside _ (itoa_digits _ hp _ hm)).2.1 rfl
  have := cutLast_append conf.host h2
  rw [e, cutLast_append a h] at this
  simp at this
  intro c hc
  rw [this.2] at hc
  exact (Url.digit_iff c).1 (digit_inside c (itoa_digits _ hp c hc)).2.2.2.2.1

theorem url_sufficient {conf : PostgresqlConf} {order : List (Bytes × Bytes)} (hk : KeysPlain order) (hc : UrlPlain conf) :
    urlParse (buildPgDsn conf order) = some (urlOf conf (conf.host ++ 58 :: itoa conf.port) (queryText order)) ∧
      splitHostPort (conf.host ++ 58 :: itoa conf.port) = some (conf.host, itoa conf.port) := by
  have hb := hostBytes (fun c h => (hc.host c h).1) hc.port
  refine ⟨url_read hk hc.user hc.password (fun c h => ⟨db_ctl c (hc.database c h).1, (hc.database c h).2⟩) (fun c h => (hb c h).1) ?_, ?_⟩
  · refine .name ?_ (fun a p e h => port_split hc.port e h) (hostText_plain fun c h => (hb c h).2)
    cases hh : conf.host with
    | nil => simp
    | cons c l =>
      have := (hc.host c (by rw [hh]; simp)).2.2.1
      simpa using this
  · exact split_name (fun hm => (hc.host _ hm).2.1 rfl) (fun hm => (hc.host _ hm).2.2.1 rfl) (fun hm => (hc.host _ hm).2.2.2 rfl)
      fun c h => by
        have := digit_inside c (itoa_digits _ hc.port c h)
        exact ⟨this.2.1, this.2.2.1, this.2.2.2.1⟩

/-- **C122**, the URL: `net/url` finds the configured user, password, host, port and database in the DSN exactly if they need no
escapes (and the host no brackets), whatever the options. -/
theorem C122_url (conf : PostgresqlConf) (order : List (Bytes × Bytes)) (hk : KeysPlain order) :
    (∃ u, urlParse (buildPgDsn conf order) = some u ∧ Carried conf u) ↔ UrlPlain conf := by
  constructor
  · rintro ⟨u, hu, hc⟩
    have hp : Url.parseRequestURI (cut 35 (buildPgDsn conf order)).1 = some u := by
      unfold urlParse at hu
      split at hu
      · rename_i h _
        rw [h]; simpa using hu
      · simp at hu
    rw [dsn_eq conf hk] at hp
    have hcut : ∃ x z, cut 35 (ascii "postgres" ++ 58 :: 47 :: 47 :: body conf (queryText order)) = (ascii "postgres" ++ 58 :: 47 :: 47 :: x, z) ∧ 35 ∉ x ∧
        ∃ z, body conf (queryText order) = x ++ z ∧ (z = [] ∨ z.head? = some 35) := by
      have h35 : 35 ∉ ascii "postgres" ++ [58, 47, 47] := by decide +kernel
      by_cases hm : 35 ∈ body conf (queryText order)
      · obtain ⟨a, b, e, ha⟩ := List.eq_append_cons_of_mem hm
        refine ⟨a, some b, ?_, ha, 35 :: b, e, .inr rfl⟩
        have h' : 35 ∉ ascii "postgres" ++ 58 :: 47 :: 47 :: a := by
          intro hm
          apply h35
          simp at hm ⊢
          rcases hm with hm | hm
          · exact hm
          · exact absurd hm ha
        have := cut_append (sep := 35) b h'
        rw [e]
        simpa using this
      · refine ⟨body conf (queryText order), none, cut_of_free ?_, hm, [], by simp, .inl rfl⟩
        intro h'
        apply h35
        simp at h' ⊢
        rcases h' with h' | h'
        · exact h'
        · exact absurd h' hm
    obtain ⟨x, z, e, h35, hx⟩ := hcut
    rw [e] at hp
    obtain ⟨hv, hm⟩ := (Url.C113_parse _ _).1 hp
    exact url_necessary conf _ x u hv h35 hx hm hc
  · intro hc
    obtain ⟨h1, h2⟩ := url_sufficient hk hc
    exact ⟨_, h1, rfl, h2, rfl⟩

/-! ### The options -/

theorem item_read {k v : Bytes} (hk : ∀ c ∈ k, keyByte c = true) : queryItem (itemOf (k, queryEscape v, v)) = some (k, v) := by
  have hx := itemOk_escape k v hk
  have h1 : 59 ∉ itemOf (k, queryEscape v, v) := fun hm => (rawByte_no 59 (item_bytes hx 59 hm)).2.2.1 rfl
  have h2 : cut 61 (itemOf (k, queryEscape v, v)) = (k, some (queryEscape v)) :=
    cut_append _ (fun hm => (keyByte_no 61 (hk 61 hm)).2.2.1 rfl)
  have h3 : queryUnescape k = some k := unescape_key true _ (fun hm => (keyByte_no _ (hk _ hm)).1 rfl)
    (fun hm => (keyByte_no _ (hk _ hm)).2.1 rfl)
  have h4 : queryUnescape (queryEscape v) = some v := hx.value
  unfold queryItem
  rw [if_neg (by simp [h1]; simp [itemOf]), h2]
  simp only [h3, Option.getD_some, h4]

theorem query_read {order : List (Bytes × Bytes)} (hk : KeysPlain order) : query (queryText order) = items order := by
  have hi := items_key hk
  have ho := items_ok hk
  unfold query queryText
  generalize items order = l at hi ho
  by_cases hl : l = []
  · subst hl; rfl
  rw [split_join (by simpa using hl)]
  · clear hl ho
    induction l with
    | nil => rfl
    | cons x l ih =>
      rw [List.map_cons, List.filterMap_cons, item_read (hi x (by simp)), ih fun y hy => hi y (by simp [hy])]
  · intro w hw hm
    exact (rawByte_no 38 ((ho w hw).2 38 hm)).1 rfl

/-- The first part of the value of an option. -/
def firstPart (v : Bytes) : Bytes := trimSpace (cut 44 (trimSpace v)).1

theorem split_first (sep : UInt8) (s : Bytes) : ∃ l, split sep s = (cut sep s).1 :: l := by
  by_cases h : sep ∈ s
  · obtain ⟨a, b, rfl, ha⟩ := List.eq_append_cons_of_mem h
    exact ⟨split sep b, by rw [split_append _ ha, cut_append _ ha]⟩
  · exact ⟨[], by rw [split_of_free h, cut_of_free h]⟩

theorem firsts_other {k : Bytes} : ∀ (l : List (Bytes × Bytes)), ∀ x ∈ firsts l, x ∈ l
  | [], x, h => by simp [firsts] at h
  | (j, v) :: l, x, h => by
    rw [firsts, List.mem_cons] at h
    rcases h with rfl | h
    · simp
    · have := firsts_other (k := k) l x (List.mem_filter.1 h).1
      simp [this]

theorem firsts_block (k : Bytes) (l : List (Bytes × Bytes)) (hl : ∀ x ∈ l, x.1 ≠ k) : ∀ (vs : List Bytes), vs ≠ [] →
    firsts (vs.map (fun t => (k, t)) ++ l) = (k, vs.headD []) :: firsts l
  | [], h => absurd rfl h
  | v :: vs, _ => by
    have hf : (firsts l).filter (fun x => decide (x.1 ≠ k)) = firsts l := by
      rw [List.filter_eq_self]
      intro x hx
      simpa using hl x (firsts_other (k := k) l x hx)
    rw [List.map_cons, List.cons_append, firsts]
    by_cases h : vs = []
    · subst h
      simp only [List.map_nil, List.nil_append, List.headD_cons]
      rw [hf]
    · rw [firsts_block k l hl vs h]
      simp only [List.headD_cons]
      rw [List.filter_cons_of_neg (by simp), hf]

theorem firsts_items : ∀ {order : List (Bytes × Bytes)}, (order.map (·.1)).Nodup → firsts (items order) = order.map fun x => (x.1, firstPart x.2)
  | [], _ => rfl
  | x :: order, h => by
    rw [List.map_cons, List.nodup_cons] at h
    have e : items (x :: order) = ((split 44 (trimSpace x.2)).map trimSpace).map (fun t => (x.1, t)) ++ items order := by
      simp [items]
    obtain ⟨l, hs⟩ := split_first 44 (trimSpace x.2)
    rw [e, firsts_block x.1 _ ?_ _ (by rw [hs]; simp), firsts_items h.2, hs, List.map_cons]
    · rfl
    · intro y hy e
      unfold items at hy
      rw [List.mem_flatMap] at hy
      obtain ⟨z, hz, hy⟩ := hy
      rw [List.mem_map] at hy
      obtain ⟨t, -, rfl⟩ := hy
      exact h.1 (List.mem_map.2 ⟨z, hz, e⟩)

/-! ### The driver -/

theorem finish_eq {env : Env} {o : Map} (h1 : ∀ v, o (ascii "client_encoding") = some v → isUTF8 v = true)
    (h2 : ∀ v, o (ascii "datestyle") = some v → v = ascii "ISO, MDY") (h3 : (o (ascii "user")).isSome)
    (h4 : ∀ v, o (ascii "host") = some v → v.head? ≠ some 47) :
    ∃ o', finish env o = some o' ∧ ∀ k, k ≠ ascii "client_encoding" → k ≠ ascii "datestyle" → (k = ascii "application_name" → (o k).isSome) → o' k = o k := by
  have n1 : ascii "client_encoding" ≠ ascii "application_name" := by decide +kernel
  have n2 : ascii "datestyle" ≠ ascii "application_name" := by decide +kernel
  have n3 : ascii "user" ≠ ascii "application_name" := by decide +kernel
  have n4 : ascii "host" ≠ ascii "application_name" := by decide +kernel
  have n5 : ascii "datestyle" ≠ ascii "client_encoding" := by decide +kernel
  have n6 : ascii "user" ≠ ascii "client_encoding" := by decide +kernel
  have n7 : ascii "host" ≠ ascii "client_encoding" := by decide +kernel
  have n8 : ascii "user" ≠ ascii "datestyle" := by decide +kernel
  have n9 : ascii "host" ≠ ascii "datestyle" := by decide +kernel
  unfold finish
  generalize hoa : withName o = oa
  have ha : ∀ k, (k = ascii "application_name" → (o k).isSome) → oa k = o k := by
    intro k hk
    subst hoa
    unfold withName
    cases hf : o (ascii "fallback_application_name") with
    | none => rfl
    | some f =>
      cases hn : o (ascii "application_name") with
      | some n => rfl
      | none =>
        simp only
        rw [Map.set, if_neg]
        intro e
        have := hk e
        rw [e, hn] at this
        simp at this
  have a1 := ha _ (fun h => absurd h n1)
  have a2 := ha _ (fun h => absurd h n2)
  have a3 := ha _ (fun h => absurd h n3)
  have a4 := ha _ (fun h => absurd h n4)
  simp only
  have g1 : ¬ (oa (ascii "client_encoding")).any (!isUTF8 ·) = true := by
    rw [a1]
    cases hc : o (ascii "client_encoding") with
    | none => simp
    | some v => simp [h1 v hc]
  rw [if_neg g1]
  generalize ho : oa.set (ascii "client_encoding") (ascii "UTF8") = ob
  have hb : ∀ k, k ≠ ascii "client_encoding" → ob k = oa k := fun k hk => by subst ho; simp [Map.set, hk]
  have b2 := hb _ n5
  have b3 := hb _ n6
  have b4 := hb _ n7
  have g2 : ¬ (ob (ascii "datestyle")).any (fun x => decide (x ≠ ascii "ISO, MDY")) = true := by
    rw [b2, a2]
    cases hc : o (ascii "datestyle") with
    | none => simp
    | some v => simp [h2 v hc]
  rw [if_neg g2]
  generalize hoc : (if (ob (ascii "datestyle")).isSome then ob else ob.set (ascii "datestyle") (ascii "ISO, MDY")) = oc
  have hcc : ∀ k, k ≠ ascii "datestyle" → oc k = ob k := fun k hk => by
    subst hoc
    split
    · rfl
    · simp [Map.set, hk]
  rw [if_pos (by rw [hcc _ n8, b3, a3]; exact h3)]
  have g4 : ¬ (oc (ascii "host")).any (fun x => decide (x.head? = some 47)) = true := by
    rw [hcc _ n9, b4, a4]
    cases hc : o (ascii "host") with
    | none => simp
    | some v => simpa using h4 v hc
  refine ⟨oc, by rw [Option.map_some, if_neg g4], fun k k1 k2 k3 => ?_⟩
  rw [hcc k k2, hb k k1, ha k k3]

theorem reserved_ok : ∀ k ∈ reserved, (∀ c ∈ k, c.toNat < 128 ∧ isSpace c.toNat = false ∧ c ≠ 61) := by decide +kernel

theorem runes_ascii_all : ∀ {s : Bytes}, (∀ c ∈ s, c.toNat < 128) → runes s = s.map (·.toNat)
  | [], _ => rfl
  | c :: s, h => by rw [runes_ascii (h c (by simp)), runes_ascii_all fun d hd => h d (by simp [hd])]; rfl

theorem valid_ascii {s : Bytes} (h : ∀ c ∈ s, c.toNat < 128) : Valid s := by
  refine ⟨s.map (·.toNat), fun r hr => ?_, ?_⟩
  · rw [List.mem_map] at hr
    obtain ⟨c, hc, rfl⟩ := hr
    have := h c hc
    unfold Scalar
    omega
  · induction s with
    | nil => rfl
    | cons c s ih =>
      rw [List.map_cons, show utf8 (c.toNat :: s.map (·.toNat)) = encodeRune c.toNat ++ utf8 (s.map (·.toNat)) from rfl,
        ← ih fun d hd => h d (by simp [hd])]
      have : encodeRune c.toNat = [c] := by
        unfold encodeRune
        rw [if_pos (h c (by simp))]
        simp
      rw [this]; rfl

theorem key_reserved {k : Bytes} (h : k ∈ reserved) : KeyScan k ∧ Valid k := by
  have hb := reserved_ok k h
  refine ⟨fun r hr => ?_, valid_ascii fun c hc => (hb c hc).1⟩
  rw [runes_ascii_all fun c hc => (hb c hc).1, List.mem_map] at hr
  obtain ⟨c, hc, rfl⟩ := hr
  refine ⟨(hb c hc).2.1, fun e => (hb c hc).2.2 ?_⟩
  rw [← UInt8.toNat_inj]; exact e

theorem key_plain {k : Bytes} (h : KeyPlain k) : KeyScan k := fun r hr => ⟨h.runes r hr, by
  rintro rfl
  have := (runes_mem k.length k (Nat.le_refl _) 61 hr).2 (by omega)
  exact (keyByte_no _ (h.bytes _ this)).2.2.1 rfl⟩

/-- All settings the driver is given. -/
def wanted (conf : PostgresqlConf) (host : Bytes) (order : List (Bytes × Bytes)) : List (Bytes × Bytes) :=
  [(ascii "user", conf.username), (ascii "password", conf.password), (ascii "host", host), (ascii "port", itoa conf.port),
    (ascii "dbname", conf.database)] ++ order.map fun x => (x.1, firstPart x.2)

theorem itoa_ne (z : Int) (h : 0 ≤ z) : itoa z ≠ [] := by
  unfold itoa
  rw [if_neg (by omega)]
  exact (natDigits_spec z.natAbs).2

theorem clean_head {s : Bytes} (h : 47 ∉ s) : (clean s).head? ≠ some 47 := by
  unfold clean
  cases hr : runes s with
  | nil => simp [utf8]
  | cons r rs =>
    obtain ⟨h1, h2⟩ := runes_mem s.length s (Nat.le_refl _) r (by rw [hr]; simp)
    rw [show utf8 (r :: rs) = encodeRune r ++ utf8 rs from rfl]
    intro e
    by_cases h3 : r < 128
    · have : encodeRune r = [UInt8.ofNat r] := by unfold encodeRune; rw [if_pos h3]
      rw [this] at e
      simp only [List.cons_append, List.head?_cons, Option.some.injEq] at e
      exact h (e ▸ h2 h3)
    · have hb : ∀ n, 0xC0 ≤ n → n < 256 → UInt8.ofNat n ≠ 47 := fun n h1 h2 e => by
        have := congrArg UInt8.toNat e
        rw [toNat_ofNat h2] at this
        simp at this
        omega
      unfold Scalar at h1
      unfold encodeRune at e
      rw [if_neg h3] at e
      split at e
      · simp only [List.cons_append, List.head?_cons, Option.some.injEq] at e
        exact hb _ (by omega) (by omega) e
      · rw [if_neg (by omega)] at e
        split at e
        · simp only [List.cons_append, List.head?_cons, Option.some.injEq] at e
          exact hb _ (by omega) (by omega) e
        · simp only [List.cons_append, List.head?_cons, Option.some.injEq] at e
          exact hb _ (by omega) (by omega) e

/-- What the driver makes of the URL, for every environment. -/
theorem driver {conf : PostgresqlConf} {order : List (Bytes × Bytes)} {h host : Bytes} {env : Env} (hu : urlParse (buildPgDsn conf order) = some (urlOf conf h (queryText order)))
    (hs : splitHostPort h = some (host, itoa conf.port)) (hk : ∀ x ∈ order, KeyPlain x.1) (hn : (order.map (·.1)).Nodup)
    (he : EnvOk env) (h1 : conf.username ≠ []) (h2 : 47 ∉ host) (h3 : host = [] → ∀ v, env.base (ascii "host") = some v → v.head? ≠ some 47) :
    ∃ o, connect env (buildPgDsn conf order) = some o ∧ ∀ k v, (k, v) ∈ wanted conf host order →
      (v ≠ [] → o k = some (clean v)) ∧ (v = [] → k ≠ ascii "application_name" → o k = env.base k) := by
  have hkp : KeysPlain order := fun x hx => (hk x hx).bytes
  have hcol : collect (urlOf conf h (queryText order)) = wanted conf host order := by
    unfold collect urlOf wanted
    simp only [hs, query_read hkp, firsts_items hn, Option.getD_some]
    simp
  have hkeys : ∀ x ∈ wanted conf host order, (KeyScan x.1 ∧ Valid x.1) ∧ x.1 ≠ ascii "client_encoding" ∧ x.1 ≠ ascii "datestyle" := by
    have hr : ∀ k ∈ reserved, k ≠ ascii "client_encoding" ∧ k ≠ ascii "datestyle" := by decide +kernel
    intro x hx
    unfold wanted at hx
    rw [List.mem_append] at hx
    rcases hx with hx | hx
    · have hm : x.1 ∈ reserved := List.mem_map.2 ⟨x, hx, rfl⟩
      exact ⟨key_reserved hm, hr _ hm⟩
    · rw [List.mem_map] at hx
      obtain ⟨y, hy, rfl⟩ := hx
      exact ⟨⟨key_plain (hk y hy), (hk y hy).valid⟩, (hk y hy).encoding, (hk y hy).date⟩
  have hnd : ((wanted conf host order).map (·.1)).Nodup := by
    unfold wanted
    rw [List.map_append, List.nodup_append]
    refine ⟨show reserved.Nodup by decide +kernel, ?_, ?_⟩
    · rw [List.map_map]; exact hn
    · intro a ha b hb
      rintro rfl
      rw [List.map_map, List.mem_map] at hb
      obtain ⟨y, hy, rfl⟩ := hb
      exact (hk y hy).free ha
  obtain ⟨l, hl, hset⟩ := settings (fun x hx => (hkeys x hx).1) hnd
  obtain ⟨s1, s2⟩ := hset env.base
  have huser : (ascii "user", conf.username) ∈ wanted conf host order := by simp [wanted]
  have hhost : (ascii "host", host) ∈ wanted conf host order := by simp [wanted]
  have huniq : ∀ {k v w}, (k, v) ∈ wanted conf host order → (k, w) ∈ wanted conf host order → v = w := by
    intro k v w hv hw
    have := fold_mem k v _ Map.empty hnd hv
    rw [fold_mem k w _ Map.empty hnd hw] at this
    simpa using this.symm
  obtain ⟨o, ho, hok⟩ := finish_eq (env := env) (o := l.foldl (fun o x => o.set x.1 x.2) env.base)
    (by rw [s2 (ascii "client_encoding") fun v hv => absurd rfl (hkeys (ascii "client_encoding", v) hv).2.1]; exact he.1)
    (by rw [s2 (ascii "datestyle") fun v hv => absurd rfl (hkeys (ascii "datestyle", v) hv).2.2]; exact he.2)
    (by rw [s1 (ascii "user") _ huser h1]; rfl)
    (by
      by_cases h0 : host = []
      · rw [s2 (ascii "host") fun v hv => by rw [huniq hv hhost]; exact h0]
        exact h3 h0
      · rw [s1 (ascii "host") _ hhost h0]
        intro v hv
        simp only [Option.some.injEq] at hv
        subst hv
        exact clean_head h2)
  refine ⟨o, ?_, fun k v hv => ?_⟩
  · unfold connect parseURL
    rw [hu]
    simp only [hcol]
    rw [if_neg (by simp [urlOf])]
    simp only [hl, ho]
  · have hv' := hkeys _ hv
    refine ⟨fun h0 => ?_, fun h0 ha => ?_⟩
    · rw [hok k hv'.2.1 hv'.2.2 fun _ => by rw [s1 k v hv h0]; rfl, s1 k v hv h0]
    · rw [hok k hv'.2.1 hv'.2.2 fun e => absurd e ha]
      exact s2 k fun w hw => by rw [huniq hw hv]; exact h0

theorem user_ascii (c : UInt8) : Url.userinfoByte c = true → c.toNat < 128 := by
  revert c
  exact all_bytes (by decide +kernel)

theorem digit_ascii (c : UInt8) : Procs.isDigit c = true → c.toNat < 128 := by
  revert c
  exact all_bytes (by decide +kernel)

theorem user_valid {s : Bytes} (h : ∀ c ∈ s, UserChar c) : Valid s := valid_ascii fun c hc => user_ascii c ((Url.userChar_iff c).2 (h c hc))

theorem firstPart_plain {v : Bytes} (h1 : 44 ∉ v) (h2 : trimSpace v = v) : firstPart v = v := by
  unfold firstPart
  rw [h2, cut_of_free h1]
  exact h2

theorem configured {conf : PostgresqlConf} {m : Map} {order : List (Bytes × Bytes)} {h host : Bytes} {env : Env} (hr : Ranges m order)
    (hu : urlParse (buildPgDsn conf order) = some (urlOf conf h (queryText order)))
    (hs : splitHostPort h = some (host, itoa conf.port)) (h1 : ∀ c ∈ conf.username, UserChar c) (h2 : ∀ c ∈ conf.password, UserChar c)
    (h3 : 0 ≤ conf.port) (h47 : 47 ∉ host) (hp : Plain conf host order env) :
    ∃ o, connect env (buildPgDsn conf order) = some o ∧ Configured conf m host o := by
  obtain ⟨o, ho, hok⟩ := driver hu hs hp.keys hr.1 hp.known hp.user h47 (fun h0 v hv => by
    rcases hp.host.2 with h | h
    · exact absurd h0 h
    · rw [h.1] at hv; simp at hv)
  have key : ∀ k v, (k, v) ∈ wanted conf host order → Valid v → Settled env k v → (o k).getD [] = v := by
    intro k v hm hv hset
    obtain ⟨g1, g2⟩ := hok k v hm
    by_cases h0 : v = []
    · rcases hset with h | h
      · exact absurd h0 h
      · rw [g2 h0 h.2.2, h.1, h0]; rfl
    · rw [g1 h0, clean_valid hv]; rfl
  refine ⟨o, ho, key _ _ (by simp [wanted]) (user_valid h1) (.inl hp.user), key _ _ (by simp [wanted]) (user_valid h2) hp.password,
    key _ _ (by simp [wanted]) hp.host.1 hp.host.2,
    key _ _ (by simp [wanted]) (valid_ascii fun c hc => digit_ascii c (itoa_digits _ h3 c hc)) (.inl (itoa_ne _ h3)),
    key _ _ (by simp [wanted]) hp.database.1 hp.database.2, fun k v hv => ?_⟩
  have hm := (hr.2 k v).1 hv
  obtain ⟨v1, v2, v3, v4⟩ := hp.values _ hm
  refine key k v ?_ v3 v4
  unfold wanted
  rw [List.mem_append, List.mem_map]
  exact .inr ⟨(k, v), hm, by rw [firstPart_plain v1 v2]⟩

/-- **C122**, what holds: with values that need no escapes the driver connects with all that was configured, in every environment. -/
theorem C122_partial (conf : PostgresqlConf) (m : Map) (order : List (Bytes × Bytes)) (env : Env) (hr : Ranges m order) (hc : UrlPlain conf)
    (hp : Plain conf conf.host order env) : ∃ o, connect env (buildPgDsn conf order) = some o ∧ Configured conf m conf.host o := by
  obtain ⟨h1, h2⟩ := url_sufficient (fun x hx => (hp.keys x hx).bytes) hc
  refine configured hr h1 h2 (fun c h => (hc.user c h).1) (fun c h => (hc.password c h).1) hc.port (fun hm => ?_) hp
  rcases (hc.host _ hm).1 with h | h
  · revert h; decide
  · rw [← Url.hostChar_iff] at h; revert h; decide

/-- The same for an address in brackets: the driver gets the address. -/
structure BracketPlain (conf : PostgresqlConf) (a : Bytes) : Prop where
  user : ∀ c ∈ conf.username, UserChar c ∧ c ≠ 37 ∧ c ≠ 58
  password : ∀ c ∈ conf.password, UserChar c ∧ c ≠ 37
  host : conf.host = 91 :: a ++ [93]
  /-- letters, digits, the colon and -._~!$&'()*+,;=<>" and everything beyond ASCII -/
  address : ∀ c ∈ a, (128 ≤ c ∨ HostChar c) ∧ c ≠ 91 ∧ c ≠ 93
  port : 0 ≤ conf.port
  database : ∀ c ∈ conf.database, (32 ≤ c ∧ c ≠ 127) ∧ c ≠ 37 ∧ c ≠ 63 ∧ c ≠ 35

theorem hostChar_no37 (c : UInt8) : Url.hostOk c = true → c ≠ 37 := by
  revert c
  exact all_bytes (by decide +kernel)

theorem high_no37 (c : UInt8) : 128 ≤ c → c ≠ 37 := by
  revert c
  exact all_bytes (by decide +kernel)

/-- **C122**, for a host that is an IPv6 address: it must be configured in brackets, and the driver gets it without them. -/
theorem C122_brackets_partial (conf : PostgresqlConf) (m : Map) (order : List (Bytes × Bytes)) (env : Env) (hr : Ranges m order) (a : Bytes)
    (hc : BracketPlain conf a) (hp : Plain conf a order env) : ∃ o, connect env (buildPgDsn conf order) = some o ∧ Configured conf m a o := by
  have hh : ∀ c ∈ conf.host, 128 ≤ c ∨ HostChar c := by
    intro c h
    rw [hc.host, List.mem_append, List.mem_cons, List.mem_singleton] at h
    rcases h with (rfl | h) | rfl
    · right; rw [← Url.hostChar_iff]; decide
    · exact (hc.address c h).1
    · right; rw [← Url.hostChar_iff]; decide
  have hb := hostBytes hh hc.port
  have hport := fun c h => digit_inside c (itoa_digits _ hc.port c h)
  have e : conf.host ++ 58 :: itoa conf.port = (91 :: a) ++ 93 :: (58 :: itoa conf.port) := by rw [hc.host]; simp
  have h93 : 93 ∉ 58 :: itoa conf.port := by
    intro hm
    rcases List.mem_cons.1 hm with h | h
    · simp at h
    · exact (hport _ h).2.2.2.1 rfl
  have h93a : 93 ∉ 91 :: a := by
    intro hm
    rcases List.mem_cons.1 hm with h | h
    · simp at h
    · exact (hc.address _ h).2.2 rfl
  have hho : Host (conf.host ++ 58 :: itoa conf.port) (conf.host ++ 58 :: itoa conf.port) := by
    refine .address (by rw [hc.host]; simp) e h93 ?_ ?_ (hostText_plain fun c h => (hb c h).2)
    · exact .inr ⟨itoa conf.port, rfl, fun c h => (Url.digit_iff c).1 (hport c h).2.2.2.2.1⟩
    · intro x y ex
      have h37 : 37 ∈ 91 :: a := by rw [ex, Url.zone25]; simp
      rcases List.mem_cons.1 h37 with h | h
      · simp at h
      · rcases (hc.address _ h).1 with h | h
        · exact high_no37 _ h rfl
        · exact hostChar_no37 _ ((Url.hostChar_iff _).2 h) rfl
  have hsp : splitHostPort (conf.host ++ 58 :: itoa conf.port) = some (a, itoa conf.port) := by
    unfold splitHostPort
    rw [cutLast_append conf.host fun hm => (hport _ hm).2.1 rfl]
    simp only
    rw [if_pos (by rw [hc.host]; simp), e, cut_append _ h93a]
    simp only
    rw [if_pos hc.host.symm, if_neg]
    · simp
    · simp only [Bool.or_eq_true, List.contains_iff_mem, not_or]
      refine ⟨fun hm => ?_, fun hm => (hport _ hm).2.2.2.1 rfl⟩
      simp at hm
      rcases hm with hm | hm
      · exact (hc.address _ hm).2.1 rfl
      · exact (hport _ hm).2.2.1 rfl
  refine configured hr (url_read (fun x hx => (hp.keys x hx).bytes) hc.user hc.password
    (fun c h => ⟨db_ctl c (hc.database c h).1, (hc.database c h).2⟩) (fun c h => (hb c h).1) hho) hsp (fun c h => (hc.user c h).1)
    (fun c h => (hc.password c h).1) hc.port (fun hm => ?_) hp
  rcases (hc.address _ hm).1 with h | h
  · revert h; decide
  · rw [← Url.hostChar_iff] at h; revert h; decide

/-- An environment with the defaults of the driver and one more setting. -/
def sampleEnv (k v : Bytes) : Env :=
  ⟨((Map.empty.set (ascii "host") (ascii "localhost")).set (ascii "port") (ascii "5432")).set k v, some (ascii "me")⟩

/-- What is asked for, of the examples. -/
def asked (env : Env) (conf : PostgresqlConf) (order : List (Bytes × Bytes)) : Option (List (Option Bytes)) :=
  (connect env (buildPgDsn conf order)).map fun o => reserved.map o

/-- **C122** does not hold.  Without a password in the configuration the one of the environment is used; without a host, or with an
IPv6 address that is not in brackets, the host is another; a slash in the password and a space in the name of an option are errors;
the value of `datestyle` that the driver demands is cut at its comma, which is an error; an option named `user` (or the
configured name, whichever is greater) is the user. -/
theorem C122_violated : ¬ C122Claim ∧
    asked (sampleEnv (ascii "password") (ascii "secret")) (sample (ascii "u") []) [] =
      some [some (ascii "u"), some (ascii "secret"), some (ascii "h"), some (ascii "5432"), some (ascii "db")] ∧
    asked (sampleEnv (ascii "port") (ascii "5431")) { sample (ascii "u") (ascii "p") with host := ascii "::1" } [] =
      some [some (ascii "u"), some (ascii "p"), some (ascii "::1:5432"), some (ascii "5431"), some (ascii "db")] ∧
    asked (sampleEnv (ascii "port") (ascii "5431")) { sample (ascii "u") (ascii "p") with host := [] } [] =
      some [some (ascii "u"), some (ascii "p"), some (ascii "localhost"), some (ascii "5432"), some (ascii "db")] ∧
    asked (sampleEnv (ascii "port") (ascii "5431")) (sample (ascii "u") (ascii "p")) [(ascii "user", ascii "v")] =
      some [some (ascii "v"), some (ascii "p"), some (ascii "h"), some (ascii "5432"), some (ascii "db")] ∧
    asked (sampleEnv (ascii "port") (ascii "5431")) (sample (ascii "u") (ascii "p/w")) [] = none ∧
    asked (sampleEnv (ascii "port") (ascii "5431")) (sample (ascii "u") (ascii "p")) [(ascii "a b", ascii "c")] = none ∧
    asked (sampleEnv (ascii "port") (ascii "5431")) (sample (ascii "u") (ascii "p")) [(ascii "datestyle", ascii "ISO, MDY")] = none := by
  have h1 : asked (sampleEnv (ascii "port") (ascii "5431")) (sample (ascii "u") (ascii "p/w")) [] = none := by decide +kernel
  refine ⟨fun h => ?_, by decide +kernel, by decide +kernel, by decide +kernel, by decide +kernel, h1, by decide +kernel, by decide +kernel⟩
  obtain ⟨o, ho, -⟩ := h (sample (ascii "u") (ascii "p/w")) Map.empty [] (sampleEnv (ascii "port") (ascii "5431")) ⟨by simp, by simp [Map.empty]⟩
    ⟨fun v hv => by
      have : (sampleEnv (ascii "port") (ascii "5431")).base (ascii "client_encoding") = none := by decide +kernel
      rw [this] at hv; simp at hv,
    fun v hv => by
      have : (sampleEnv (ascii "port") (ascii "5431")).base (ascii "datestyle") = none := by decide +kernel
      rw [this] at hv; simp at hv⟩
  unfold asked at h1
  rw [ho] at h1
  simp at h1

theorem userChar_all {s : Bytes} (h : ∀ c ∈ s, Url.userinfoByte c = true ∧ c ≠ 37 ∧ c ≠ 58) : ∀ c ∈ s, UserChar c ∧ c ≠ 37 ∧ c ≠ 58 :=
  fun c hc => ⟨(Url.userChar_iff c).1 (h c hc).1, (h c hc).2⟩

theorem sample_plain : UrlPlain (sample (ascii "u") (ascii "p:w")) where
  user := userChar_all (by decide +kernel)
  password := fun c hc => by
    have : ∀ c ∈ ascii "p:w", Url.userinfoByte c = true ∧ c ≠ 37 := by decide +kernel
    exact ⟨(Url.userChar_iff c).1 (this c hc).1, (this c hc).2⟩
  host := fun c hc => by
    have : ∀ c ∈ ascii "h", Url.hostOk c = true ∧ c ≠ 58 ∧ c ≠ 91 ∧ c ≠ 93 := by decide +kernel
    exact ⟨.inr ((Url.hostChar_iff c).1 (this c hc).1), (this c hc).2⟩
  port := by decide
  database := by decide +kernel

theorem sample_env (k v : Bytes) (h : k = ascii "port") : EnvOk (sampleEnv k v) := by
  subst h
  have h1 : ascii "client_encoding" ≠ ascii "port" ∧ ascii "client_encoding" ≠ ascii "host" := by decide +kernel
  have h2 : ascii "datestyle" ≠ ascii "port" ∧ ascii "datestyle" ≠ ascii "host" := by decide +kernel
  constructor <;> intro w hw <;> simp [sampleEnv, Map.set, Map.empty, h1, h2] at hw

/-- The hypotheses can be met. -/
example : Plain (sample (ascii "u") (ascii "p:w")) (ascii "h") [(ascii "sslmode", ascii "dis able&='")] (sampleEnv (ascii "port") (ascii "1")) where
  known := sample_env _ _ rfl
  keys := by
    intro x hx
    rw [List.mem_singleton] at hx
    subst hx
    exact ⟨by decide +kernel, by decide +kernel, valid_ascii (by decide +kernel), by decide +kernel, by decide +kernel, by decide +kernel⟩
  values := by
    intro x hx
    rw [List.mem_singleton] at hx
    subst hx
    exact ⟨by decide +kernel, by decide +kernel, valid_ascii (by decide +kernel), .inl (by decide +kernel)⟩
  user := by decide +kernel
  password := .inl (by decide +kernel)
  host := ⟨valid_ascii (by decide +kernel), .inl (by decide +kernel)⟩
  database := ⟨valid_ascii (by decide +kernel), .inl (by decide +kernel)⟩

example : BracketPlain { sample (ascii "u") (ascii "p") with host := ascii "[::1]" } (ascii "::1") where
  user := userChar_all (by decide +kernel)
  password := fun c hc => by
    have : ∀ c ∈ ascii "p", Url.userinfoByte c = true ∧ c ≠ 37 := by decide +kernel
    exact ⟨(Url.userChar_iff c).1 (this c hc).1, (this c hc).2⟩
  host := by decide +kernel
  address := fun c hc => by
    have : ∀ c ∈ ascii "::1", Url.hostOk c = true ∧ c ≠ 91 ∧ c ≠ 93 := by decide +kernel
    exact ⟨.inr ((Url.hostChar_iff c).1 (this c hc).1), (this c hc).2⟩
  port := by decide
  database := by decide +kernel

end Gears.Pq
