import Mathlib.Data.List.Forall2
import Verif.Confs.Dsn

/-
C112: the connection string for oracle.
-/

namespace Gears.Confs

open Gears.Str

/-- The parts of an option that the driver is to find: what stands between the commas. -/
def partsOf (order : List (Bytes × Bytes)) : List (Bytes × Bytes) := order.flatMap fun x => (split 44 x.2).map fun v => (x.1, v)

/-- The driver finds the configured values in the URL. -/
def OraCarries (conf : OracleConf) (order : List (Bytes × Bytes)) (url : Bytes) : Prop :=
  parseOra url = some ⟨conf.username, conf.password, conf.host, itoa conf.port, conf.service, partsOf order⟩

/-- The full statement of C112. -/
def C112Claim : Prop := ∀ (conf : OracleConf) (m : Map) (order : List (Bytes × Bytes)), oracleOptions conf none = some m →
  Ranges m order → OraCarries conf order (buildOraUrl conf order)

/-- The name `server`, in capital or small letters. -/
def IsServer (k : Bytes) : Prop := List.Forall₂ (fun c d => c = d ∨ c = d + 32) k (ascii "SERVER")

/-- What is needed; the password is arbitrary. -/
structure OraPlain (conf : OracleConf) (order : List (Bytes × Bytes)) : Prop where
  user : 58 ∉ conf.username
  host : ∀ c ∈ conf.host, hostByte c = true ∧ c ≠ 58
  port : 0 ≤ conf.port
  /-- no slash at the ends -/
  service : conf.service.head? ≠ some 47 ∧ conf.service.getLast? ≠ some 47
  /-- no control characters, and none of #%&+;= -/
  keys : ∀ x ∈ order, ∀ c ∈ x.1, keyByte c = true
  /-- no spaces around the parts -/
  values : ∀ x ∈ order, trimSpace x.2 = x.2 ∧ ∀ v ∈ split 44 x.2, trimSpace v = v
  /-- the addresses of servers are written as they are -/
  servers : ∀ x ∈ order, IsServer x.1 → ∀ c ∈ x.2, keyByte c = true

theorem isServer_iff (k : Bytes) : k.map upper = ascii "SERVER" ↔ IsServer k := by
  have tab : ∀ d ∈ ascii "SERVER", ∀ i : Fin 256, upper (UInt8.ofFin i) = d ↔ (UInt8.ofFin i = d ∨ UInt8.ofFin i = d + 32) := by decide +kernel
  have key : ∀ (w : Bytes), (∀ d ∈ w, d ∈ ascii "SERVER") → ∀ k : Bytes, k.map upper = w ↔ List.Forall₂ (fun c d => c = d ∨ c = d + 32) k w := by
    intro w
    induction w with
    | nil => intro _ k; simp
    | cons d w ih =>
      intro hw k
      cases k with
      | nil => simp
      | cons c k =>
        have hc : c = UInt8.ofFin ⟨c.toNat, c.toNat_lt⟩ := by apply UInt8.toNat_inj.1; rfl
        have := tab d (hw d (by simp)) ⟨c.toNat, c.toNat_lt⟩
        rw [← hc] at this
        simp [this, ih (fun d hd => hw d (by simp [hd])) k]
  exact key _ (fun _ h => h) k

theorem pathEscape_bytes (s : Bytes) : ∀ c ∈ pathEscape s, pathByte c = true ∨ c = 37 := by
  induction s with
  | nil => simp [pathEscape]
  | cons a l ih =>
    intro c hc
    unfold pathEscape at hc
    split at hc
    · rename_i h
      rcases List.mem_cons.1 hc with rfl | hc
      · exact .inl h
      · exact ih c hc
    · simp only [List.mem_cons] at hc
      rcases hc with rfl | rfl | rfl | hc
      · exact .inr rfl
      · exact .inl (by unfold pathByte; rw [(upperhex_unreserved a).1]; rfl)
      · exact .inl (by unfold pathByte; rw [(upperhex_unreserved a).2]; rfl)
      · exact ih c hc

theorem pathByte_user (c : UInt8) : pathByte c = true ∨ c = 37 →
    userinfoByte c = true ∧ isCtl c = false ∧ c ≠ 63 ∧ c ≠ 35 ∧ c ≠ 47 := by
  revert c
  exact all_bytes (by decide +kernel)

theorem upperhex_colon (c : UInt8) : upperhex (c / 16) ≠ 58 ∧ upperhex (c % 16) ≠ 58 := by
  revert c
  exact all_bytes (by decide +kernel)

theorem pathEscape_colon (s : Bytes) (h : 58 ∉ s) : 58 ∉ pathEscape s := by
  induction s with
  | nil => simp [pathEscape]
  | cons a l ih =>
    rw [List.mem_cons, not_or] at h
    unfold pathEscape
    split
    · rw [List.mem_cons, not_or]; exact ⟨h.1, ih h.2⟩
    · simp only [List.mem_cons, not_or]
      exact ⟨by decide, Ne.symm (upperhex_colon a).1, Ne.symm (upperhex_colon a).2, ih h.2⟩

theorem pathByte_plain (c : UInt8) : pathByte c = true → c ≠ 37 := by
  revert c
  exact all_bytes (by decide +kernel)

/-- What was escaped comes back, for all texts. -/
theorem unescape_pathEscape (s : Bytes) : unescape false (pathEscape s) = some s := by
  induction s with
  | nil => rfl
  | cons a l ih =>
    unfold pathEscape
    split
    · rename_i h
      rw [unescape_plain (pathByte_plain a h) (by simp), ih]; rfl
    · rw [unescape_percent ⟨(hex_roundtrip a).1, (hex_roundtrip a).2.1⟩, ih, Option.map_some, (hex_roundtrip a).2.2]

/-- The text of a part. -/
def rawOf (k v : Bytes) : Bytes := if k.map upper = ascii "SERVER" then v else queryEscape v

def oraItems (order : List (Bytes × Bytes)) : List (Bytes × Bytes × Bytes) :=
  order.flatMap fun x => (split 44 x.2).map fun v => (x.1, rawOf x.1 v, v)

theorem oraOptions_eq (order : List (Bytes × Bytes)) (h : ∀ x ∈ order, trimSpace x.2 = x.2 ∧ ∀ v ∈ split 44 x.2, trimSpace v = v) :
    order.flatMap oraOption = ((oraItems order).map itemOf).flatMap (· ++ [38]) := by
  induction order with
  | nil => rfl
  | cons x l ih =>
    obtain ⟨h1, h2⟩ := h x (by simp)
    have hc : oraItems (x :: l) = ((split 44 x.2).map fun v => (x.1, rawOf x.1 v, v)) ++ oraItems l := by simp [oraItems]
    rw [List.flatMap_cons, ih (fun y hy => h y (by simp [hy])), hc, List.map_append, List.flatMap_append]
    congr 1
    unfold oraOption
    rw [h1]
    generalize split 44 x.2 = vs at h2
    clear ih h
    induction vs with
    | nil => rfl
    | cons v vs ih =>
      rw [List.flatMap_cons, List.map_cons, List.map_cons, List.flatMap_cons, ih (fun y hy => h2 y (by simp [hy])),
        h2 v (by simp)]
      simp [itemOf, rawOf]

theorem split_mem {sep : UInt8} {s v : Bytes} (h : v ∈ split sep s) : ∀ c ∈ v, c ∈ s := by
  induction s generalizing v with
  | nil =>
    simp [split] at h
    subst h; simp
  | cons a l ih =>
    by_cases ha : a = sep
    · subst ha
      have := split_append (sep := a) (w := []) l (by simp)
      rw [List.nil_append] at this
      rw [this, List.mem_cons] at h
      rcases h with rfl | h
      · simp
      · intro c hc; exact List.mem_cons_of_mem _ (ih h c hc)
    · intro c hc
      have hj := join_split sep (a :: l)
      have : c ∈ join sep (split sep (a :: l)) := by
        generalize split sep (a :: l) = ws at h
        clear hj ih
        induction ws with
        | nil => simp at h
        | cons w ws ihw =>
          by_cases hw : ws = []
          · subst hw
            simp at h; subst h
            simpa [join] using hc
          · rw [join_cons _ _ hw, List.mem_append, List.mem_cons]
            rcases List.mem_cons.1 h with rfl | h
            · exact .inl hc
            · exact .inr (.inr (ihw h))
      rwa [hj] at this

theorem oraItems_ok {conf : OracleConf} {order : List (Bytes × Bytes)} (hp : OraPlain conf order) :
    ∀ x ∈ oraItems order, ItemOk x := by
  intro x hx
  unfold oraItems at hx
  rw [List.mem_flatMap] at hx
  obtain ⟨y, hy, hx⟩ := hx
  rw [List.mem_map] at hx
  obtain ⟨v, hv, rfl⟩ := hx
  unfold rawOf
  split
  · rename_i hs
    have hk : ∀ c ∈ v, keyByte c = true := fun c hc => hp.servers y hy ((isServer_iff _).1 hs) c (split_mem hv c hc)
    exact ⟨hp.keys y hy, fun c hc => (keyByte_no c (hk c hc)).2.2.2, unescape_key true _
      (fun hm => (keyByte_no _ (hk _ hm)).1 rfl) (fun hm => (keyByte_no _ (hk _ hm)).2.1 rfl)⟩
  · exact itemOk_escape _ _ (hp.keys y hy)

theorem dropSlash {s : Bytes} (h : s.head? ≠ some 47) : s.dropWhile (· = 47) = s := by
  cases s with
  | nil => rfl
  | cons a l =>
    have : a ≠ 47 := by simpa using h
    simp [this]

/-- **C112**, the part that holds: the driver finds what was configured, whatever the password. -/
theorem C112_partial (conf : OracleConf) (order : List (Bytes × Bytes)) (hp : OraPlain conf order) :
    OraCarries conf order (buildOraUrl conf order) := by
  have hport := itoa_digits conf.port hp.port
  have hok := oraItems_ok hp
  have hq := parseQuery_items _ hok
  have hw : ∀ w ∈ (oraItems order).map itemOf, w ≠ [] ∧ ∀ c ∈ w, rawByte c = true := by
    intro w hw
    rw [List.mem_map] at hw
    obtain ⟨x, hx, rfl⟩ := hw
    exact ⟨by simp [itemOf], item_bytes (hok x hx)⟩
  have hparts : (oraItems order).map (fun x => (x.1, x.2.2)) = partsOf order := by
    unfold oraItems partsOf
    rw [List.map_flatMap]
    congr 1
    funext x
    rw [List.map_map]; rfl
  have hsvc : ((conf.service.dropWhile (· = 47)).reverse.dropWhile (· = 47)).reverse = conf.service := by
    rw [dropSlash hp.service.1, dropSlash (by rw [List.head?_reverse]; exact hp.service.2), List.reverse_reverse]
  unfold OraCarries parseOra buildOraUrl
  rw [oraOptions_eq order hp.values, trimAmp_items _ _ (fun w h => ⟨(hw w h).1, fun c hc => (rawByte_no c ((hw w h).2 c hc)).1⟩),
    parseUrl_eq _ _ _ _ _ _ _ conf.username conf.password conf.service (partsOf order) (by decide +kernel) ?_ ?_ hp.host hport ?_ ?_
      (unescape_pathEscape _) (unescape_pathEscape _) (unescape_pathEscape _) (hparts ▸ hq), Option.map_some, hsvc]
  · exact fun c hc => ⟨(pathByte_user c (pathEscape_bytes _ c hc)).1, fun e => pathEscape_colon _ hp.user (e ▸ hc)⟩
  · exact fun c hc => (pathByte_user c (pathEscape_bytes _ c hc)).1
  · intro c hc
    have := pathByte_user c (pathEscape_bytes _ c hc)
    exact ⟨this.2.1, this.2.2.1, this.2.2.2.1⟩
  · intro c hc
    rcases join_mem 38 _ c hc with rfl | ⟨w, h, hcw⟩
    · decide
    · have := rawByte_no c ((hw w h).2 c hcw)
      exact ⟨this.2.2.2, this.2.1⟩

/-- The options that come from the fields of the configuration are of this kind: without `Params` and customizer only the
values of the SID and of the servers matter. -/
theorem C112_options (conf : OracleConf) (m : Map) (hm : oracleOptions conf none = some m) (hparams : conf.params = [])
    (order : List (Bytes × Bytes)) (hr : Ranges m order) :
    (∀ x ∈ order, ∀ c ∈ x.1, keyByte c = true) ∧
    ∀ x ∈ order, x = (ascii "SID", conf.sid) ∨ x = (ascii "server", conf.servers) ∨
      x = (ascii "CONNECTION TIMEOUT", itoa conf.connectTimeout) := by
  have key : ∀ x ∈ order, x = (ascii "SID", conf.sid) ∨ x = (ascii "server", conf.servers) ∨
      x = (ascii "CONNECTION TIMEOUT", itoa conf.connectTimeout) := by
    intro x hx
    have h := (hr.2 x.1 x.2).2 hx
    unfold oracleOptions at hm
    split at hm
    · simp at hm
    · simp only [applyParams, hparams, ne_eq, not_true, if_false, Option.some.injEq] at hm
      subst hm
      obtain ⟨k, v⟩ := x
      simp only at h
      split at h <;> split at h <;> split at h <;> simp only [Map.set, Map.empty] at h <;> (repeat' split at h) <;>
        simp_all
  refine ⟨fun x hx => ?_, key⟩
  rcases key x hx with rfl | rfl | rfl
  · exact (by decide +kernel : ∀ c ∈ ascii "SID", keyByte c = true)
  · exact (by decide +kernel : ∀ c ∈ ascii "server", keyByte c = true)
  · exact (by decide +kernel : ∀ c ∈ ascii "CONNECTION TIMEOUT", keyByte c = true)

/-- A configuration for the examples. -/
def oraSample (user pass service : Bytes) : OracleConf :=
  ⟨ascii "h", 1521, user, pass, service, [], ascii "a:1,b:2", 5, [], 0, 0, 0⟩

/-- **C112** does not hold: a colon in the user name is not escaped, and slashes at the ends of the service are lost. -/
theorem C112_violated : ¬ C112Claim ∧
    (parseOra (buildOraUrl (oraSample (ascii "u:v") (ascii "p") (ascii "s")) [])).map (fun d => (d.user, d.password)) =
      some (ascii "u", ascii "v:p") ∧
    (parseOra (buildOraUrl (oraSample (ascii "u") (ascii "p") (ascii "/s")) [])).map (·.database) = some (ascii "s") := by
  have h1 : (parseOra (buildOraUrl ⟨ascii "h", 1521, ascii "u:v", ascii "p", ascii "s", [], [], 0, [], 0, 0, 0⟩ [])).map
      (fun d => (d.user, d.password)) = some (ascii "u", ascii "v:p") := by decide +kernel
  refine ⟨fun h => ?_, by decide +kernel, by decide +kernel⟩
  have := h ⟨ascii "h", 1521, ascii "u:v", ascii "p", ascii "s", [], [], 0, [], 0, 0, 0⟩ Map.empty [] rfl
    ⟨by simp, by simp [Map.empty]⟩
  unfold OraCarries at this
  rw [this] at h1
  revert h1
  decide +kernel

example : OraPlain (oraSample (ascii "u@/") (ascii "p:/?#%&") (ascii "s v")) [(ascii "CONNECTION TIMEOUT", ascii "5"),
    (ascii "server", ascii "a:1,b:2"), (ascii "TRACE FILE", ascii "a b&=+%")] where
  user := by decide +kernel
  host := by decide +kernel
  port := by decide
  service := by decide +kernel
  keys := by decide +kernel
  values := by decide +kernel
  servers := by
    have : ∀ x ∈ [(ascii "CONNECTION TIMEOUT", ascii "5"), (ascii "server", ascii "a:1,b:2"), (ascii "TRACE FILE", ascii "a b&=+%")],
      x.1.map upper = ascii "SERVER" → ∀ c ∈ x.2, keyByte c = true := by decide +kernel
    exact fun x hx h => this x hx ((isServer_iff _).2 h)

end Gears.Confs
