import Verif.Confs.MysqlDsn
import Verif.Confs.Dsn
import Verif.Duration.Props

/-
C97: what is configured for mysql reaches the driver.
-/

namespace Gears.Confs.Mysql

open Gears.Str

/-! ## Texts -/

theorem duration_chars (d : Int) : ∀ c ∈ Duration.toText d, c ≠ 38 ∧ c ≠ 47 := by
  have hterm : ∀ t : Duration.Term, t.WF → ∀ c ∈ t.text, c ≠ 38 ∧ c ≠ 47 := by
    intro t ht c hc
    have hdig : ∀ l : Bytes, l.all Duration.isDigit = true → c ∈ l → c ≠ 38 ∧ c ≠ 47 := by
      intro l hl hm
      have := List.all_eq_true.1 hl c hm
      constructor <;> rintro rfl <;> revert this <;> decide
    simp only [Duration.Term.text, List.mem_append] at hc
    rcases hc with (hc | hc) | hc
    · exact hdig _ ht.ip hc
    · split at hc
      · rcases List.mem_cons.1 hc with rfl | hc
        · decide
        · exact hdig _ ht.fp hc
      · simp at hc
    · have := ht.unit
      unfold Duration.IsUnit at this
      have key : ∀ u : Bytes, u.all (fun c => c != 38 && c != 47) = true → t.u = u → c ≠ 38 ∧ c ≠ 47 := by
        rintro u hu rfl
        have := List.all_eq_true.1 hu c hc
        simpa using this
      rcases this with ⟨h, -⟩ | ⟨h, -⟩ | ⟨h, -⟩ | ⟨h, -⟩ | ⟨h, -⟩ | ⟨h, -⟩ | ⟨h, -⟩ | ⟨h, -⟩ <;> exact key _ (by decide) h
  have hf : ∀ c ∈ Duration.format d.natAbs, c ≠ 38 ∧ c ≠ 47 := by
    obtain ⟨ts, -, hwf, h, -⟩ := Duration.format_spec d.natAbs
    rw [h]
    intro c hc
    simp only [Duration.text, List.mem_flatMap] at hc
    obtain ⟨t, ht, hc⟩ := hc
    exact hterm t (hwf t ht) c hc
  intro c hc
  unfold Duration.toText at hc
  split at hc
  · rcases List.mem_cons.1 hc with rfl | hc
    · decide
    · exact hf c hc
  · exact hf c hc

theorem itoa_chars (z : Int) : ∀ c ∈ itoa z, c ≠ 38 ∧ c ≠ 47 ∧ c ≠ 64 ∧ c ≠ 58 ∧ c ≠ 91 ∧ c ≠ 93 := by
  have hf : ∀ c ∈ natDigits z.natAbs, c ≠ 38 ∧ c ≠ 47 ∧ c ≠ 64 ∧ c ≠ 58 ∧ c ≠ 91 ∧ c ≠ 93 := by
    intro c hc
    have := List.all_eq_true.1 (Duration.natDigits_spec z.natAbs).1 c hc
    refine ⟨?_, ?_, ?_, ?_, ?_, ?_⟩ <;> rintro rfl <;> revert this <;> decide
  intro c hc
  unfold itoa at hc
  split at hc
  · rcases List.mem_cons.1 hc with rfl | hc
    · decide
    · exact hf c hc
  · exact hf c hc

theorem escape_chars (s : Bytes) : ∀ c ∈ queryEscape s, c ≠ 38 ∧ c ≠ 47 := by
  intro c hc
  rcases escape_bytes s c hc with h | h | h
  · constructor <;> rintro rfl <;> revert h <;> decide
  · subst h; decide
  · subst h; decide

/-! ## What can be written -/

/-- Names with a meaning for the driver. -/
def known : List Bytes :=
  flags.map Flag.name ++ [ascii "collation", ascii "compress", ascii "loc", ascii "readTimeout", ascii "serverPubKey", ascii "strict",
    ascii "timeout", ascii "tls", ascii "writeTimeout", ascii "maxAllowedPacket"]

/-- A configuration that can be written as DSN. -/
structure Writable (env : Env) (cfg : Cfg) (order : List (Bytes × Bytes)) : Prop where
  /-- no colon -/
  user : 58 ∉ cfg.user
  /-- no password without user -/
  passwd : cfg.user = [] → cfg.passwd = []
  /-- neither at-sign nor parenthesis -/
  net : cfg.net ≠ [] ∧ 64 ∉ cfg.net ∧ 40 ∉ cfg.net
  /-- no at-sign; host and port for tcp -/
  addr : cfg.addr ≠ [] ∧ 64 ∉ cfg.addr ∧ (cfg.net = ascii "tcp" → ensureHavePort cfg.addr = cfg.addr)
  /-- neither slash nor question mark -/
  dbName : 47 ∉ cfg.dbName ∧ 63 ∉ cfg.dbName
  /-- neither slash, ampersand nor equals sign, and no meaning for the driver -/
  names : ∀ kv ∈ order, 47 ∉ kv.1 ∧ 38 ∉ kv.1 ∧ 61 ∉ kv.1 ∧ kv.1 ∉ known
  collation : cfg.collation ≠ [] ∧ 38 ∉ cfg.collation ∧ 47 ∉ cfg.collation
  loc : env.loadLocation (env.locName cfg.loc) = some cfg.loc
  timeout : 0 ≤ cfg.timeout ∧ cfg.timeout < 2 ^ 63
  readTimeout : 0 ≤ cfg.readTimeout ∧ cfg.readTimeout < 2 ^ 63
  writeTimeout : 0 ≤ cfg.writeTimeout ∧ cfg.writeTimeout < 2 ^ 63
  maxAllowedPacket : -2 ^ 63 ≤ cfg.maxAllowedPacket ∧ cfg.maxAllowedPacket < 2 ^ 63
  serverPubKey : cfg.serverPubKey = [] ∨ env.keyKnown cfg.serverPubKey = true
  tls : cfg.tls = [] ∨ cfg.tls = ascii "true" ∨ cfg.tls = ascii "false" ∨ cfg.tls = ascii "skip-verify" ∨ cfg.tls = ascii "preferred" ∨
    (env.tlsKnown cfg.tls = true ∧ readBool (queryEscape cfg.tls) = none)

/-- An item that can be separated from others. -/
def Sep (kv : Bytes × Bytes) : Prop := 38 ∉ kv.1 ∧ 61 ∉ kv.1 ∧ 47 ∉ kv.1 ∧ 38 ∉ kv.2 ∧ 47 ∉ kv.2

theorem sep_opt {c : Bool} {n v : Bytes} (h : c = true → Sep (n, v)) : ∀ kv ∈ opt c n v, Sep kv := by
  intro kv hkv
  unfold opt at hkv
  split at hkv
  · simp at hkv; subst hkv; exact h (by assumption)
  · simp at hkv

theorem sep_app {a b : List (Bytes × Bytes)} (ha : ∀ kv ∈ a, Sep kv) (hb : ∀ kv ∈ b, Sep kv) : ∀ kv ∈ a ++ b, Sep kv := by
  intro kv h
  rcases List.mem_append.1 h with h | h
  · exact ha _ h
  · exact hb _ h

theorem sep_flag (cfg : Cfg) (f : Flag) : ∀ kv ∈ flagItem cfg f, Sep kv := by
  apply sep_opt
  intro _
  cases f <;> simp only [Sep] <;> decide +kernel

theorem sep_name {n v : Bytes} (hn : n.all (fun c => c != 38 && c != 61 && c != 47) = true) (hv : ∀ c ∈ v, c ≠ 38 ∧ c ≠ 47) : Sep (n, v) := by
  have h : ∀ c ∈ n, c ≠ 38 ∧ c ≠ 61 ∧ c ≠ 47 := by
    intro c hc
    have := List.all_eq_true.1 hn c hc
    simp at this
    exact ⟨this.1.1, this.1.2, this.2⟩
  exact ⟨fun hm => (h _ hm).1 rfl, fun hm => (h _ hm).2.1 rfl, fun hm => (h _ hm).2.2 rfl, fun hm => (hv _ hm).1 rfl, fun hm => (hv _ hm).2 rfl⟩

theorem items_sep {env : Env} {cfg : Cfg} {order : List (Bytes × Bytes)} (hn : ∀ kv ∈ order, 47 ∉ kv.1 ∧ 38 ∉ kv.1 ∧ 61 ∉ kv.1)
    (hc : 38 ∉ cfg.collation ∧ 47 ∉ cfg.collation) :
    ∀ kv ∈ items env cfg order, Sep kv := by
  unfold items
  refine sep_app (sep_app (sep_app (sep_app (sep_app (sep_app (sep_app (sep_app (sep_app (sep_app (sep_app (sep_app (sep_app (sep_app
    (sep_app (sep_app (sep_app (sep_app (sep_app (sep_flag _ _) (sep_flag _ _)) (sep_flag _ _)) (sep_flag _ _)) (sep_flag _ _)) (sep_flag _ _))
    (sep_opt fun _ => sep_name (by decide) ?_)) (sep_flag _ _)) (sep_flag _ _)) (sep_opt fun _ => sep_name (by decide) (escape_chars _)))
    (sep_flag _ _)) (sep_flag _ _)) (sep_opt fun _ => sep_name (by decide) (duration_chars _))) (sep_flag _ _))
    (sep_opt fun _ => sep_name (by decide) (escape_chars _))) (sep_opt fun _ => sep_name (by decide) (duration_chars _)))
    (sep_opt fun _ => sep_name (by decide) (escape_chars _))) (sep_opt fun _ => sep_name (by decide) (duration_chars _)))
    (sep_opt fun _ => sep_name (by decide) fun c hm => ⟨(itoa_chars _ c hm).1, (itoa_chars _ c hm).2.1⟩)) ?_
  · intro c hm
    exact ⟨fun h => hc.1 (h ▸ hm), fun h => hc.2 (h ▸ hm)⟩
  · intro kv hkv
    simp only [List.mem_map] at hkv
    obtain ⟨x, hx, rfl⟩ := hkv
    obtain ⟨h1, h2, h3⟩ := hn x hx
    exact ⟨h2, h3, h1, fun hm => (escape_chars _ _ hm).1 rfl, fun hm => (escape_chars _ _ hm).2 rfl⟩

theorem splitItem_text {kv : Bytes × Bytes} (h : Sep kv) : splitItem (itemText kv) = some kv := by
  unfold splitItem itemText
  rw [cut_append _ h.2.1]
  rfl

theorem itemsText_slash {l : List (Bytes × Bytes)} (h : ∀ kv ∈ l, Sep kv) : 47 ∉ itemsText l := by
  unfold itemsText
  split
  · simp
  · rw [List.mem_cons, not_or]
    refine ⟨by decide, fun hm => ?_⟩
    rcases join_mem _ _ _ hm with h1 | ⟨w, hw, h1⟩
    · revert h1; decide
    · simp only [List.mem_map] at hw
      obtain ⟨kv, hkv, rfl⟩ := hw
      obtain ⟨h2, h3, h4, h5, h6⟩ := h kv hkv
      simp only [itemText, List.mem_append, List.mem_cons] at h1
      rcases h1 with h1 | h1 | h1
      · exact h4 h1
      · revert h1; decide
      · exact h6 h1

/-- The items in the text are applied one after the other. -/
theorem parseRight_items {env : Env} {cfg : Cfg} {db : Bytes} (hdb : 63 ∉ db) {l : List (Bytes × Bytes)} (h : ∀ kv ∈ l, Sep kv) :
    parseRight env cfg (db ++ itemsText l) = (l.foldlM (applyParam env) cfg).map fun c => { c with dbName := db } := by
  unfold parseRight itemsText
  by_cases hl : l = []
  · subst hl
    rw [if_pos rfl, List.append_nil, cut_of_free hdb]
    rfl
  · rw [if_neg hl, cut_append _ hdb]
    simp only [applyParams]
    rw [split_join (by simpa using hl)]
    · have : (l.map itemText).filterMap splitItem = l := by
        rw [List.filterMap_map]
        clear hl
        induction l with
        | nil => rfl
        | cons kv l ih =>
          rw [List.filterMap_cons]
          simp only [Function.comp, splitItem_text (h kv (by simp))]
          rw [show (fun x => splitItem (itemText x)) = splitItem ∘ itemText from rfl, ih (fun x hx => h x (by simp [hx]))]
      rw [this]
    · intro w hw
      simp only [List.mem_map] at hw
      obtain ⟨kv, hkv, rfl⟩ := hw
      obtain ⟨h2, h3, h4, h5, h6⟩ := h kv hkv
      simp only [itemText, List.mem_append, List.mem_cons, not_or]
      exact ⟨h2, by decide, h5⟩

/-- The part before the slash. -/
theorem parseLeft_text {env : Env} {cfg : Cfg} {order : List (Bytes × Bytes)} (h : Writable env cfg order) :
    parseLeft Cfg.new (userText cfg ++ netText cfg) =
      some { Cfg.new with user := cfg.user, passwd := cfg.passwd, net := cfg.net, addr := cfg.addr } := by
  obtain ⟨hn1, hn2, hn3⟩ := h.net
  obtain ⟨ha1, ha2, -⟩ := h.addr
  have hnt : netText cfg = cfg.net ++ 40 :: (cfg.addr ++ [41]) := by simp [netText, hn1, ha1]
  have hat : 64 ∉ netText cfg := by
    rw [hnt]; simp [hn2, ha2]
  have hnet : ∀ c : Cfg, parseNet c (netText cfg) = some { c with net := cfg.net, addr := cfg.addr } := by
    intro c
    unfold parseNet
    rw [hnt, cut_append _ hn3]
    simp
  unfold parseLeft
  by_cases hu : cfg.user = []
  · have hut : userText cfg = [] := by simp [userText, hu]
    rw [hut, List.nil_append, if_neg (by rw [hnt]; simp), cutLast_of_free hat]
    simp only [hnet, hu, h.passwd hu]
    rfl
  · have hut : userText cfg ++ netText cfg = (cfg.user ++ (if cfg.passwd ≠ [] then 58 :: cfg.passwd else [])) ++ 64 :: netText cfg := by
      simp [userText, hu]
    rw [hut, if_neg (by simp), cutLast_append _ hat]
    simp only [hnet]
    by_cases hp : cfg.passwd = []
    · simp only [hp, ne_eq, not_true_eq_false, if_false, List.append_nil, cut_of_free h.user]
      rfl
    · simp only [hp, ne_eq, not_false_eq_true, if_true, cut_append _ h.user]
      rfl

/-! ## The items -/

theorem foldlM_app {α β : Type} (f : β → α → Option β) (a b : List α) (s : β) :
    (a ++ b).foldlM f s = (a.foldlM f s).bind fun s => b.foldlM f s := by
  rw [List.foldlM_append]; rfl

theorem find_name (f : Flag) : flags.find? (fun g => g.name = f.name) = some f := by cases f <;> decide +kernel

theorem find_known {n : Bytes} (h : n ∉ flags.map Flag.name) : flags.find? (fun g => g.name = n) = none := by
  rw [List.find?_eq_none]
  intro f hf
  simp only [decide_eq_true_eq]
  rintro rfl
  exact h (List.mem_map_of_mem hf)

def setFlag (f : Flag) (b : Bool) (s : Cfg) : Cfg := { s with flags := fun g => if g = f then b else s.flags g }
theorem setFlag_flags (f : Flag) (b : Bool) (s : Cfg) (g : Flag) : (setFlag f b s).flags g = if g = f then b else s.flags g := rfl
def setCollation (v : Bytes) (s : Cfg) : Cfg := { s with collation := v }
theorem setCollation_flags (v : Bytes) (s : Cfg) (g : Flag) : (setCollation v s).flags g = s.flags g := rfl
def setLoc (v : Nat) (s : Cfg) : Cfg := { s with loc := v }
theorem setLoc_flags (v : Nat) (s : Cfg) (g : Flag) : (setLoc v s).flags g = s.flags g := rfl
def setRead (v : Int) (s : Cfg) : Cfg := { s with readTimeout := v }
theorem setRead_flags (v : Int) (s : Cfg) (g : Flag) : (setRead v s).flags g = s.flags g := rfl
def setTimeout (v : Int) (s : Cfg) : Cfg := { s with timeout := v }
theorem setTimeout_flags (v : Int) (s : Cfg) (g : Flag) : (setTimeout v s).flags g = s.flags g := rfl
def setWrite (v : Int) (s : Cfg) : Cfg := { s with writeTimeout := v }
theorem setWrite_flags (v : Int) (s : Cfg) (g : Flag) : (setWrite v s).flags g = s.flags g := rfl
def setKey (v : Bytes) (s : Cfg) : Cfg := { s with serverPubKey := v }
theorem setKey_flags (v : Bytes) (s : Cfg) (g : Flag) : (setKey v s).flags g = s.flags g := rfl
def setTls (v : Bytes) (s : Cfg) : Cfg := { s with tls := v }
theorem setTls_flags (v : Bytes) (s : Cfg) (g : Flag) : (setTls v s).flags g = s.flags g := rfl
def setPacket (v : Int) (s : Cfg) : Cfg := { s with maxAllowedPacket := v }
theorem setPacket_flags (v : Int) (s : Cfg) (g : Flag) : (setPacket v s).flags g = s.flags g := rfl

theorem setFlag_other (f : Flag) (v : Bool) (s : Cfg) : (setFlag f v s).collation = s.collation ∧ (setFlag f v s).loc = s.loc ∧ (setFlag f v s).readTimeout = s.readTimeout ∧ (setFlag f v s).timeout = s.timeout ∧ (setFlag f v s).writeTimeout = s.writeTimeout ∧ (setFlag f v s).serverPubKey = s.serverPubKey ∧ (setFlag f v s).tls = s.tls ∧ (setFlag f v s).maxAllowedPacket = s.maxAllowedPacket :=
  ⟨rfl, rfl, rfl, rfl, rfl, rfl, rfl, rfl⟩
theorem setCollation_other (v : Bytes) (s : Cfg) : (setCollation v s).loc = s.loc ∧ (setCollation v s).readTimeout = s.readTimeout ∧ (setCollation v s).timeout = s.timeout ∧ (setCollation v s).writeTimeout = s.writeTimeout ∧ (setCollation v s).serverPubKey = s.serverPubKey ∧ (setCollation v s).tls = s.tls ∧ (setCollation v s).maxAllowedPacket = s.maxAllowedPacket :=
  ⟨rfl, rfl, rfl, rfl, rfl, rfl, rfl⟩
theorem setLoc_other (v : Nat) (s : Cfg) : (setLoc v s).collation = s.collation ∧ (setLoc v s).readTimeout = s.readTimeout ∧ (setLoc v s).timeout = s.timeout ∧ (setLoc v s).writeTimeout = s.writeTimeout ∧ (setLoc v s).serverPubKey = s.serverPubKey ∧ (setLoc v s).tls = s.tls ∧ (setLoc v s).maxAllowedPacket = s.maxAllowedPacket :=
  ⟨rfl, rfl, rfl, rfl, rfl, rfl, rfl⟩
theorem setRead_other (v : Int) (s : Cfg) : (setRead v s).collation = s.collation ∧ (setRead v s).loc = s.loc ∧ (setRead v s).timeout = s.timeout ∧ (setRead v s).writeTimeout = s.writeTimeout ∧ (setRead v s).serverPubKey = s.serverPubKey ∧ (setRead v s).tls = s.tls ∧ (setRead v s).maxAllowedPacket = s.maxAllowedPacket :=
  ⟨rfl, rfl, rfl, rfl, rfl, rfl, rfl⟩
theorem setTimeout_other (v : Int) (s : Cfg) : (setTimeout v s).collation = s.collation ∧ (setTimeout v s).loc = s.loc ∧ (setTimeout v s).readTimeout = s.readTimeout ∧ (setTimeout v s).writeTimeout = s.writeTimeout ∧ (setTimeout v s).serverPubKey = s.serverPubKey ∧ (setTimeout v s).tls = s.tls ∧ (setTimeout v s).maxAllowedPacket = s.maxAllowedPacket :=
  ⟨rfl, rfl, rfl, rfl, rfl, rfl, rfl⟩
theorem setWrite_other (v : Int) (s : Cfg) : (setWrite v s).collation = s.collation ∧ (setWrite v s).loc = s.loc ∧ (setWrite v s).readTimeout = s.readTimeout ∧ (setWrite v s).timeout = s.timeout ∧ (setWrite v s).serverPubKey = s.serverPubKey ∧ (setWrite v s).tls = s.tls ∧ (setWrite v s).maxAllowedPacket = s.maxAllowedPacket :=
  ⟨rfl, rfl, rfl, rfl, rfl, rfl, rfl⟩
theorem setKey_other (v : Bytes) (s : Cfg) : (setKey v s).collation = s.collation ∧ (setKey v s).loc = s.loc ∧ (setKey v s).readTimeout = s.readTimeout ∧ (setKey v s).timeout = s.timeout ∧ (setKey v s).writeTimeout = s.writeTimeout ∧ (setKey v s).tls = s.tls ∧ (setKey v s).maxAllowedPacket = s.maxAllowedPacket :=
  ⟨rfl, rfl, rfl, rfl, rfl, rfl, rfl⟩
theorem setTls_other (v : Bytes) (s : Cfg) : (setTls v s).collation = s.collation ∧ (setTls v s).loc = s.loc ∧ (setTls v s).readTimeout = s.readTimeout ∧ (setTls v s).timeout = s.timeout ∧ (setTls v s).writeTimeout = s.writeTimeout ∧ (setTls v s).serverPubKey = s.serverPubKey ∧ (setTls v s).maxAllowedPacket = s.maxAllowedPacket :=
  ⟨rfl, rfl, rfl, rfl, rfl, rfl, rfl⟩
theorem setPacket_other (v : Int) (s : Cfg) : (setPacket v s).collation = s.collation ∧ (setPacket v s).loc = s.loc ∧ (setPacket v s).readTimeout = s.readTimeout ∧ (setPacket v s).timeout = s.timeout ∧ (setPacket v s).writeTimeout = s.writeTimeout ∧ (setPacket v s).serverPubKey = s.serverPubKey ∧ (setPacket v s).tls = s.tls :=
  ⟨rfl, rfl, rfl, rfl, rfl, rfl, rfl⟩
theorem setRead_self {s : Cfg} (h : s.readTimeout = 0) : setRead 0 s = s := by rw [setRead, ← h]
theorem setTimeout_self {s : Cfg} (h : s.timeout = 0) : setTimeout 0 s = s := by rw [setTimeout, ← h]
theorem setWrite_self {s : Cfg} (h : s.writeTimeout = 0) : setWrite 0 s = s := by rw [setWrite, ← h]

theorem fold_flag {env : Env} {cfg s : Cfg} {f : Flag} (h : s.flags f = f.default) :
    (flagItem cfg f).foldlM (applyParam env) s = some (setFlag f (cfg.flags f) s) := by
  unfold flagItem opt
  split
  · rename_i hc
    simp only [List.foldlM_cons, List.foldlM_nil, applyParam, find_name]
    have : readBool (if f.default = true then ascii "false" else ascii "true") = some (cfg.flags f) := by
      cases hd : f.default <;> cases hf : cfg.flags f <;> simp [hd, hf] at hc ⊢ <;> decide +kernel
    rw [this]; rfl
  · rename_i hc
    simp at hc
    simp only [List.foldlM_nil, setFlag]
    have : s.flags = fun g => if g = f then cfg.flags f else s.flags g := by
      funext g
      split
      · rename_i hg; rw [hg, h, hc]
      · rfl
    rw [← this]
    rfl

theorem fold_opt {env : Env} {s t : Cfg} {c : Bool} {n v : Bytes} (h1 : c = true → applyParam env s (n, v) = some t) (h2 : c = false → s = t) :
    (opt c n v).foldlM (applyParam env) s = some t := by
  unfold opt
  split
  · rename_i hc
    simp only [List.foldlM_cons, List.foldlM_nil, h1 hc]; rfl
  · rename_i hc
    simp only [List.foldlM_nil, h2 (by simpa using hc)]; rfl

theorem apply_collation (env : Env) (s : Cfg) (v : Bytes) : applyParam env s (ascii "collation", v) =
    some { s with collation := v } := by
  unfold applyParam
  rw [show flags.find? (fun f => f.name = (ascii "collation", v).1) = none from (show flags.find? (fun f => f.name = ascii "collation") = none by decide +kernel)]
  simp only
  rw [if_pos trivial]

theorem apply_loc (env : Env) (s : Cfg) (v : Bytes) : applyParam env s (ascii "loc", v) =
    ((queryUnescape v).bind env.loadLocation).map fun l => { s with loc := l } := by
  unfold applyParam
  rw [show flags.find? (fun f => f.name = (ascii "loc", v).1) = none from (show flags.find? (fun f => f.name = ascii "loc") = none by decide +kernel)]
  simp only
  rw [if_neg (by decide +kernel), if_neg (by decide +kernel), if_pos trivial]

theorem apply_readTimeout (env : Env) (s : Cfg) (v : Bytes) : applyParam env s (ascii "readTimeout", v) =
    (Duration.parse v).map fun d => setRead d s := by
  unfold applyParam
  rw [show flags.find? (fun f => f.name = (ascii "readTimeout", v).1) = none from (show flags.find? (fun f => f.name = ascii "readTimeout") = none by decide +kernel)]
  simp only
  rw [if_neg (by decide +kernel), if_neg (by decide +kernel), if_neg (by decide +kernel), if_pos trivial]
  rfl

theorem apply_timeout (env : Env) (s : Cfg) (v : Bytes) : applyParam env s (ascii "timeout", v) =
    (Duration.parse v).map fun d => setTimeout d s := by
  unfold applyParam
  rw [show flags.find? (fun f => f.name = (ascii "timeout", v).1) = none from (show flags.find? (fun f => f.name = ascii "timeout") = none by decide +kernel)]
  simp only
  rw [if_neg (by decide +kernel), if_neg (by decide +kernel), if_neg (by decide +kernel), if_neg (by decide +kernel), if_neg (by decide +kernel), if_neg (by decide +kernel), if_pos trivial]
  rfl

theorem apply_writeTimeout (env : Env) (s : Cfg) (v : Bytes) : applyParam env s (ascii "writeTimeout", v) =
    (Duration.parse v).map fun d => setWrite d s := by
  unfold applyParam
  rw [show flags.find? (fun f => f.name = (ascii "writeTimeout", v).1) = none from (show flags.find? (fun f => f.name = ascii "writeTimeout") = none by decide +kernel)]
  simp only
  rw [if_neg (by decide +kernel), if_neg (by decide +kernel), if_neg (by decide +kernel), if_neg (by decide +kernel), if_neg (by decide +kernel), if_neg (by decide +kernel), if_neg (by decide +kernel), if_neg (by decide +kernel), if_pos trivial]
  rfl

theorem apply_serverPubKey (env : Env) (s : Cfg) (v : Bytes) : applyParam env s (ascii "serverPubKey", v) =
    (queryUnescape v).map fun n => { s with serverPubKey := n } := by
  unfold applyParam
  rw [show flags.find? (fun f => f.name = (ascii "serverPubKey", v).1) = none from (show flags.find? (fun f => f.name = ascii "serverPubKey") = none by decide +kernel)]
  simp only
  rw [if_neg (by decide +kernel), if_neg (by decide +kernel), if_neg (by decide +kernel), if_neg (by decide +kernel), if_pos trivial]

theorem apply_tls (env : Env) (s : Cfg) (v : Bytes) : applyParam env s (ascii "tls", v) =
    match readBool v with
      | some b => some { s with tls := if b then ascii "true" else ascii "false" }
      | none => (queryUnescape v).map fun n => { s with tls := n } := by
  unfold applyParam
  rw [show flags.find? (fun f => f.name = (ascii "tls", v).1) = none from (show flags.find? (fun f => f.name = ascii "tls") = none by decide +kernel)]
  simp only
  rw [if_neg (by decide +kernel), if_neg (by decide +kernel), if_neg (by decide +kernel), if_neg (by decide +kernel), if_neg (by decide +kernel), if_neg (by decide +kernel), if_neg (by decide +kernel), if_pos trivial]
  rfl

theorem apply_maxAllowedPacket (env : Env) (s : Cfg) (v : Bytes) : applyParam env s (ascii "maxAllowedPacket", v) =
    (Procs.atoi v).map fun n => { s with maxAllowedPacket := n } := by
  unfold applyParam
  rw [show flags.find? (fun f => f.name = (ascii "maxAllowedPacket", v).1) = none from (show flags.find? (fun f => f.name = ascii "maxAllowedPacket") = none by decide +kernel)]
  simp only
  rw [if_neg (by decide +kernel), if_neg (by decide +kernel), if_neg (by decide +kernel), if_neg (by decide +kernel), if_neg (by decide +kernel), if_neg (by decide +kernel), if_neg (by decide +kernel), if_neg (by decide +kernel), if_neg (by decide +kernel), if_pos trivial]

theorem apply_other (env : Env) (s : Cfg) {n : Bytes} (v : Bytes) (h : n ∉ known) : applyParam env s (n, v) =
    (queryUnescape v).map fun v => { s with params := s.params.set n v } := by
  simp only [known, List.mem_append, not_or, List.mem_cons, List.not_mem_nil, or_false, not_false_eq_true] at h
  obtain ⟨h0, h1, h2, h3, h4, h5, h6, h7, h8, h9, h10⟩ := h
  unfold applyParam
  simp only [find_known h0, h1, h2, h3, h4, h5, h6, h7, h8, h9, h10, if_false]

theorem fold_collation {env : Env} {cfg s : Cfg} (h : cfg.collation ≠ []) (hs : s.collation = ascii "utf8mb4_general_ci") :
    (opt (cfg.collation ≠ ascii "utf8mb4_general_ci" ∧ cfg.collation ≠ []) (ascii "collation") cfg.collation).foldlM (applyParam env) s =
      some (setCollation cfg.collation s) := by
  refine fold_opt (fun _ => apply_collation _ _ _) (fun hc => ?_)
  have : cfg.collation = s.collation := by
    simp [h] at hc; rw [hc, hs]
  rw [this, setCollation]

theorem fold_loc {env : Env} {cfg s : Cfg} (h : env.loadLocation (env.locName cfg.loc) = some cfg.loc) (hs : s.loc = 0) :
    (opt (cfg.loc ≠ 0) (ascii "loc") (queryEscape (env.locName cfg.loc))).foldlM (applyParam env) s = some (setLoc cfg.loc s) := by
  refine fold_opt (fun _ => ?_) (fun hc => ?_)
  · rw [apply_loc, unescape_escape, Option.bind_some, h]; rfl
  · simp at hc; rw [hc, setLoc, ← hs]

theorem fold_duration {env : Env} {s : Cfg} {d : Int} {n : Bytes} {set : Int → Cfg} (hn : ∀ v, applyParam env s (n, v) = (Duration.parse v).map set)
    (h : 0 ≤ d ∧ d < 2 ^ 63) (hs : set 0 = s) : (opt (0 < d) n (Duration.toText d)).foldlM (applyParam env) s = some (set d) := by
  refine fold_opt (fun _ => ?_) (fun hc => ?_)
  · rw [hn, (Duration.C96_partial d (by omega) h.2).1]; rfl
  · simp at hc
    have : d = 0 := by omega
    rw [this, hs]

theorem fold_key {env : Env} {cfg s : Cfg} (hs : s.serverPubKey = []) :
    (opt (cfg.serverPubKey ≠ []) (ascii "serverPubKey") (queryEscape cfg.serverPubKey)).foldlM (applyParam env) s =
      some (setKey cfg.serverPubKey s) := by
  refine fold_opt (fun _ => ?_) (fun hc => ?_)
  · rw [apply_serverPubKey, unescape_escape]; rfl
  · simp at hc; rw [hc, setKey, ← hs]

theorem fold_tls {env : Env} {cfg s : Cfg} (h : cfg.tls = ascii "true" ∨ cfg.tls = ascii "false" ∨ readBool (queryEscape cfg.tls) = none)
    (hs : s.tls = []) :
    (opt (cfg.tls ≠ []) (ascii "tls") (queryEscape cfg.tls)).foldlM (applyParam env) s = some (setTls cfg.tls s) := by
  refine fold_opt (fun _ => ?_) (fun hc => ?_)
  · rw [apply_tls]
    rcases h with h | h | h
    · rw [h, show readBool (queryEscape (ascii "true")) = some true by decide +kernel]; rfl
    · rw [h, show readBool (queryEscape (ascii "false")) = some false by decide +kernel]; rfl
    · rw [h, unescape_escape]; rfl
  · simp at hc; rw [hc, setTls, ← hs]

theorem fold_packet {env : Env} {cfg s : Cfg} (h : -2 ^ 63 ≤ cfg.maxAllowedPacket ∧ cfg.maxAllowedPacket < 2 ^ 63) (hs : s.maxAllowedPacket = 4194304) :
    (opt (cfg.maxAllowedPacket ≠ 4194304) (ascii "maxAllowedPacket") (itoa cfg.maxAllowedPacket)).foldlM (applyParam env) s =
      some (setPacket cfg.maxAllowedPacket s) := by
  refine fold_opt (fun _ => ?_) (fun hc => ?_)
  · rw [apply_maxAllowedPacket, (Procs.atoi_iff _ _).2 ⟨itoa_decimal _, h.1, h.2⟩]; rfl
  · simp at hc; rw [hc, setPacket, ← hs]

set_option linter.unusedSimpArgs false in
/-- The settings of the driver, without Params. -/
theorem fold_items {env : Env} {cfg s : Cfg} {order : List (Bytes × Bytes)} (h : Writable env cfg order) (hs1 : s.flags = Flag.default)
    (hs2 : s.collation = ascii "utf8mb4_general_ci") (hs3 : s.loc = 0) (hs4 : s.maxAllowedPacket = 4194304) (hs5 : s.serverPubKey = [])
    (hs6 : s.tls = []) (hs7 : s.timeout = 0) (hs8 : s.readTimeout = 0) (hs9 : s.writeTimeout = 0) :
    (items env cfg order).foldlM (applyParam env) s =
      (order.map fun kv => (kv.1, queryEscape kv.2)).foldlM (applyParam env)
        { cfg with user := s.user, passwd := s.passwd, net := s.net, addr := s.addr, dbName := s.dbName, params := s.params } := by
  have htls : cfg.tls = ascii "true" ∨ cfg.tls = ascii "false" ∨ readBool (queryEscape cfg.tls) = none := by
    rcases h.tls with h | h | h | h | h | h
    · rw [h]; exact .inr (.inr (by decide +kernel))
    · exact .inl h
    · exact .inr (.inl h)
    · rw [h]; exact .inr (.inr (by decide +kernel))
    · rw [h]; exact .inr (.inr (by decide +kernel))
    · exact .inr (.inr h.2)
  unfold items
  simp only [foldlM_app]
  rw [fold_flag (f := .allowAllFiles) (by simp only [setFlag_flags, setCollation_flags, setLoc_flags, setRead_flags, setTimeout_flags, setWrite_flags, setKey_flags, setTls_flags, setPacket_flags, reduceCtorEq, if_false, hs1]), Option.bind_some]
  rw [fold_flag (f := .allowCleartextPasswords) (by simp only [setFlag_flags, setCollation_flags, setLoc_flags, setRead_flags, setTimeout_flags, setWrite_flags, setKey_flags, setTls_flags, setPacket_flags, reduceCtorEq, if_false, hs1]), Option.bind_some]
  rw [fold_flag (f := .allowNativePasswords) (by simp only [setFlag_flags, setCollation_flags, setLoc_flags, setRead_flags, setTimeout_flags, setWrite_flags, setKey_flags, setTls_flags, setPacket_flags, reduceCtorEq, if_false, hs1]), Option.bind_some]
  rw [fold_flag (f := .allowOldPasswords) (by simp only [setFlag_flags, setCollation_flags, setLoc_flags, setRead_flags, setTimeout_flags, setWrite_flags, setKey_flags, setTls_flags, setPacket_flags, reduceCtorEq, if_false, hs1]), Option.bind_some]
  rw [fold_flag (f := .checkConnLiveness) (by simp only [setFlag_flags, setCollation_flags, setLoc_flags, setRead_flags, setTimeout_flags, setWrite_flags, setKey_flags, setTls_flags, setPacket_flags, reduceCtorEq, if_false, hs1]), Option.bind_some]
  rw [fold_flag (f := .clientFoundRows) (by simp only [setFlag_flags, setCollation_flags, setLoc_flags, setRead_flags, setTimeout_flags, setWrite_flags, setKey_flags, setTls_flags, setPacket_flags, reduceCtorEq, if_false, hs1]), Option.bind_some]
  rw [fold_collation h.collation.1 (by simp only [setFlag_other, setCollation_other, setLoc_other, setRead_other, setTimeout_other, setWrite_other, setKey_other, setTls_other, setPacket_other, hs2]), Option.bind_some]
  rw [fold_flag (f := .columnsWithAlias) (by simp only [setFlag_flags, setCollation_flags, setLoc_flags, setRead_flags, setTimeout_flags, setWrite_flags, setKey_flags, setTls_flags, setPacket_flags, reduceCtorEq, if_false, hs1]), Option.bind_some]
  rw [fold_flag (f := .interpolateParams) (by simp only [setFlag_flags, setCollation_flags, setLoc_flags, setRead_flags, setTimeout_flags, setWrite_flags, setKey_flags, setTls_flags, setPacket_flags, reduceCtorEq, if_false, hs1]), Option.bind_some]
  rw [fold_loc h.loc (by simp only [setFlag_other, setCollation_other, setLoc_other, setRead_other, setTimeout_other, setWrite_other, setKey_other, setTls_other, setPacket_other, hs3]), Option.bind_some]
  rw [fold_flag (f := .multiStatements) (by simp only [setFlag_flags, setCollation_flags, setLoc_flags, setRead_flags, setTimeout_flags, setWrite_flags, setKey_flags, setTls_flags, setPacket_flags, reduceCtorEq, if_false, hs1]), Option.bind_some]
  rw [fold_flag (f := .parseTime) (by simp only [setFlag_flags, setCollation_flags, setLoc_flags, setRead_flags, setTimeout_flags, setWrite_flags, setKey_flags, setTls_flags, setPacket_flags, reduceCtorEq, if_false, hs1]), Option.bind_some]
  rw [fold_duration (apply_readTimeout _ _) h.readTimeout (setRead_self (by simp only [setFlag_other, setCollation_other, setLoc_other, setRead_other, setTimeout_other, setWrite_other, setKey_other, setTls_other, setPacket_other, hs8])), Option.bind_some]
  rw [fold_flag (f := .rejectReadOnly) (by simp only [setFlag_flags, setCollation_flags, setLoc_flags, setRead_flags, setTimeout_flags, setWrite_flags, setKey_flags, setTls_flags, setPacket_flags, reduceCtorEq, if_false, hs1]), Option.bind_some]
  rw [fold_key (by simp only [setFlag_other, setCollation_other, setLoc_other, setRead_other, setTimeout_other, setWrite_other, setKey_other, setTls_other, setPacket_other, hs5]), Option.bind_some]
  rw [fold_duration (apply_timeout _ _) h.timeout (setTimeout_self (by simp only [setFlag_other, setCollation_other, setLoc_other, setRead_other, setTimeout_other, setWrite_other, setKey_other, setTls_other, setPacket_other, hs7])), Option.bind_some]
  rw [fold_tls htls (by simp only [setFlag_other, setCollation_other, setLoc_other, setRead_other, setTimeout_other, setWrite_other, setKey_other, setTls_other, setPacket_other, hs6]), Option.bind_some]
  rw [fold_duration (apply_writeTimeout _ _) h.writeTimeout (setWrite_self (by simp only [setFlag_other, setCollation_other, setLoc_other, setRead_other, setTimeout_other, setWrite_other, setKey_other, setTls_other, setPacket_other, hs9])), Option.bind_some]
  rw [fold_packet h.maxAllowedPacket (by simp only [setFlag_other, setCollation_other, setLoc_other, setRead_other, setTimeout_other, setWrite_other, setKey_other, setTls_other, setPacket_other, hs4]), Option.bind_some]
  refine congrArg (fun t => List.foldlM (applyParam env) t (order.map fun kv => (kv.1, queryEscape kv.2))) ?_
  have : cfg.flags = fun g => if g = Flag.rejectReadOnly then cfg.flags .rejectReadOnly else if g = .parseTime then cfg.flags .parseTime
      else if g = .multiStatements then cfg.flags .multiStatements else if g = .interpolateParams then cfg.flags .interpolateParams
      else if g = .columnsWithAlias then cfg.flags .columnsWithAlias else if g = .clientFoundRows then cfg.flags .clientFoundRows
      else if g = .checkConnLiveness then cfg.flags .checkConnLiveness else if g = .allowOldPasswords then cfg.flags .allowOldPasswords
      else if g = .allowNativePasswords then cfg.flags .allowNativePasswords
      else if g = .allowCleartextPasswords then cfg.flags .allowCleartextPasswords else if g = .allowAllFiles then cfg.flags .allowAllFiles
      else s.flags g := by
    funext g
    cases g <;> simp
  simp only [setFlag, setCollation, setLoc, setRead, setTimeout, setWrite, setKey, setTls, setPacket]
  rw [← this]

/-- Params without names known to the driver. -/
theorem fold_params {env : Env} : ∀ (order : List (Bytes × Bytes)) (s : Cfg), (∀ kv ∈ order, kv.1 ∉ known) →
    (order.map fun kv => (kv.1, queryEscape kv.2)).foldlM (applyParam env) s =
      some { s with params := order.foldl (fun m kv => m.set kv.1 kv.2) s.params }
  | [], s, _ => rfl
  | kv :: order, s, h => by
    rw [List.map_cons, List.foldlM_cons, apply_other env s _ (h kv (by simp)), unescape_escape]
    exact fold_params order _ (fun x hx => h x (by simp [hx]))

theorem foldl_set : ∀ (order : List (Bytes × Bytes)) (m : Map), (order.map (·.1)).Nodup → ∀ k, order.foldl (fun m kv => m.set kv.1 kv.2) m k =
    match order.lookup k with
    | some v => some v
    | none => m k
  | [], m, _, k => rfl
  | kv :: order, m, h, k => by
    rw [List.map_cons, List.nodup_cons] at h
    rw [List.foldl_cons, foldl_set order _ h.2 k, List.lookup_cons]
    by_cases hk : k = kv.1
    · subst hk
      have : order.lookup kv.1 = none := by
        rw [List.lookup_eq_none_iff]
        intro p hp
        simp only [bne_iff_ne, ne_eq]
        intro h2
        exact h.1 (List.mem_map.2 ⟨p, hp, h2.symm⟩)
      simp [this, Map.set]
    · simp [hk, Map.set, show (k == kv.1) = false by simpa using hk]

theorem ranges_foldl {m : Map} {order : List (Bytes × Bytes)} (h : Ranges m order) : order.foldl (fun m kv => m.set kv.1 kv.2) Map.empty = m := by
  funext k
  rw [foldl_set _ _ h.1]
  cases hl : order.lookup k with
  | none =>
    cases hm : m k with
    | none => rfl
    | some v =>
      have := (h.2 k v).1 hm
      rw [List.lookup_eq_none_iff] at hl
      have := hl _ this
      simp at this
  | some v =>
    obtain ⟨l1, l2, h1, -⟩ := List.lookup_eq_some_iff.1 hl
    exact ((h.2 k v).2 (by rw [h1]; simp)).symm

/-- **C97** (the driver): every configuration that can be written is what the driver reads. -/
theorem C97_roundtrip (env : Env) (cfg : Cfg) (order : List (Bytes × Bytes)) (h : Writable env cfg order) (ho : Ranges cfg.params order) :
    parse env (format env cfg order) = some cfg := by
  have hsep := items_sep (env := env) (cfg := cfg) (fun kv hkv => ⟨(h.names kv hkv).1, (h.names kv hkv).2.1, (h.names kv hkv).2.2.1⟩) h.collation.2
  unfold parse format
  rw [List.append_assoc (userText cfg ++ netText cfg), List.cons_append,
    cutLast_append _ (by rw [List.mem_append, not_or]; exact ⟨h.dbName.1, itemsText_slash hsep⟩)]
  simp only
  rw [parseLeft_text h, Option.bind_some, parseRight_items h.dbName.2 hsep,
    fold_items h rfl rfl rfl rfl rfl rfl rfl rfl rfl, fold_params _ _ (fun kv hkv => (h.names kv hkv).2.2.2)]
  simp only [Option.map_some, Option.bind_some]
  rw [show Cfg.new.params = Map.empty from rfl, ranges_foldl ho]
  obtain ⟨hn1, hn2, hn3⟩ := h.net
  obtain ⟨ha1, ha2, ha3⟩ := h.addr
  have h1 : (if cfg.net = ascii "tcp" then some { cfg with addr := ensureHavePort cfg.addr } else some cfg) = some cfg := by
    split
    · rename_i ht; rw [ha3 ht]
    · rfl
  have h2 : ¬ (¬ ([ascii "false", [], ascii "true", ascii "skip-verify", ascii "preferred"].contains cfg.tls) = true ∧ env.tlsKnown cfg.tls = false) := by
    rintro ⟨g1, g2⟩
    rcases h.tls with h | h | h | h | h | h
    · rw [h] at g1; exact g1 (by decide +kernel)
    · rw [h] at g1; exact g1 (by decide +kernel)
    · rw [h] at g1; exact g1 (by decide +kernel)
    · rw [h] at g1; exact g1 (by decide +kernel)
    · rw [h] at g1; exact g1 (by decide +kernel)
    · rw [h.1] at g2; simp at g2
  have h3 : ¬ (cfg.serverPubKey ≠ [] ∧ env.keyKnown cfg.serverPubKey = false) := by
    rintro ⟨g1, g2⟩
    rcases h.serverPubKey with h | h
    · exact g1 h
    · rw [h] at g2; simp at g2
  unfold normalize
  simp only [hn1, ha1, if_false]
  rw [h1, Option.bind_some, if_neg h2, if_neg h3]

/-! ## From the configuration to the driver -/

/-- What the driver uses is what is configured. -/
structure Carried (env : Env) (conf : MysqlConf) (cfg : Cfg) : Prop where
  user : cfg.user = conf.username
  passwd : cfg.passwd = conf.password
  net : cfg.net = ascii "tcp"
  addr : cfg.addr = conf.host ++ 58 :: itoa conf.port
  dbName : cfg.dbName = conf.database
  timeout : cfg.timeout = conf.timeout
  readTimeout : cfg.readTimeout = conf.readTimeout
  writeTimeout : cfg.writeTimeout = conf.writeTimeout
  parseTime : cfg.flags .parseTime = conf.parseTime
  loc : if conf.loc = [] then cfg.loc = 0 else env.loadLocation conf.loc = some cfg.loc
  params : cfg.params = Confs.applyParams Map.empty conf.params

/-- C97 in full: for every configuration, the driver uses what is configured, whatever the order of the map. -/
def C97Claim (env : Env) : Prop := ∀ (conf : MysqlConf) (mc : MysqlConfig) (order : List (Bytes × Bytes)),
  prepareMysql env.loadLocation conf none = some mc → Ranges mc.params order →
  ∃ cfg, parse env (format env (Cfg.of mc) order) = some cfg ∧ Carried env conf cfg

/-- A host name or IPv4 address, or an IPv6 address in brackets. -/
def IsHost (host : Bytes) : Prop :=
  64 ∉ host ∧ ((58 ∉ host ∧ 91 ∉ host ∧ 93 ∉ host) ∨ ∃ h, host = 91 :: h ++ [93] ∧ 91 ∉ h ∧ 93 ∉ h)

/-- What is needed. -/
structure Simple (conf : MysqlConf) : Prop where
  user : 58 ∉ conf.username
  passwd : conf.username = [] → conf.password = []
  host : IsHost conf.host
  database : 47 ∉ conf.database ∧ 63 ∉ conf.database
  timeout : 0 ≤ conf.timeout ∧ conf.timeout < 2 ^ 63
  readTimeout : 0 ≤ conf.readTimeout ∧ conf.readTimeout < 2 ^ 63
  writeTimeout : 0 ≤ conf.writeTimeout ∧ conf.writeTimeout < 2 ^ 63
  params : ∀ k v, Confs.applyParams Map.empty conf.params k = some v → 47 ∉ k ∧ k ∉ known

/-- Locations can be loaded by their name, UTC as well. -/
def Locations (env : Env) : Prop :=
  env.loadLocation (env.locName 0) = some 0 ∧ ∀ n l, env.loadLocation n = some l → env.loadLocation (env.locName l) = some l

theorem params_names (params : Bytes) : ∀ k v, Confs.applyParams Map.empty params k = some v → 38 ∉ k ∧ 61 ∉ k := by
  have hfold : ∀ (l : List Bytes) (m : Map), (∀ w ∈ l, 38 ∉ w) → (∀ k v, m k = some v → 38 ∉ k ∧ 61 ∉ k) →
      ∀ k v, l.foldl applyItem m k = some v → 38 ∉ k ∧ 61 ∉ k := by
    intro l
    induction l with
    | nil => intro m _ h; exact h
    | cons w l ih =>
      intro m hw hm
      rw [List.foldl_cons]
      refine ih _ (fun x hx => hw x (by simp [hx])) ?_
      intro k v hk
      unfold applyItem at hk
      rcases hab : split 61 w with _ | ⟨a, _ | ⟨b, _ | ⟨c, t⟩⟩⟩ <;> simp only [hab] at hk
      · exact hm k v hk
      · exact hm k v hk
      · cases hq : queryUnescape b with
        | none => rw [hq] at hk; exact hm k v hk
        | some x =>
          rw [hq] at hk
          simp only [Map.set] at hk
          split at hk
          · rename_i hka
            subst hka
            obtain ⟨h1, h2, -⟩ := (split_two _ _ _ _).1 hab
            refine ⟨fun h => hw w (by simp) ?_, h2⟩
            rw [h1]; simp [h]
          · exact hm k v hk
      · exact hm k v hk
  intro k v h
  unfold Confs.applyParams at h
  split at h
  · exact hfold _ _ (split_free _ _) (by simp [Map.empty]) k v h
  · simp [Map.empty] at h

theorem hasPort_host {host : Bytes} (h : IsHost host) (port : Int) : hasPort (host ++ 58 :: itoa port) = true := by
  have hp := itoa_chars port
  have p58 : 58 ∉ itoa port := fun hm => (hp _ hm).2.2.2.1 rfl
  have p91 : 91 ∉ itoa port := fun hm => (hp _ hm).2.2.2.2.1 rfl
  have p93 : 93 ∉ itoa port := fun hm => (hp _ hm).2.2.2.2.2 rfl
  unfold hasPort
  rw [cutLast_append _ p58]
  simp only
  obtain ⟨-, ⟨h1, h2, h3⟩ | ⟨h, rfl, h1, h2⟩⟩ := h
  · have h91 : 91 ∉ host ++ 58 :: itoa port := by simp [h2, p91]
    have h93 : 93 ∉ host ++ 58 :: itoa port := by simp [h3, p93]
    rw [if_neg (fun hh : _ = some 91 => h91 (List.mem_of_mem_head? hh))]
    simp [h1, h2, p91, h3, p93]
  · have e : 91 :: h ++ [93] ++ 58 :: itoa port = (91 :: h) ++ 93 :: 58 :: itoa port := by simp
    rw [e, if_pos (by rfl), cut_append _ (by simp [h2])]
    simp [h1, p91, p93]

theorem ensure_host {host : Bytes} (h : IsHost host) (port : Int) : ensureHavePort (host ++ 58 :: itoa port) = host ++ 58 :: itoa port := by
  unfold ensureHavePort; rw [if_pos (hasPort_host h port)]

/-- **C97** (partial): simple configurations reach the driver. Missing: see `Simple`, and the theorems below. -/
theorem C97_partial (env : Env) (henv : Locations env) (conf : MysqlConf) (hconf : Simple conf) (mc : MysqlConfig) (order : List (Bytes × Bytes))
    (h : prepareMysql env.loadLocation conf none = some mc) (ho : Ranges mc.params order) :
    ∃ cfg, parse env (format env (Cfg.of mc) order) = some cfg ∧ Carried env conf cfg ∧ cfg.tls = [] ∧ cfg.collation = ascii "utf8mb4_general_ci" ∧
      cfg.serverPubKey = [] ∧ cfg.maxAllowedPacket = 4194304 ∧
      ∀ f, f ≠ .parseTime → cfg.flags f = decide (f = .allowNativePasswords ∨ f = .checkConnLiveness) := by
  obtain ⟨h1, h2, h3, h4, h5, h6, h7, h8, h9, h10⟩ := C85_endpoints.1 _ _ _ h
  have hnet : mc.net = ascii "tcp" := by
    unfold prepareMysql at h
    simp only at h
    split at h
    · simp at h
    · simp at h; subst h; rfl
  have hpar := C71_order.2.2.2.2.2.2 _ _ _ h
  have hw : Writable env (Cfg.of mc) order := by
    constructor
    · show 58 ∉ mc.user; rw [h1]; exact hconf.user
    · show mc.user = [] → mc.passwd = []; rw [h1, h2]; exact hconf.passwd
    · show mc.net ≠ [] ∧ 64 ∉ mc.net ∧ 40 ∉ mc.net; rw [hnet]; decide +kernel
    · show mc.addr ≠ [] ∧ 64 ∉ mc.addr ∧ (mc.net = ascii "tcp" → ensureHavePort mc.addr = mc.addr)
      rw [h3]
      refine ⟨by simp, ?_, fun _ => ensure_host hconf.host _⟩
      have := hconf.host.1
      simp only [List.mem_append, List.mem_cons, not_or]
      exact ⟨this, by decide, fun hm => (itoa_chars _ _ hm).2.2.1 rfl⟩
    · show 47 ∉ mc.dbName ∧ 63 ∉ mc.dbName; rw [h4]; exact hconf.database
    · intro kv hkv
      have hm := (ho.2 kv.1 kv.2).2 hkv
      rw [hpar] at hm
      obtain ⟨g1, g2⟩ := params_names _ _ _ hm
      obtain ⟨g3, g4⟩ := hconf.params _ _ hm
      exact ⟨g3, g1, g2, g4⟩
    · show ascii "utf8mb4_general_ci" ≠ [] ∧ 38 ∉ ascii "utf8mb4_general_ci" ∧ 47 ∉ ascii "utf8mb4_general_ci"; decide +kernel
    · show env.loadLocation (env.locName mc.loc) = some mc.loc
      by_cases hl : conf.loc = []
      · rw [h9 hl]; exact henv.1
      · exact henv.2 _ _ (h10 hl)
    · show 0 ≤ mc.timeout ∧ mc.timeout < 2 ^ 63; rw [h5]; exact hconf.timeout
    · show 0 ≤ mc.readTimeout ∧ mc.readTimeout < 2 ^ 63; rw [h6]; exact hconf.readTimeout
    · show 0 ≤ mc.writeTimeout ∧ mc.writeTimeout < 2 ^ 63; rw [h7]; exact hconf.writeTimeout
    · show -2 ^ 63 ≤ (4194304 : Int) ∧ (4194304 : Int) < 2 ^ 63; norm_num
    · exact .inl rfl
    · exact .inl rfl
  refine ⟨_, C97_roundtrip env _ order hw ho, ⟨h1, h2, hnet, h3, h4, h5, h6, h7, ?_, ?_, hpar⟩, rfl, rfl, rfl, rfl, ?_⟩
  · show (if Flag.parseTime = .parseTime then mc.parseTime else Flag.default .parseTime) = _
    rw [if_pos rfl, h8]
  · split
    · exact h9 (by assumption)
    · exact h10 (by assumption)
  · intro f hf
    show (if f = .parseTime then mc.parseTime else f.default) = _
    rw [if_neg hf]
    cases f <;> first | rfl | exact absurd rfl hf

/-! ## What does not reach the driver -/

theorem cut_no (sep : UInt8) (s : Bytes) : sep ∉ (cut sep s).1 := by
  cases h : (cut sep s).2 with
  | some v => exact (cut_some h).2
  | none => rw [(cut_none h).1]; exact (cut_none h).2

theorem parseNet_user {c c' : Cfg} {na : Bytes} (h : parseNet c na = some c') : c'.user = c.user := by
  unfold parseNet at h
  split at h
  · simp at h; subst h; rfl
  · split at h
    · simp at h; subst h; rfl
    · simp at h

theorem parseLeft_user {c c' : Cfg} {left : Bytes} (hc : 58 ∉ c.user) (h : parseLeft c left = some c') : 58 ∉ c'.user := by
  unfold parseLeft at h
  split at h
  · simp at h; subst h; exact hc
  · split at h
    · rw [parseNet_user h]; exact cut_no _ _
    · rw [parseNet_user h]; exact hc

/-- The user stays. -/
def Keeps (c : Cfg) (r : Option Cfg) : Prop := ∀ c', r = some c' → c'.user = c.user

theorem keeps_ite {c : Cfg} {p : Prop} [Decidable p] {a b : Option Cfg} (ha : Keeps c a) (hb : Keeps c b) : Keeps c (if p then a else b) := by
  split <;> assumption

theorem keeps_map {α : Type} {c : Cfg} {f : α → Cfg} (h : ∀ x, (f x).user = c.user) (o : Option α) : Keeps c (o.map f) := by
  intro c' hc
  rw [Option.map_eq_some_iff] at hc
  obtain ⟨x, -, rfl⟩ := hc
  exact h x

theorem keeps_none {c : Cfg} : Keeps c none := by intro c' h; simp at h

theorem keeps_some {c d : Cfg} (h : d.user = c.user) : Keeps c (some d) := by
  intro c' hc; simp at hc; subst hc; exact h

theorem applyParam_keeps (env : Env) (c : Cfg) (kv : Bytes × Bytes) : Keeps c (applyParam env c kv) := by
  unfold applyParam
  split
  · exact keeps_map (by intro _; rfl) _
  · refine keeps_ite (keeps_some rfl) <| keeps_ite keeps_none <| keeps_ite (keeps_map (by intro _; rfl) _) <| keeps_ite (keeps_map (by intro _; rfl) _) <|
      keeps_ite (keeps_map (by intro _; rfl) _) <| keeps_ite keeps_none <| keeps_ite (keeps_map (by intro _; rfl) _) <| keeps_ite ?_ <|
      keeps_ite (keeps_map (by intro _; rfl) _) <| keeps_ite (keeps_map (by intro _; rfl) _) (keeps_map (by intro _; rfl) _)
    split
    · exact keeps_some rfl
    · exact keeps_map (by intro _; rfl) _

theorem foldlM_user {env : Env} : ∀ (l : List (Bytes × Bytes)) {c c' : Cfg}, l.foldlM (applyParam env) c = some c' → c'.user = c.user
  | [], c, c', h => by simp at h; rw [h]
  | kv :: l, c, c', h => by
    rw [List.foldlM_cons] at h
    cases ha : applyParam env c kv with
    | none => rw [ha] at h; simp at h
    | some d =>
      rw [ha] at h
      rw [foldlM_user l h, applyParam_keeps env c kv d ha]

theorem normalize_fields {env : Env} {c c' : Cfg} (h : normalize env c = some c') : c'.user = c.user ∧ c'.dbName = c.dbName := by
  unfold normalize at h
  simp only at h
  rw [Option.bind_eq_some_iff] at h
  obtain ⟨d, h1, h2⟩ := h
  have hd : d.user = c.user ∧ d.dbName = c.dbName := by
    repeat' split at h1
    all_goals first
      | (simp at h1; subst h1; exact ⟨rfl, rfl⟩)
      | simp at h1
  repeat' split at h2
  all_goals first
    | (simp at h2; done)
    | (simp at h2; subst h2; exact hd)

theorem parseRight_fields {env : Env} {c c' : Cfg} {right : Bytes} (h : parseRight env c right = some c') :
    c'.user = c.user ∧ c'.dbName = (cut 63 right).1 := by
  unfold parseRight at h
  simp only [Option.map_eq_some_iff] at h
  obtain ⟨d, h1, rfl⟩ := h
  refine ⟨?_, rfl⟩
  split at h1
  · simp at h1; rw [h1]
  · show d.user = c.user
    exact foldlM_user _ h1

theorem cutLast_none {sep : UInt8} : ∀ {s : Bytes}, cutLast sep s = none → sep ∉ s
  | [], _ => by simp
  | c :: l, h => by
    unfold cutLast at h
    split at h
    · simp at h
    · rename_i heq
      split at h
      · simp at h
      · rename_i hc
        rw [List.mem_cons, not_or]
        exact ⟨Ne.symm hc, cutLast_none heq⟩

theorem cutLast_free {sep : UInt8} : ∀ {s a b : Bytes}, cutLast sep s = some (a, b) → sep ∉ b
  | [], a, b, h => by simp [cutLast] at h
  | c :: l, a, b, h => by
    unfold cutLast at h
    split at h
    · rename_i heq
      simp at h
      obtain ⟨rfl, rfl⟩ := h
      exact cutLast_free heq
    · rename_i heq
      split at h
      · simp at h
        obtain ⟨-, rfl⟩ := h
        exact cutLast_none heq
      · simp at h

/-- Whatever the DSN, the user never contains a colon, and the database neither slash nor question mark. -/
theorem parse_limits {env : Env} {dsn : Bytes} {cfg : Cfg} (h : parse env dsn = some cfg) : 58 ∉ cfg.user ∧ 47 ∉ cfg.dbName ∧ 63 ∉ cfg.dbName := by
  unfold parse at h
  split at h
  · split at h
    · obtain ⟨h1, h2⟩ := normalize_fields h
      rw [h1, h2]; decide
    · simp at h
  · rename_i left right hc
    simp only [Option.bind_eq_some_iff] at h
    obtain ⟨c2, ⟨c1, h1, h2⟩, h3⟩ := h
    obtain ⟨g1, g2⟩ := normalize_fields h3
    obtain ⟨g3, g4⟩ := parseRight_fields h2
    rw [g1, g2, g3, g4]
    refine ⟨parseLeft_user (by decide) h1, fun hm => cutLast_free hc ?_, cut_no _ _⟩
    cases hv : (cut 63 right).2 with
    | some v => rw [(cut_some hv).1]; simp [hm]
    | none => rw [← (cut_none hv).1]; exact hm

/-- **C97** (violated, for all of these): a user with a colon and a database with slash or question mark never arrive. -/
theorem C97_characters_violated (env : Env) (conf : MysqlConf) (mc : MysqlConfig) (order : List (Bytes × Bytes)) (cfg : Cfg)
    (hbad : 58 ∈ conf.username ∨ 47 ∈ conf.database ∨ 63 ∈ conf.database)
    (h : parse env (format env (Cfg.of mc) order) = some cfg) : ¬ Carried env conf cfg := by
  intro hc
  obtain ⟨h1, h2, h3⟩ := parse_limits h
  rw [hc.user] at h1
  rw [hc.dbName] at h2 h3
  rcases hbad with hb | hb | hb
  · exact h1 hb
  · exact h2 hb
  · exact h3 hb

/-- **C97** (violated, for all of these): a password without user and negative timeouts are not even written. -/
theorem C97_dropped_violated (env : Env) (cfg : Cfg) (order : List (Bytes × Bytes)) :
    (cfg.user = [] → ∀ p, format env { cfg with passwd := p } order = format env cfg order) ∧
    (∀ t t' : Int, t ≤ 0 → t' ≤ 0 → format env { cfg with timeout := t } order = format env { cfg with timeout := t' } order ∧
      format env { cfg with readTimeout := t } order = format env { cfg with readTimeout := t' } order ∧
      format env { cfg with writeTimeout := t } order = format env { cfg with writeTimeout := t' } order) := by
  refine ⟨fun h p => ?_, fun t t' h h' => ⟨?_, ?_, ?_⟩⟩
  · unfold format userText
    rw [if_neg (by simpa using h), if_neg (by simpa using h)]
    rfl
  all_goals
    unfold format items
    simp only [show decide (0 < t) = false by simpa using h, show decide (0 < t') = false by simpa using h']
    rfl

/-- **C97** (violated): for example the user "a:b". -/
theorem C97_violated (env : Env) : ¬ C97Claim env := by
  intro h
  obtain ⟨cfg, h1, h2⟩ := h ⟨ascii "h", 3306, ascii "a:b", ascii "p", ascii "d", 0, 0, 0, 0, 0, 0, [], false, []⟩ _ [] rfl
    ⟨by simp, by simp [Confs.applyParams, Map.empty]⟩
  exact C97_characters_violated env _ _ _ _ (.inl (by decide)) h1 h2

/-! ## Examples -/

def exEnv : Env :=
  { loadLocation := fun n => if n = ascii "UTC" then some 0 else if n = ascii "Asia/Shanghai" then some 1 else none
    locName := fun l => if l = 0 then ascii "UTC" else ascii "Asia/Shanghai"
    tlsKnown := fun _ => false, keyKnown := fun _ => false }

def exConf : MysqlConf :=
  ⟨ascii "db.local", 3306, ascii "app", ascii "p@ss:w/rd?&=", ascii "shop", 10, 5, 0, 1500000000, 0, 5000000000, ascii "Asia/Shanghai", true,
   ascii "sql_mode=%27ANSI%27&tx_isolation=x"⟩

def exOrder : List (Bytes × Bytes) := [(ascii "sql_mode", ascii "'ANSI'"), (ascii "tx_isolation", ascii "x")]

example : Locations exEnv := by
  refine ⟨by decide +kernel, fun n l h => ?_⟩
  simp only [exEnv] at h
  split at h
  · simp at h; subst h; decide +kernel
  · split at h
    · simp at h; subst h; decide +kernel
    · simp at h

example : ((prepareMysql exEnv.loadLocation exConf none).map fun mc => format exEnv (Cfg.of mc) exOrder) = some (ascii
    "app:p@ss:w/rd?&=@tcp(db.local:3306)/shop?loc=Asia%2FShanghai&parseTime=true&readTimeout=1.5s&timeout=5s&sql_mode=%27ANSI%27&tx_isolation=x") := by
  decide +kernel

/-- An IPv6 address without brackets ends up in another one. -/
example : ((parse exEnv (ascii "u:p@tcp(::1:3306)/d")).map fun c => c.addr) = some (ascii "[::1:3306]:3306") ∧
    ((parse exEnv (ascii "u:p@tcp([::1]:3306)/d")).map fun c => c.addr) = some (ascii "[::1]:3306") := by decide +kernel

/-- Params with a name known to the driver change its settings; two names make it fail. -/
example : ((parse exEnv (ascii "u:p@tcp(h:1)/d?timeout=5s&timeout=10s")).map fun c => c.timeout) = some 10000000000 ∧
    ((parse exEnv (ascii "u:p@tcp(h:1)/d?compress=true")).map fun c => c.timeout) = none := by decide +kernel

end Gears.Confs.Mysql
