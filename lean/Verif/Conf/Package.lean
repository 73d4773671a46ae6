import Verif.Conf.FullProps
import Verif.Conf.YamlProps

/-
C134: the configurations of this module (/repo/confs, /repo/skywalking/conf.go), loaded by /repo/conf.

`fields` is the struct in the code, `rows` the names under which its fields are found, `table` the table in the comment of the struct (environment variable and flag, in
the order of the comment; structs without a table have `[]`).
-/

namespace Gears.Conf

/-- Environment variable and flag of a field. -/
structure Row where
  env  : String
  flag : String
  kind : Kind
deriving Repr, DecidableEq

structure ConfStruct where
  fields : List (String × Kind)
  rows   : List Row
  table  : List (String × String) := []

/-- confs/mysql.go:65-84; table 33-60. -/
def mysqlConf : ConfStruct where
  fields := [("Host", .string), ("Port", .int), ("Username", .string), ("Password", .string), ("Database", .string), ("MaxOpenConns", .int), ("MaxIdleConns", .int),
    ("ConnMaxLifetime", .duration), ("ReadTimeout", .duration), ("WriteTimeout", .duration), ("Timeout", .duration), ("Loc", .string), ("ParseTime", .bool),
    ("Params", .string)]
  rows := [⟨"HOST", "host", .string⟩, ⟨"PORT", "port", .int⟩, ⟨"USERNAME", "username", .string⟩, ⟨"PASSWORD", "password", .string⟩, ⟨"DATABASE", "database", .string⟩,
    ⟨"MAX_OPEN_CONNS", "max-open-conns", .int⟩, ⟨"MAX_IDLE_CONNS", "max-idle-conns", .int⟩, ⟨"CONN_MAX_LIFETIME", "conn-max-lifetime", .duration⟩,
    ⟨"READ_TIMEOUT", "read-timeout", .duration⟩, ⟨"WRITE_TIMEOUT", "write-timeout", .duration⟩, ⟨"TIMEOUT", "timeout", .duration⟩, ⟨"LOC", "loc", .string⟩,
    ⟨"PARSE_TIME", "parse-time", .bool⟩, ⟨"PARAMS", "params", .string⟩]
  table := [("HOST", "host"), ("PORT", "port"), ("USERNAME", "username"), ("PASSWORD", "password"), ("DATABASE", "database"), ("MAX_OPEN_CONNS", "max-open-conns"),
    ("MAX_IDLE_CONNS", "max-idle-conns"), ("CONN_MAX_LIFETIME", "conn-max-lifetime"), ("LOC", "loc"), ("PARSE_TIME", "parse-time"),
    ("READ_TIMEOUT", "read-timeout"), ("WRITE_TIMEOUT", "write-timeout"), ("TIMEOUT", "timeout"), ("PARAMS", "")]

/-- confs/oracle.go:45-59; table 16-39. -/
def oracleConf : ConfStruct where
  fields := [("Host", .string), ("Port", .int), ("Username", .string), ("Password", .string), ("Service", .string), ("Sid", .string), ("Servers", .string),
    ("ConnectTimeout", .int), ("Params", .string), ("MaxOpenConns", .int), ("MaxIdleConns", .int), ("ConnMaxLifetime", .duration)]
  rows := [⟨"HOST", "host", .string⟩, ⟨"PORT", "port", .int⟩, ⟨"USERNAME", "username", .string⟩, ⟨"PASSWORD", "password", .string⟩, ⟨"SERVICE", "service", .string⟩,
    ⟨"SID", "sid", .string⟩, ⟨"SERVERS", "servers", .string⟩, ⟨"CONNECT_TIMEOUT", "connect-timeout", .int⟩, ⟨"PARAMS", "params", .string⟩,
    ⟨"MAX_OPEN_CONNS", "max-open-conns", .int⟩, ⟨"MAX_IDLE_CONNS", "max-idle-conns", .int⟩, ⟨"CONN_MAX_LIFETIME", "conn-max-lifetime", .duration⟩]
  table := [("HOST", "host"), ("PORT", "port"), ("USERNAME", "username"), ("PASSWORD", "password"), ("SERVICE", "service"), ("SID", "sid"), ("SERVERS", "servers"),
    ("CONNECT_TIMEOUT", "connect-timeout"), ("PARAMS", ""), ("MAX_OPEN_CONNS", "max-open-conns"), ("MAX_IDLE_CONNS", "max-idle-conns"),
    ("CONN_MAX_LIFETIME", "conn-max-lifetime")]

/-- confs/postgresql.go:45-57; table 16-38. -/
def postgresqlConf : ConfStruct where
  fields := [("Host", .string), ("Port", .int), ("Username", .string), ("Password", .string), ("Database", .string), ("ConnectTimeout", .int), ("Params", .string),
    ("MaxOpenConns", .int), ("MaxIdleConns", .int), ("ConnMaxLifetime", .duration)]
  rows := [⟨"HOST", "host", .string⟩, ⟨"PORT", "port", .int⟩, ⟨"USERNAME", "username", .string⟩, ⟨"PASSWORD", "password", .string⟩, ⟨"DATABASE", "database", .string⟩,
    ⟨"CONNECT_TIMEOUT", "connect-timeout", .int⟩, ⟨"PARAMS", "params", .string⟩, ⟨"MAX_OPEN_CONNS", "max-open-conns", .int⟩,
    ⟨"MAX_IDLE_CONNS", "max-idle-conns", .int⟩, ⟨"CONN_MAX_LIFETIME", "conn-max-lifetime", .duration⟩]
  table := [("HOST", "host"), ("PORT", "port"), ("USERNAME", "username"), ("PASSWORD", "password"), ("CONNECT_TIMEOUT", "connect-timeout"), ("PARAMS", ""),
    ("MAX_OPEN_CONNS", "max-open-conns"), ("MAX_IDLE_CONNS", "max-idle-conns"), ("CONN_MAX_LIFETIME", "conn-max-lifetime")]

/-- confs/redis.go:37-44; table 27-35. -/
def redisConf : ConfStruct where
  fields := [("Host", .string), ("Port", .int), ("Password", .string), ("Pool", .int), ("MinIdle", .int), ("Db", .int)]
  rows := [⟨"HOST", "host", .string⟩, ⟨"PORT", "port", .int⟩, ⟨"PASSWORD", "password", .string⟩, ⟨"POOL", "pool", .int⟩, ⟨"MIN_IDLE", "min-idle", .int⟩, ⟨"DB", "db", .int⟩]
  table := [("HOST", "host"), ("PORT", "port"), ("PASSWORD", "password"), ("POOL", "pool"), ("MIN_IDLE", "min-idle"), ("DB", "db")]

/-- confs/fasthttpclient.go:57-69; table 31-55. -/
def fastHttpClientConf : ConfStruct where
  fields := [("CertChain", .string), ("PrivateKey", .string), ("SslTrustMode", .string), ("SslTrustCerts", .string), ("ReadTimeout", .duration), ("WriteTimeout", .duration),
    ("MaxConnDuration", .duration), ("MaxConnsPerHost", .int), ("MaxIdleConnDuration", .duration), ("MaxConnWaitTimeout", .duration)]
  rows := [⟨"CERT_CHAIN", "cert-chain", .string⟩, ⟨"PRIVATE_KEY", "private-key", .string⟩, ⟨"SSL_TRUST_MODE", "ssl-trust-mode", .string⟩,
    ⟨"SSL_TRUST_CERTS", "ssl-trust-certs", .string⟩, ⟨"READ_TIMEOUT", "read-timeout", .duration⟩, ⟨"WRITE_TIMEOUT", "write-timeout", .duration⟩,
    ⟨"MAX_CONN_DURATION", "max-conn-duration", .duration⟩, ⟨"MAX_CONNS_PER_HOST", "max-conns-per-host", .int⟩,
    ⟨"MAX_IDLE_CONN_DURATION", "max-idle-conn-duration", .duration⟩, ⟨"MAX_CONN_WAIT_TIMEOUT", "max-conn-wait-timeout", .duration⟩]
  table := [("CERT_CHAIN", "cert-chain"), ("PRIVATE_KEY", "private-key"), ("SSL_TRUST_MODE", "ssl-trust-mode"), ("SSL_TRUST_CERTS", "ssl-trust-certs"),
    ("READ_TIMEOUT", "read-timeout"), ("WRITE_TIMEOUT", "write-timeout"), ("MAX_CONN_DURATION", "max-conn-duration"), ("MAX_CONNS_PER_HOST", "max-conns-per-host"),
    ("MAX_IDLE_CONN_DURATION", "max-idle-conn-duration"), ("MAX_CONN_WAIT_TIMEOUT", "max-conn-wait-timeout")]

/-- confs/es.go:13-19. -/
def esConf : ConfStruct where
  fields := [("Addrs", .string), ("Username", .string), ("Password", .string), ("MaxConnsPerHost", .int), ("MaxIdleConnsPerHost", .int)]
  rows := [⟨"ADDRS", "addrs", .string⟩, ⟨"USERNAME", "username", .string⟩, ⟨"PASSWORD", "password", .string⟩, ⟨"MAX_CONNS_PER_HOST", "max-conns-per-host", .int⟩,
    ⟨"MAX_IDLE_CONNS_PER_HOST", "max-idle-conns-per-host", .int⟩]

/-- confs/pprof.go:32-37. -/
def pprofConf : ConfStruct where
  fields := [("Username", .string), ("Password", .string), ("BlockProfileRate", .int), ("MutexProfileFraction", .int)]
  rows := [⟨"USERNAME", "username", .string⟩, ⟨"PASSWORD", "password", .string⟩, ⟨"BLOCK_PROFILE_RATE", "block-profile-rate", .int⟩,
    ⟨"MUTEX_PROFILE_FRACTION", "mutex-profile-fraction", .int⟩]

/-- skywalking/conf.go:5-10. -/
def skywalkingConf : ConfStruct where
  fields := [("ServerAddr", .string), ("ServiceName", .string), ("ServiceInstance", .string), ("ServiceNamespace", .string)]
  rows := [⟨"SERVER_ADDR", "server-addr", .string⟩, ⟨"SERVICE_NAME", "service-name", .string⟩, ⟨"SERVICE_INSTANCE", "service-instance", .string⟩,
    ⟨"SERVICE_NAMESPACE", "service-namespace", .string⟩]

def package : List ConfStruct := [mysqlConf, oracleConf, postgresqlConf, redisConf, fastHttpClientConf, esConf, pprofConf, skywalkingConf]

def fieldInfo (n : String) : FieldInfo := ⟨ascii n, true, false, {}⟩

/-- A value of such a struct; its `i`-th field holds `x i`. -/
def confFields (x : Nat → Int) : Nat → List (String × Kind) → Fields
  | _, [] => .nil
  | i, (n, k) :: l => .cons (fieldInfo n) (.basic k false (x i)) (confFields x (i + 1) l)

/-- A name below a prefix ("add corresponding prefix"). -/
def under (sep : UInt8) (pfx : Bytes) (n : String) : Bytes := if pfx = [] then ascii n else pfx ++ sep :: ascii n

/-! ## Lemmas -/

theorem loop_dot (sep : UInt8) (tr : UInt8 → UInt8) : ∀ (p : Bytes) (pd : Bool) (q : Bytes), loop sep tr pd (p ++ dot :: q) = loop sep tr pd p ++ sep :: loop sep tr true q
  | [], pd, q => by simp [loop, show isUpperASCII dot = false by decide]
  | b :: p, pd, q => by
    simp only [List.cons_append, loop, loop_dot sep tr p]
    split
    · simp
    · split <;> simp

theorem flagStyle_dot (p q : Bytes) : flagStyle (p ++ [dot] ++ q) = flagStyle p ++ dash :: flagStyle q := by
  rw [flagStyle_loop, flagStyle_loop, flagStyle_loop, List.append_assoc, List.singleton_append, loop_dot]

theorem envStyle_dot (p q : Bytes) : envStyle (p ++ [dot] ++ q) = envStyle p ++ underscore :: envStyle q := by
  rw [envStyle_loop, envStyle_loop, envStyle_loop, List.append_assoc, List.singleton_append, loop_dot]

theorem loop_nil {sep : UInt8} {tr : UInt8 → UInt8} {pd : Bool} {p : Bytes} : loop sep tr pd p = [] ↔ p = [] := by
  cases p with
  | nil => simp [loop]
  | cons b p => simp only [loop]; (repeat' split) <;> simp

theorem flagStyle_nil {p : Bytes} : flagStyle p = [] ↔ p = [] := by rw [flagStyle_loop, loop_nil]
theorem envStyle_nil {p : Bytes} : envStyle p = [] ↔ p = [] := by rw [envStyle_loop, loop_nil]

theorem rows_eq (c : ConfStruct) (hc : c ∈ package) :
    c.rows.map (fun r => (ascii r.env, ascii r.flag, r.kind)) = c.fields.map (fun f => (envStyle (ascii f.1), flagStyle (ascii f.1), f.2)) := by
  simp only [package, List.mem_cons, List.not_mem_nil, or_false] at hc
  rcases hc with rfl | rfl | rfl | rfl | rfl | rfl | rfl | rfl <;> decide

theorem visit_conf (path : Bytes) (loc : List Step) (x : Nat → Int) : ∀ (l : List (String × Kind)) (i : Nat),
    (visitFields path loc i (confFields x i l)).map bindingOf =
      l.map fun f => ⟨flagStyle (pathExt path (fieldInfo f.1)), envStyle (pathExt path (fieldInfo f.1)), f.2, false⟩
  | [], i => by simp [confFields, visitFields]
  | (n, k) :: l, i => by
    simp only [confFields, visitFields, List.map_append, visit_conf path loc x l (i + 1)]
    simp [fieldInfo, visit, bindingOf]

theorem pathExt_names (path : Bytes) (n : String) :
    flagStyle (pathExt path (fieldInfo n)) = (if flagStyle path = [] then flagStyle (ascii n) else flagStyle path ++ dash :: flagStyle (ascii n)) ∧
      envStyle (pathExt path (fieldInfo n)) = (if envStyle path = [] then envStyle (ascii n) else envStyle path ++ underscore :: envStyle (ascii n)) := by
  simp only [pathExt, fieldInfo, Bool.false_eq_true, if_false, flagStyle_nil, envStyle_nil]
  split
  · exact ⟨rfl, rfl⟩
  · exact ⟨flagStyle_dot _ _, envStyle_dot _ _⟩

/-! ## C134 -/

/-- C134: wherever a configuration of this module is in the struct that is loaded, its fields are bound to the documented environment variables and flags with the prefix
of the place, and to nothing else. -/
theorem C134_names (c : ConfStruct) (hc : c ∈ package) (path : Bytes) (loc : List Step) (x : Nat → Int) :
    (visit true path loc (.struct (confFields x 0 c.fields))).map bindingOf =
      c.rows.map fun r => ⟨under dash (flagStyle path) r.flag, under underscore (envStyle path) r.env, r.kind, false⟩ := by
  rw [visit, visit_conf]
  have h := rows_eq c hc
  have e1 : c.rows.map (fun r => (⟨under dash (flagStyle path) r.flag, under underscore (envStyle path) r.env, r.kind, false⟩ : Binding)) =
      (c.rows.map fun r => (ascii r.env, ascii r.flag, r.kind)).map fun t =>
        ⟨if flagStyle path = [] then t.2.1 else flagStyle path ++ dash :: t.2.1, if envStyle path = [] then t.1 else envStyle path ++ underscore :: t.1, t.2.2, false⟩ := by
    rw [List.map_map]; rfl
  rw [e1, h, List.map_map]
  apply List.map_congr_left
  intro f _
  obtain ⟨a, b⟩ := pathExt_names path f.1
  simp only [Function.comp, a, b]

/-- C134: the tables are right: the field with the environment variable of a row has the flag of the row, if the row names one. -/
theorem C134_tables (c : ConfStruct) (hc : c ∈ package) (e f : String) (h : (e, f) ∈ c.table) : ∃ r ∈ c.rows, r.env = e ∧ (f = r.flag ∨ f = "") := by
  have h' : ∀ c ∈ package, ∀ t ∈ c.table, ∃ r ∈ c.rows, r.env = t.1 ∧ (t.2 = r.flag ∨ t.2 = "") := by decide
  exact h' c hc (e, f) h

/-- The names which the tables do not tell: the flag of `PARAMS`, and `DATABASE` of the PostgreSQL configuration. -/
theorem C134_undocumented : package.map (fun c => c.rows.filter fun r => c.table ≠ [] ∧ (r.env, r.flag) ∉ c.table) =
    [[⟨"PARAMS", "params", .string⟩], [⟨"PARAMS", "params", .string⟩], [⟨"DATABASE", "database", .string⟩, ⟨"PARAMS", "params", .string⟩], [], [], [], [], []] := by
  decide

theorem visible_snoc : ∀ (p : List Step) (md : Bool) (v : Val) (is : List FieldInfo) (fs : Fields) (j : Nat) (f : FieldInfo) (w : Val), visible md v p = some is →
    v.get p = some (.struct fs) → fs.get? j = some (f, w) → f.exported = true → visible md v (p ++ [.field j]) = some (is ++ [f])
  | [], md, v, is, fs, j, f, w, h1, h2, h3, h4 => by
    rw [visible_nil] at h1; rw [get_nil] at h2
    simp only [Option.some.injEq] at h1 h2
    subst h1 h2
    simp [visible_cons_struct, h3, h4, visible_nil]
  | .field i :: p, md, .struct fs0, is, fs, j, f, w, h1, h2, h3, h4 => by
    rw [List.cons_append]
    rw [visible_cons_struct] at h1 ⊢
    rw [get_cons_struct] at h2
    rcases hg : fs0.get? i with _ | ⟨f0, w0⟩
    · rw [hg] at h2; simp at h2
    · rw [hg] at h1 h2
      simp only at h1 h2 ⊢
      by_cases he : f0.exported = true
      · rw [if_pos he] at h1 ⊢
        rcases hv : visible true w0 p with _ | is'
        · rw [hv] at h1; simp at h1
        · rw [hv] at h1
          simp only [Option.map_some, Option.some.injEq] at h1
          subst h1
          rw [visible_snoc p true w0 is' fs j f w hv h2 h3 h4]
          simp
      · rw [if_neg he] at h1; simp at h1
  | .deref :: p, true, .ptr v, is, fs, j, f, w, h1, h2, h3, h4 => by
    simp only [visible, List.cons_append, Val.get] at h1 h2 ⊢
    exact visible_snoc p false v is fs j f w h1 h2 h3 h4
  | .field _ :: p, md, .ptr v, is, fs, j, f, w, h1, _, _, _ => by cases md <;> simp [visible] at h1
  | .field _ :: p, md, .nil n, is, fs, j, f, w, h1, _, _, _ => by cases md <;> simp [visible] at h1
  | .field _ :: p, md, .basic .., is, fs, j, f, w, h1, _, _, _ => by cases md <;> simp [visible] at h1
  | .field _ :: p, md, .other .., is, fs, j, f, w, h1, _, _, _ => by cases md <;> simp [visible] at h1
  | .deref :: p, false, .ptr v, is, fs, j, f, w, h1, _, _, _ => by simp [visible] at h1
  | .deref :: p, md, .struct _, is, fs, j, f, w, h1, _, _, _ => by cases md <;> simp [visible] at h1
  | .deref :: p, md, .nil n, is, fs, j, f, w, h1, _, _, _ => by cases md <;> simp [visible] at h1
  | .deref :: p, md, .basic .., is, fs, j, f, w, h1, _, _, _ => by cases md <;> simp [visible] at h1
  | .deref :: p, md, .other .., is, fs, j, f, w, h1, _, _, _ => by cases md <;> simp [visible] at h1

theorem get_conf (x : Nat → Int) : ∀ (l : List (String × Kind)) (i j : Nat) (n : String) (k : Kind), l[j]? = some (n, k) →
    (confFields x i l).get? j = some (fieldInfo n, .basic k false (x (i + j)))
  | [], _, _, _, _, h => by simp at h
  | (n0, k0) :: l, i, 0, n, k, h => by simp at h; simp [confFields, Fields.get?, h]
  | (n0, k0) :: l, i, j + 1, n, k, h => by
    simp only [List.getElem?_cons_succ] at h
    simp only [confFields, Fields.get?]
    rw [get_conf x l (i + 1) j n k h, show i + 1 + j = i + (j + 1) by omega]

theorem intercalate_snoc (sep a : Bytes) : ∀ l : List Bytes, List.intercalate sep (l ++ [a]) = if l = [] then a else List.intercalate sep l ++ sep ++ a
  | [] => by simp [List.intercalate]
  | [b] => by simp [List.intercalate]
  | b :: c :: l => by
    have ih := intercalate_snoc sep a (c :: l)
    simp only [List.intercalate, List.cons_append] at ih ⊢
    rw [List.intersperse_cons_cons, List.intersperse_cons_cons]
    simp [ih]

theorem pathOf_nil {names : List Bytes} (h : ∀ n ∈ names, n ≠ []) : pathOf names = [] ↔ names = [] := by
  match names with
  | [] => simp [pathOf, List.intercalate]
  | [a] => simpa [pathOf, List.intercalate, List.intersperse] using h a (by simp)
  | a :: b :: l => simp [pathOf, List.intercalate]

/-- C134: if `Load` returns, and in the loaded struct a configuration of this module is at the place `loc`, below fields with the names `names`, then each of its fields
that yaml has not replaced holds what the last occurrence of its flag on the command line says; without one, what its environment variable says. -/
theorem C134_load (env : Nat → Ty) (fuel : Nat) (w : World) (yamlFlag : Bytes) (fs : Fields) (v' : Val) (m : Mem)
    (h : loadConf env fuel w yamlFlag (.struct fs) = some (.done v' m)) (hn : NamesOk v') :
    ∃ isBool l eff, KnowsFlags w yamlFlag v' isBool ∧ ArgList isBool w.args l ∧ YamlOf w yamlFlag l eff ∧
      ∀ c ∈ package, ∀ x loc is, visible false v' loc = some is → v'.get loc = some (.struct (confFields x 0 c.fields)) →
        ∀ names, names = (is.filter (!·.anon)).map (·.name) → ∀ (j : Nat) (r : Row), c.rows[j]? = some r →
        ∃ i : Nat, FieldNo v' i (loc ++ [.field j]) ∧ ((∀ y, eff i ≠ .replace y) →
          (∀ s, given l (under dash (flagOf names) r.flag) = some s → w.pv r.kind s ≠ none ∧ fieldAfter v' m (loc ++ [.field j]) = w.pv r.kind s) ∧
          (given l (under dash (flagOf names) r.flag) = none → ∀ s, w.env (under underscore (envOf names) r.env) = some s →
            w.pv r.kind s ≠ none ∧ fieldAfter v' m (loc ++ [.field j]) = w.pv r.kind s)) := by
  obtain ⟨isBool, l, eff, h1, h2, h3, h4⟩ := C89_load_partial env fuel w yamlFlag fs v' m h hn
  refine ⟨isBool, l, eff, h1, h2, h3, ?_⟩
  intro c hc x loc is hv hg names hnames j r hr
  have hrows := congrArg (·[j]?) (rows_eq c hc)
  simp only [List.getElem?_map, hr, Option.map_some] at hrows
  rcases hf : c.fields[j]? with _ | ⟨n, k⟩
  · rw [hf] at hrows; simp at hrows
  rw [hf] at hrows
  simp only [Option.map_some, Option.some.injEq, Prod.mk.injEq] at hrows
  obtain ⟨e1, e2, e3⟩ := hrows
  have hgc := get_conf x c.fields 0 j n k hf
  have hvis := visible_snoc loc false v' is _ j _ _ hv hg hgc rfl
  have hget : v'.get (loc ++ [.field j]) = some (.basic k false (x (0 + j))) := by
    rw [Yaml.get_append, hg]
    simp [get_cons_struct, hgc, get_nil]
  have hnm : names ++ [ascii n] = ((is ++ [fieldInfo n]).filter (!·.anon)).map (·.name) := by
    rw [hnames]; simp [fieldInfo]
  have hne : ∀ a ∈ names, a ≠ [] := by
    intro a ha
    rw [hnames] at ha
    obtain ⟨f, hf', rfl⟩ := List.mem_map.1 ha
    exact hn loc is hv f (List.mem_filter.1 hf').1
  obtain ⟨i, hi, -, hi'⟩ := h4 (loc ++ [.field j]) (names ++ [ascii n]) k false _ ⟨_, hvis, hnm, hget⟩
  have hfl : flagOf (names ++ [ascii n]) = under dash (flagOf names) r.flag := by
    have hp := (pathExt_names (pathOf names) n).1
    rw [flagOf_eq, flagOf_eq, under, e2, ← hp]
    simp only [pathOf, intercalate_snoc, pathExt, fieldInfo, Bool.false_eq_true, if_false]
    have := pathOf_nil hne
    simp only [pathOf] at this
    simp only [this]
  have hen : envOf (names ++ [ascii n]) = under underscore (envOf names) r.env := by
    have hp := (pathExt_names (pathOf names) n).2
    rw [envOf_eq, envOf_eq, under, e1, ← hp]
    simp only [pathOf, intercalate_snoc, pathExt, fieldInfo, Bool.false_eq_true, if_false]
    have := pathOf_nil hne
    simp only [pathOf] at this
    simp only [this]
  rw [hfl, hen, ← e3] at hi'
  exact ⟨i, hi, fun hy => ⟨(hi' hy).1, (hi' hy).2.1⟩⟩

/-- C134: a configuration alone, in a program without other flags: `Load` panics exactly if the flag of the yaml file is the flag of one of its fields. -/
theorem C134_alone (c : ConfStruct) (hc : c ∈ package) (w : World) (yamlFlag : Bytes) (init : Nat → Int) (x : Nat → Int) (hp : w.pre = [])
    (hy : ¬ BadName yamlFlag) : load w yamlFlag ((visitExportedFields (.struct (confFields x 0 c.fields))).map bindingOf) init = .panic ↔
      yamlFlag ∈ c.rows.map (ascii ·.flag) := by
  have hv : (visitExportedFields (.struct (confFields x 0 c.fields))).map bindingOf = c.rows.map fun r => ⟨ascii r.flag, ascii r.env, r.kind, false⟩ := by
    have := C134_names c hc [] [] x
    rw [visit] at this
    simpa [visitExportedFields, under, show flagStyle [] = [] from rfl, show envStyle [] = [] from rfl] using this
  rw [C81_panic, hv]
  have hok : ∀ c ∈ package, (c.rows.map (ascii ·.env)).Nodup ∧ (c.rows.map (ascii ·.flag)).Nodup ∧ ∀ r ∈ c.rows, ascii r.flag ≠ [] ∧ oddName (ascii r.flag) = false ∧
      oddName (ascii r.env) = false := by decide
  obtain ⟨o1, o2, o3⟩ := hok c hc
  have e1 : ((c.rows.map fun r => (⟨ascii r.flag, ascii r.env, r.kind, false⟩ : Binding)).map (·.envName)) = c.rows.map (ascii ·.env) := by rw [List.map_map]; rfl
  have e2 : ((c.rows.map fun r => (⟨ascii r.flag, ascii r.env, r.kind, false⟩ : Binding)).map (·.flagName)) = c.rows.map (ascii ·.flag) := by rw [List.map_map]; rfl
  rw [e1, e2]
  constructor
  · rintro (⟨b, hb, hb'⟩ | h | h | h | ⟨b, hb, h | h⟩ | ⟨-, h | ⟨b, hb, h⟩⟩)
    · obtain ⟨r, -, rfl⟩ := List.mem_map.1 hb; simp at hb'
    · exact absurd o1 h
    · exact absurd o2 h
    · rw [hp] at h; simp at h
    · rw [hp] at h; simp at h
    · obtain ⟨r, hr, rfl⟩ := List.mem_map.1 hb
      exact List.mem_map.2 ⟨r, hr, h.2⟩
    · exact absurd h.2 hy
    · obtain ⟨r, hr, rfl⟩ := List.mem_map.1 hb
      simp [← oddName_iff, (o3 r hr).2.1, (o3 r hr).2.2] at h
  · intro h
    obtain ⟨r, hr, rfl⟩ := List.mem_map.1 h
    exact .inr (.inr (.inr (.inr (.inl ⟨_, List.mem_map.2 ⟨r, hr, rfl⟩, .inr ⟨(o3 r hr).1, rfl⟩⟩))))

/-- `Mysql confs.MysqlConf` in the configuration of a program. -/
example : (visitExportedFields (.struct (.cons (fieldInfo "Mysql") (.struct (confFields (fun _ => 0) 0 mysqlConf.fields)) .nil))).map bindingOf =
    mysqlConf.rows.map fun r => ⟨ascii "mysql-" ++ ascii r.flag, ascii "MYSQL_" ++ ascii r.env, r.kind, false⟩ := by decide

/-- `Redis confs.RedisConf`: `-redis-min-idle` goes before `REDIS_MIN_IDLE`, which goes before what was there. -/
def exRedis : Fields := .cons (fieldInfo "Redis") (.struct (confFields (fun _ => 0) 0 redisConf.fields)) .nil

def exMinIdle (args : List Bytes) (env : Bytes → Option Bytes) : Option Int :=
  match loadConf exEnv 5 (exWorld args env) [99] (.struct exRedis) with
  | some (.done v m) => fieldAfter v m [.field 0, .field 4]
  | _ => none

example : exMinIdle [ascii "-redis-min-idle=" ++ [7]] (fun n => if n = ascii "REDIS_MIN_IDLE" then some [6] else none) = some 7 := by decide +kernel

example : exMinIdle [] (fun n => if n = ascii "REDIS_MIN_IDLE" then some [6] else none) = some 6 := by decide +kernel

end Gears.Conf
