import Verif.Common.Bytes

/-
Model of /repo/confs.  Go strings are byte strings; ints and durations are integers; how a duration is printed is a
parameter.  Go maps are functions to `Option`; a range over a map is a list in any order.
-/

namespace Gears.Confs

open Gears.Str

abbrev Map := Bytes → Option Bytes

def Map.empty : Map := fun _ => none

def Map.set (m : Map) (k v : Bytes) : Map := fun x => if x = k then some v else m x

/-! ## The configurations and how they are printed -/

structure MysqlConf where
  host : Bytes
  port : Int
  username : Bytes
  password : Bytes
  database : Bytes
  maxOpenConns : Int
  maxIdleConns : Int
  connMaxLifetime : Int
  readTimeout : Int
  writeTimeout : Int
  timeout : Int
  loc : Bytes
  parseTime : Bool
  params : Bytes

structure PostgresqlConf where
  host : Bytes
  port : Int
  username : Bytes
  password : Bytes
  database : Bytes
  connectTimeout : Int
  params : Bytes
  maxOpenConns : Int
  maxIdleConns : Int
  connMaxLifetime : Int

structure OracleConf where
  host : Bytes
  port : Int
  username : Bytes
  password : Bytes
  service : Bytes
  sid : Bytes
  servers : Bytes
  connectTimeout : Int
  params : Bytes
  maxOpenConns : Int
  maxIdleConns : Int
  connMaxLifetime : Int

structure RedisConf where
  host : Bytes
  port : Int
  password : Bytes
  pool : Int
  minIdle : Int
  db : Int

structure EsConf where
  addrs : Bytes
  username : Bytes
  password : Bytes
  maxConnsPerHost : Int
  maxIdleConnsPerHost : Int

structure PprofConf where
  username : Bytes
  password : Bytes
  blockProfileRate : Int
  mutexProfileFraction : Int

def boolText (b : Bool) : Bytes := if b then ascii "true" else ascii "false"

/-- `MysqlConf.String` (mysql.go:86-90) -/
def MysqlConf.text (dur : Int → Bytes) (m : MysqlConf) : Bytes :=
  ascii "{Host: " ++ m.host ++ ascii ", Port: " ++ itoa m.port ++ ascii ", Username: ***, Password: ***, Database: " ++
  m.database ++ ascii ", MaxOpenConns: " ++ (itoa m.maxIdleConns ++ (ascii ", MaxIdleConns: " ++ (itoa m.maxIdleConns ++
  (ascii ", ConnMaxLifetime: " ++ dur m.connMaxLifetime ++ ascii ", ReadTimeout: " ++ dur m.readTimeout ++
  ascii ", WriteTimeout: " ++ dur m.writeTimeout ++ ascii ", Timeout: " ++ dur m.timeout ++ ascii ", Loc: " ++ m.loc ++
  ascii ", ParseTime: " ++ boolText m.parseTime ++ ascii ", Params: " ++ m.params ++ ascii "}"))))

/-- `PostgresqlConf.String` (postgresql.go:59-63) -/
def PostgresqlConf.text (dur : Int → Bytes) (c : PostgresqlConf) : Bytes :=
  ascii "{Host: " ++ c.host ++ ascii ", Port: " ++ itoa c.port ++ ascii ", Username: ***, Password: ***, Database: " ++
  c.database ++ ascii ", MaxOpenConns: " ++ (itoa c.maxIdleConns ++ (ascii ", MaxIdleConns: " ++ (itoa c.maxIdleConns ++
  (ascii ", ConnMaxLifetime: " ++ dur c.connMaxLifetime ++ ascii ", ConnectTimeout: " ++ itoa c.connectTimeout ++
  ascii ", Params: " ++ c.params ++ ascii "}"))))

/-- `OracleConf.String` (oracle.go:61-65) -/
def OracleConf.text (dur : Int → Bytes) (c : OracleConf) : Bytes :=
  ascii "{Host: " ++ c.host ++ ascii ", Port: " ++ itoa c.port ++ ascii ", Username: ***, Password: ***, Service: " ++
  c.service ++ ascii ", Sid: " ++ c.sid ++ ascii ", Servers: " ++ c.servers ++ ascii ", MaxOpenConns: " ++
  (itoa c.maxIdleConns ++ (ascii ", MaxIdleConns: " ++ (itoa c.maxIdleConns ++
  (ascii ", ConnMaxLifetime: " ++ dur c.connMaxLifetime ++ ascii ", ConnectTimeout: " ++ itoa c.connectTimeout ++
  ascii ", Params: " ++ c.params ++ ascii "}"))))

/-- `RedisConf.String` (redis.go:63-66) -/
def RedisConf.text (r : RedisConf) : Bytes :=
  ascii "{Host: " ++ r.host ++ ascii ", Port: " ++ itoa r.port ++ ascii ", Password: ***, Pool: " ++ itoa r.pool ++
  ascii ", MinIdle: " ++ itoa r.minIdle ++ ascii "}"

/-- `EsConf.String` (es.go:21-24) -/
def EsConf.text (m : EsConf) : Bytes :=
  ascii "{Addrs: " ++ m.addrs ++ ascii ", Username: ***, Password: ***, MaxConnsPerHost: " ++ itoa m.maxConnsPerHost ++
  ascii ", MaxIdleConnsPerHost: " ++ itoa m.maxIdleConnsPerHost ++ ascii "}"

/-- `PprofConf.String` (pprof.go:39-42) -/
def PprofConf.text (p : PprofConf) : Bytes :=
  ascii "{Username: ***, Password: ***, BlockProfileRate: " ++ itoa p.blockProfileRate ++
  ascii ", MutexProfileFraction: " ++ itoa p.mutexProfileFraction ++ ascii "}"

/-! ## Params -/

/-- One turn of the loop over the items (mysql.go:169-179, postgresql.go:115-125, oracle.go:112-122). -/
def applyItem (m : Map) (str : Bytes) : Map :=
  match split 61 str with
  | [a, b] =>
    match queryUnescape b with
    | none => m
    | some v => m.set a v
  | _ => m

/-- The block `if conf.Params != ""`. -/
def applyParams (m : Map) (params : Bytes) : Map :=
  if params ≠ [] then (split 38 params).foldl applyItem m else m

/-- `mysql.Config`, the fields that are set.  `loc` is a location, 0 is UTC, the default of `mysql.NewConfig`. -/
structure MysqlConfig where
  timeout : Int
  readTimeout : Int
  writeTimeout : Int
  user : Bytes
  passwd : Bytes
  net : Bytes
  addr : Bytes
  dbName : Bytes
  params : Map
  parseTime : Bool
  loc : Nat

/-- `prepareMySqlNativeConfig` (mysql.go:146-186); `none`: fatal error, the location is unknown. -/
def prepareMysql (loadLocation : Bytes → Option Nat) (conf : MysqlConf) (customizer : Option (MysqlConfig → MysqlConfig)) :
    Option MysqlConfig :=
  let mc : MysqlConfig :=
    { timeout := conf.timeout, readTimeout := conf.readTimeout, writeTimeout := conf.writeTimeout
      user := conf.username, passwd := conf.password, net := ascii "tcp"
      addr := conf.host ++ 58 :: itoa conf.port, dbName := conf.database
      params := Map.empty, parseTime := conf.parseTime, loc := 0 }
  match (if conf.loc ≠ [] then loadLocation conf.loc else some 0) with
  | none => none
  | some l =>
    let mc := { mc with loc := l }
    let mc := { mc with params := applyParams mc.params conf.params }
    some (match customizer with
      | none => mc
      | some f => f mc)

/-- `preparePgUrlOptions` (postgresql.go:103-129) -/
def pgOptions (conf : PostgresqlConf) (customizer : Option (Map → Map)) : Map :=
  let options := Map.empty
  let options := if conf.connectTimeout ≠ 0 then options.set (ascii "connect_timeout") (itoa conf.connectTimeout) else options
  let options := match customizer with
    | none => options
    | some f => f options
  applyParams options conf.params

/-- `prepareUrlOptions` (oracle.go:92-126); `none`: panic -/
def oracleOptions (conf : OracleConf) (customizer : Option (Map → Map)) : Option Map :=
  if conf.sid = [] ∧ conf.service = [] then none
  else
    let options := Map.empty
    let options := if conf.sid ≠ [] then options.set (ascii "SID") conf.sid else options
    let options := if conf.servers ≠ [] then options.set (ascii "server") conf.servers else options
    let options := if conf.connectTimeout ≠ 0 then options.set (ascii "CONNECTION TIMEOUT") (itoa conf.connectTimeout) else options
    let options := match customizer with
      | none => options
      | some f => f options
    some (applyParams options conf.params)

/-! ## The postgres DSN -/

/-- The UTF-8 encodings of the characters of unicode.IsSpace. -/
def spaces : List Bytes :=
  [[9], [10], [11], [12], [13], [32], [0xC2, 0x85], [0xC2, 0xA0], [0xE1, 0x9A, 0x80],
   [0xE2, 0x80, 0x80], [0xE2, 0x80, 0x81], [0xE2, 0x80, 0x82], [0xE2, 0x80, 0x83], [0xE2, 0x80, 0x84], [0xE2, 0x80, 0x85],
   [0xE2, 0x80, 0x86], [0xE2, 0x80, 0x87], [0xE2, 0x80, 0x88], [0xE2, 0x80, 0x89], [0xE2, 0x80, 0x8A],
   [0xE2, 0x80, 0xA8], [0xE2, 0x80, 0xA9], [0xE2, 0x80, 0xAF], [0xE2, 0x81, 0x9F], [0xE3, 0x80, 0x80]]

/-- Take off prefixes out of a list, at most `n`. -/
def strip (ps : List Bytes) : Nat → Bytes → Bytes
  | 0, s => s
  | n + 1, s =>
    match ps.find? (fun p => isPrefix p s) with
    | none => s
    | some p => strip ps n (s.drop p.length)

/-- `strings.TrimSpace` -/
def trimSpace (s : Bytes) : Bytes :=
  let l := strip spaces s.length s
  (strip (spaces.map List.reverse) l.length l.reverse).reverse

/-- `strings.TrimRight(s, "&")` -/
def trimAmp (s : Bytes) : Bytes := (s.reverse.dropWhile (· = 38)).reverse

/-- The text for one option (postgresql.go:93-97). -/
def optionText (kv : Bytes × Bytes) : Bytes :=
  (split 44 (trimSpace kv.2)).flatMap fun temp => kv.1 ++ 61 :: queryEscape (trimSpace temp) ++ [38]

/-- `buildPgDsn` (postgresql.go:90-101); `order` is the map in the order of its iteration. -/
def buildPgDsn (conf : PostgresqlConf) (order : List (Bytes × Bytes)) : Bytes :=
  trimAmp (ascii "postgres://" ++ conf.username ++ 58 :: conf.password ++ 64 :: conf.host ++ 58 :: itoa conf.port ++
    47 :: conf.database ++ 63 :: order.flatMap optionText)

/-! ## How the driver reads the DSN: net/url.Parse and lib/pq.ParseURL -/

/-- What is found in a URL. -/
structure Dsn where
  user : Bytes
  password : Bytes
  host : Bytes
  port : Bytes
  database : Bytes
  options : List (Bytes × Bytes)
deriving DecidableEq, Repr

def isCtl (c : UInt8) : Bool := c < 32 || c = 127

/-- `validUserinfo` -/
def userinfoByte (c : UInt8) : Bool :=
  (97 ≤ c && c ≤ 122) || (65 ≤ c && c ≤ 90) || (48 ≤ c && c ≤ 57) ||
  (ascii "-._:~!$&'()*+,;=%@").contains c

/-- Bytes that may stand in a host name.  (Percent-encoded hosts and IPv6 addresses in brackets are left out of the
model.) -/
def hostByte (c : UInt8) : Bool := unreserved c || 128 ≤ c || (ascii "!$&'()*+,;=:<>\"").contains c

def isDigits (s : Bytes) : Bool := s.all fun c => 48 ≤ c && c ≤ 57

/-- `parseQuery` with all items well-formed; each item is split at its first '='. -/
def parseQuery (q : Bytes) : Option (List (Bytes × Bytes)) :=
  ((split 38 q).filter (· ≠ [])).mapM fun item =>
    if (ascii ";").any (item.contains ·) then none
    else
      match queryUnescape (cut 61 item).1, queryUnescape ((cut 61 item).2.getD []) with
      | some k, some v => some (k, v)
      | _, _ => none

/-- `url.Parse` and the reading of user, host, path and query of a URL that begins with `scheme`; `none`: an error, or no
user, password or port. -/
def parseUrl (scheme raw : Bytes) : Option Dsn :=
  -- the fragment
  let u := (cut 35 raw).1
  if u.any isCtl then none
  else if !isPrefix scheme u then none
  else
    let rest := u.drop scheme.length
    let query := ((cut 63 rest).2).getD []
    let rest := (cut 63 rest).1
    let authority := (cut 47 rest).1
    match (cut 47 rest).2, cutLast 64 authority with
    | some path, some (userinfo, hostport) =>
      if !userinfo.all userinfoByte then none
      else
        match cut 58 userinfo, cutLast 58 hostport with
        | (user, some pass), some (host, port) =>
          if !host.all hostByte || !isDigits port then none
          else
            match unescape false user, unescape false pass, unescape false path, parseQuery query with
            | some user, some pass, some path, some q => some ⟨user, pass, host, port, path, q⟩
            | _, _, _, _ => none
        | _, _ => none
    | _, _ => none

/-- What lib/pq finds in a DSN. -/
def parseDsn (raw : Bytes) : Option Dsn := parseUrl (ascii "postgres://") raw

/-! ## New…Db -/

/-- The limits of a `sql.DB`. -/
structure Pool where
  maxOpen : Int
  maxIdle : Int
  maxLifetime : Int
deriving DecidableEq, Repr

/-- `sql.Open`: no limit on open connections, two idle ones. -/
def Pool.open : Pool := ⟨0, 2, 0⟩

/-- `SetMaxOpenConns`: 0 for no limit; idle connections are limited to it, too. -/
def Pool.setMaxOpen (p : Pool) (n : Int) : Pool :=
  let n := if n < 0 then 0 else n
  ⟨n, if n > 0 ∧ p.maxIdle > n then n else p.maxIdle, p.maxLifetime⟩

/-- `SetMaxIdleConns`: no idle connections for n ≤ 0, and not more than open ones. -/
def Pool.setMaxIdle (p : Pool) (n : Int) : Pool :=
  let n := if n ≤ 0 then 0 else n
  ⟨p.maxOpen, if p.maxOpen > 0 ∧ n > p.maxOpen then p.maxOpen else n, p.maxLifetime⟩

/-- `SetConnMaxLifetime`: 0 for no limit. -/
def Pool.setMaxLifetime (p : Pool) (d : Int) : Pool := { p with maxLifetime := if d < 0 then 0 else d }

/-- `NewMySqlDb`, `NewPostgresqlDb`, `NewOracleDb` after the DSN was made (mysql.go:99-115, postgresql.go:71-87,
oracle.go:73-89), also with tracer: `none` means that the program is ended. -/
def newDb (openOk pingOk : Bool) (maxOpen maxIdle lifetime : Int) : Option Pool :=
  if !openOk then none
  else
    let db := ((Pool.open.setMaxOpen maxOpen).setMaxIdle maxIdle).setMaxLifetime lifetime
    if !pingOk then none else some db

/-! ## The URL for oracle: go-ora's BuildUrl and how its driver reads it -/

/-- The bytes that are not escaped by `url.PathEscape`. -/
def pathByte (c : UInt8) : Bool := unreserved c || (ascii "$&+=:@").contains c

/-- `url.PathEscape` -/
def pathEscape : Bytes → Bytes
  | [] => []
  | c :: l => if pathByte c then c :: pathEscape l else 37 :: upperhex (c / 16) :: upperhex (c % 16) :: pathEscape l

def upper (c : UInt8) : UInt8 := if 97 ≤ c && c ≤ 122 then c - 32 else c

/-- The text for one option in `go_ora.BuildUrl`; the values of "server" are not escaped. -/
def oraOption (kv : Bytes × Bytes) : Bytes :=
  (split 44 (trimSpace kv.2)).flatMap fun temp =>
    kv.1 ++ 61 :: (if kv.1.map upper = ascii "SERVER" then trimSpace temp else queryEscape (trimSpace temp)) ++ [38]

/-- The connection string of `NewOracleDb` (oracle.go:71-72): `go_ora.BuildUrl` with the options in the order of the
iteration, for a host that is not an IPv6 address. -/
def buildOraUrl (conf : OracleConf) (order : List (Bytes × Bytes)) : Bytes :=
  trimAmp (ascii "oracle://" ++ pathEscape conf.username ++ 58 :: pathEscape conf.password ++ 64 :: conf.host ++
    58 :: itoa conf.port ++ 47 :: pathEscape conf.service ++ 63 :: order.flatMap oraOption)

/-- What the driver finds in it: the service is the path without slashes at its ends. -/
def parseOra (raw : Bytes) : Option Dsn :=
  (parseUrl (ascii "oracle://") raw).map fun d =>
    { d with database := ((d.database.dropWhile (· = 47)).reverse.dropWhile (· = 47)).reverse }

/-! ## Redis and elasticsearch -/

/-- `redis.Options`, the fields that are set. -/
structure RedisOptions where
  addr : Bytes
  password : Bytes
  poolSize : Int
  minIdleConns : Int
  db : Int

/-- `prepareRedisNativeConfig` (redis.go:68-80) -/
def prepareRedis (rc : RedisConf) (customizer : Option (RedisOptions → RedisOptions)) : RedisOptions :=
  let o : RedisOptions := ⟨rc.host ++ 58 :: itoa rc.port, rc.password, rc.pool, rc.minIdle, rc.db⟩
  match customizer with
  | none => o
  | some f => f o

/-- The limits of `http.Transport`; 0 is no limit (for the second, the default of 2). -/
structure Transport where
  maxConnsPerHost : Int
  maxIdleConnsPerHost : Int
  maxIdleConns : Int
deriving DecidableEq, Repr

/-- `http.DefaultTransport` -/
def defaultTransport : Transport := ⟨0, 0, 100⟩

/-- The transport of `NewEsClient` (es.go:36-39). -/
def esTransport (conf : EsConf) : Transport :=
  let t := defaultTransport
  let t := { t with maxIdleConnsPerHost := conf.maxConnsPerHost }
  { t with maxIdleConns := conf.maxIdleConnsPerHost }

/-- The addresses of the client (es.go:31). -/
def esAddresses (conf : EsConf) : List Bytes := split 44 conf.addrs

/-! ## The fasthttp client -/

structure FastHttpClientConf where
  certChain : Bytes
  privateKey : Bytes
  sslTrustMode : Bytes
  sslTrustCerts : Bytes

/-- `tls.Config`, the fields that are set.  The pool is the list of the files of certificates. -/
structure TlsConfig where
  certificates : List (Bytes × Bytes)
  rootCAs : Option (List Bytes)
  insecureSkipVerify : Bool
deriving DecidableEq, Repr

/-- `NewFastHttpClient` (fasthttpclient.go:80-122), without the fields that are copied, and without customizer: the TLS
configuration of the client.  `keyPairOk` and `certOk`: the files can be read and parsed; if not, the program panics or is
ended (`none`). -/
def newFastHttpClient (keyPairOk : Bool) (certOk : Bytes → Bool) (c : FastHttpClientConf) : Option (Option TlsConfig) :=
  let tlsConfig : TlsConfig := ⟨[], none, false⟩
  let s1 : Option (TlsConfig × Bool) :=
    if c.certChain ≠ [] ∨ c.privateKey ≠ [] then
      if keyPairOk then some ({ tlsConfig with certificates := [(c.certChain, c.privateKey)] }, true) else none
    else some (tlsConfig, false)
  match s1 with
  | none => none
  | some (tlsConfig, tlsConfigured) =>
    if c.sslTrustMode = ascii "CUSTOM" ∧ c.sslTrustCerts ≠ [] then
      if (split 44 c.sslTrustCerts).all certOk then
        let tlsConfig := { tlsConfig with rootCAs := some (split 44 c.sslTrustCerts) }
        some (if tlsConfigured then some tlsConfig else none)
      else none
    else if c.sslTrustMode = ascii "INSECURE" then
      some (some { tlsConfig with insecureSkipVerify := true })
    else some (if tlsConfigured then some tlsConfig else none)

/-! ## pprof -/

/-- `strings.TrimPrefix` -/
def trimPrefix (s p : Bytes) : Bytes := if isPrefix p s then s.drop p.length else s

inductive PprofRes where
  /-- nothing is done, an empty response -/
  | empty
  | refused
  | runs
deriving DecidableEq, Repr

/-- `NewFasthttpRoutingPprofHandler` (pprof.go:74-119), called with a value of the Authorization header. -/
def fasthttpPprof (conf : PprofConf) (header : Bytes) : PprofRes :=
  if conf.username = [] ∨ conf.password = [] then .empty
  else
    let auth := trimPrefix header (ascii "Basic ")
    if auth = [] then .refused
    else match b64decode auth with
      | none => .refused
      | some b =>
        match split 58 b with
        | [u, p] => if u ≠ conf.username ∨ p ≠ conf.password then .refused else .runs
        | _ => .refused

inductive GinRes where
  | notFound
  | unauthorized
  | passes
deriving DecidableEq, Repr

/-- `NewGinPprofBasicAuthFilter` (pprof.go:45-65) with `gin.BasicAuth`, which compares the header with the one of the
account. -/
def ginPprof (conf : PprofConf) (header : Bytes) : GinRes :=
  if conf.username = [] ∨ conf.password = [] then .notFound
  else if header = [] then .unauthorized
  else if ascii "Basic " ++ b64encode (conf.username ++ 58 :: conf.password) = header then .passes
  else .unauthorized

end Gears.Confs
