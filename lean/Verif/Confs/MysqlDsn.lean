import Verif.Confs.Model
import Verif.Duration.Model

/-
The way from the configuration to the driver for mysql: NewMySqlDb prints the prepared `mysql.Config` with FormatDSN and
opens the database with the text (/repo/confs/mysql.go:94-99, 121-125), the driver reads it with ParseDSN.  Both are modelled
from github.com/go-sql-driver/mysql v1.6.0 (dsn.go, utils.go), the version in /repo/go.mod.
-/

namespace Gears.Confs.Mysql

open Gears.Str

/-- The settings of `mysql.Config` that are booleans. -/
inductive Flag where
  | allowAllFiles | allowCleartextPasswords | allowNativePasswords | allowOldPasswords | checkConnLiveness | clientFoundRows
  | columnsWithAlias | interpolateParams | multiStatements | parseTime | rejectReadOnly
deriving DecidableEq, Repr

/-- The name in a DSN. -/
def Flag.name : Flag → Bytes
  | .allowAllFiles => ascii "allowAllFiles"
  | .allowCleartextPasswords => ascii "allowCleartextPasswords"
  | .allowNativePasswords => ascii "allowNativePasswords"
  | .allowOldPasswords => ascii "allowOldPasswords"
  | .checkConnLiveness => ascii "checkConnLiveness"
  | .clientFoundRows => ascii "clientFoundRows"
  | .columnsWithAlias => ascii "columnsWithAlias"
  | .interpolateParams => ascii "interpolateParams"
  | .multiStatements => ascii "multiStatements"
  | .parseTime => ascii "parseTime"
  | .rejectReadOnly => ascii "rejectReadOnly"

def flags : List Flag :=
  [.allowAllFiles, .allowCleartextPasswords, .allowNativePasswords, .allowOldPasswords, .checkConnLiveness, .clientFoundRows,
   .columnsWithAlias, .interpolateParams, .multiStatements, .parseTime, .rejectReadOnly]

/-- The value in `mysql.NewConfig` -/
def Flag.default : Flag → Bool
  | .allowNativePasswords => true
  | .checkConnLiveness => true
  | _ => false

/-- `mysql.Config`, the exported fields -/
structure Cfg where
  user : Bytes
  passwd : Bytes
  net : Bytes
  addr : Bytes
  dbName : Bytes
  params : Map
  collation : Bytes
  loc : Nat
  maxAllowedPacket : Int
  serverPubKey : Bytes
  tls : Bytes
  timeout : Int
  readTimeout : Int
  writeTimeout : Int
  flags : Flag → Bool

/-- `mysql.NewConfig` -/
def Cfg.new : Cfg :=
  { user := [], passwd := [], net := [], addr := [], dbName := [], params := Map.empty, collation := ascii "utf8mb4_general_ci"
    loc := 0, maxAllowedPacket := 4194304, serverPubKey := [], tls := [], timeout := 0, readTimeout := 0, writeTimeout := 0
    flags := Flag.default }

/-- The configuration that `prepareMySqlNativeConfig` makes (mysql.go:146-186), with what `NewConfig` leaves in it. -/
def Cfg.of (mc : MysqlConfig) : Cfg :=
  { Cfg.new with
    user := mc.user, passwd := mc.passwd, net := mc.net, addr := mc.addr, dbName := mc.dbName, params := mc.params
    loc := mc.loc, timeout := mc.timeout, readTimeout := mc.readTimeout, writeTimeout := mc.writeTimeout
    flags := fun f => if f = .parseTime then mc.parseTime else f.default }

/-- What the driver asks for elsewhere: the location of a name (`time.LoadLocation`) and back, and which TLS configurations
    and server keys are registered.  0 is UTC. -/
structure Env where
  loadLocation : Bytes → Option Nat
  locName : Nat → Bytes
  tlsKnown : Bytes → Bool
  keyKnown : Bytes → Bool

/-! ## FormatDSN -/

def opt (c : Bool) (name value : Bytes) : List (Bytes × Bytes) := if c then [(name, value)] else []

/-- A boolean setting is written if it is not the default. -/
def flagItem (cfg : Cfg) (f : Flag) : List (Bytes × Bytes) :=
  opt (cfg.flags f != f.default) f.name (if f.default then ascii "false" else ascii "true")

/-- The calls of `writeDSNParam` in `FormatDSN`, in their order.  `order` are the entries of the map Params; the code sorts
    them by name, here they may be in any order. -/
def items (env : Env) (cfg : Cfg) (order : List (Bytes × Bytes)) : List (Bytes × Bytes) :=
  flagItem cfg .allowAllFiles ++ flagItem cfg .allowCleartextPasswords ++ flagItem cfg .allowNativePasswords ++
  flagItem cfg .allowOldPasswords ++ flagItem cfg .checkConnLiveness ++ flagItem cfg .clientFoundRows ++
  opt (cfg.collation ≠ ascii "utf8mb4_general_ci" ∧ cfg.collation ≠ []) (ascii "collation") cfg.collation ++
  flagItem cfg .columnsWithAlias ++ flagItem cfg .interpolateParams ++
  opt (cfg.loc ≠ 0) (ascii "loc") (queryEscape (env.locName cfg.loc)) ++
  flagItem cfg .multiStatements ++ flagItem cfg .parseTime ++
  opt (0 < cfg.readTimeout) (ascii "readTimeout") (Duration.toText cfg.readTimeout) ++
  flagItem cfg .rejectReadOnly ++
  opt (cfg.serverPubKey ≠ []) (ascii "serverPubKey") (queryEscape cfg.serverPubKey) ++
  opt (0 < cfg.timeout) (ascii "timeout") (Duration.toText cfg.timeout) ++
  opt (cfg.tls ≠ []) (ascii "tls") (queryEscape cfg.tls) ++
  opt (0 < cfg.writeTimeout) (ascii "writeTimeout") (Duration.toText cfg.writeTimeout) ++
  opt (cfg.maxAllowedPacket ≠ 4194304) (ascii "maxAllowedPacket") (itoa cfg.maxAllowedPacket) ++
  order.map fun kv => (kv.1, queryEscape kv.2)

def itemText (kv : Bytes × Bytes) : Bytes := kv.1 ++ 61 :: kv.2

/-- The texts written by `writeDSNParam`: '?' before the first, '&' before the others. -/
def itemsText (l : List (Bytes × Bytes)) : Bytes := if l = [] then [] else 63 :: join 38 (l.map itemText)

/-- [username[:password]@] -/
def userText (cfg : Cfg) : Bytes :=
  if cfg.user ≠ [] then cfg.user ++ (if cfg.passwd ≠ [] then 58 :: cfg.passwd else []) ++ [64] else []

/-- [protocol[(address)]] -/
def netText (cfg : Cfg) : Bytes :=
  if cfg.net ≠ [] then cfg.net ++ (if cfg.addr ≠ [] then 40 :: cfg.addr ++ [41] else []) else []

/-- `Config.FormatDSN` -/
def format (env : Env) (cfg : Cfg) (order : List (Bytes × Bytes)) : Bytes :=
  userText cfg ++ netText cfg ++ 47 :: cfg.dbName ++ itemsText (items env cfg order)

/-! ## ParseDSN -/

/-- `readBool` (utils.go) -/
def readBool (s : Bytes) : Option Bool :=
  if s = ascii "1" ∨ s = ascii "true" ∨ s = ascii "TRUE" ∨ s = ascii "True" then some true
  else if s = ascii "0" ∨ s = ascii "false" ∨ s = ascii "FALSE" ∨ s = ascii "False" then some false
  else none

/-- One turn of the loop of `parseDSNParams`, for name and value.  `none`: an error, or a panic for "strict". -/
def applyParam (env : Env) (cfg : Cfg) (kv : Bytes × Bytes) : Option Cfg :=
  match flags.find? (fun f => f.name = kv.1) with
  | some f => (readBool kv.2).map fun b => { cfg with flags := fun g => if g = f then b else cfg.flags g }
  | none =>
    if kv.1 = ascii "collation" then some { cfg with collation := kv.2 }
    else if kv.1 = ascii "compress" then none
    else if kv.1 = ascii "loc" then
      ((queryUnescape kv.2).bind env.loadLocation).map fun l => { cfg with loc := l }
    else if kv.1 = ascii "readTimeout" then (Duration.parse kv.2).map fun d => { cfg with readTimeout := d }
    else if kv.1 = ascii "serverPubKey" then (queryUnescape kv.2).map fun n => { cfg with serverPubKey := n }
    else if kv.1 = ascii "strict" then none
    else if kv.1 = ascii "timeout" then (Duration.parse kv.2).map fun d => { cfg with timeout := d }
    else if kv.1 = ascii "tls" then
      match readBool kv.2 with
      | some b => some { cfg with tls := if b then ascii "true" else ascii "false" }
      | none => (queryUnescape kv.2).map fun n => { cfg with tls := n }
    else if kv.1 = ascii "writeTimeout" then (Duration.parse kv.2).map fun d => { cfg with writeTimeout := d }
    else if kv.1 = ascii "maxAllowedPacket" then (Procs.atoi kv.2).map fun n => { cfg with maxAllowedPacket := n }
    else (queryUnescape kv.2).map fun v => { cfg with params := cfg.params.set kv.1 v }

/-- `strings.SplitN(v, "=", 2)` with two parts -/
def splitItem (v : Bytes) : Option (Bytes × Bytes) := (cut 61 v).2.map fun w => ((cut 61 v).1, w)

/-- `parseDSNParams` -/
def applyParams (env : Env) (cfg : Cfg) (s : Bytes) : Option Cfg :=
  ((split 38 s).filterMap splitItem).foldlM (applyParam env) cfg

/-- `net.SplitHostPort`: is there no error? -/
def hasPort (hostport : Bytes) : Bool :=
  match cutLast 58 hostport with
  | none => false
  | some (host, _) =>
    if hostport.head? = some 91 then
      match cut 93 hostport with
      | (_, none) => false
      | (h, some t) => host = h ++ [93] && !hostport.tail.contains 91 && !t.contains 93
    else !host.contains 58 && !hostport.contains 91 && !hostport.contains 93

/-- `ensureHavePort` and `net.JoinHostPort` -/
def ensureHavePort (addr : Bytes) : Bytes :=
  if hasPort addr then addr
  else if addr.contains 58 then 91 :: addr ++ 93 :: ascii ":3306"
  else addr ++ ascii ":3306"

/-- `Config.normalize` -/
def normalize (env : Env) (cfg : Cfg) : Option Cfg :=
  let cfg := if cfg.net = [] then { cfg with net := ascii "tcp" } else cfg
  let r : Option Cfg :=
    if cfg.addr = [] then
      if cfg.net = ascii "tcp" then some { cfg with addr := ascii "127.0.0.1:3306" }
      else if cfg.net = ascii "unix" then some { cfg with addr := ascii "/tmp/mysql.sock" }
      else none
    else if cfg.net = ascii "tcp" then some { cfg with addr := ensureHavePort cfg.addr }
    else some cfg
  r.bind fun cfg =>
    if ¬ ([ascii "false", [], ascii "true", ascii "skip-verify", ascii "preferred"].contains cfg.tls) ∧ env.tlsKnown cfg.tls = false then none
    else if cfg.serverPubKey ≠ [] ∧ env.keyKnown cfg.serverPubKey = false then none
    else some cfg

/-- [protocol[(address)]]; `none`: the address does not end with ')' -/
def parseNet (cfg : Cfg) (na : Bytes) : Option Cfg :=
  match (cut 40 na).2 with
  | none => some { cfg with net := (cut 40 na).1 }
  | some rest =>
    if rest.getLast? = some 41 then some { cfg with net := (cut 40 na).1, addr := rest.dropLast } else none

/-- [username[:password]@][protocol[(address)]]; `none`: the address does not end with ')' -/
def parseLeft (cfg : Cfg) (left : Bytes) : Option Cfg :=
  if left = [] then some cfg
  else
    match cutLast 64 left with
    | some (ui, na) => parseNet { cfg with user := (cut 58 ui).1, passwd := (cut 58 ui).2.getD cfg.passwd } na
    | none => parseNet cfg left

/-- dbname[?param1=value1&...&paramN=valueN] -/
def parseRight (env : Env) (cfg : Cfg) (right : Bytes) : Option Cfg :=
  let r : Option Cfg := match (cut 63 right).2 with
    | none => some cfg
    | some s => applyParams env cfg s
  r.map fun cfg => { cfg with dbName := (cut 63 right).1 }

/-- `ParseDSN` -/
def parse (env : Env) (dsn : Bytes) : Option Cfg :=
  match cutLast 47 dsn with
  | none => if dsn = [] then normalize env Cfg.new else none
  | some (left, right) => ((parseLeft Cfg.new left).bind fun cfg => parseRight env cfg right).bind (normalize env)

end Gears.Confs.Mysql
