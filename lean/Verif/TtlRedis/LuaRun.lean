import Verif.TtlRedis.Lua
import Verif.TtlRedis.Model

/-
Running the scripts: the redis commands on values as redis stores them (lists of strings), the Lua interpreter, the reply, and what
the Go code makes of it.
-/

namespace Gears.TtlRedis.Lua

/-! ## Decimal numbers -/

def natDec (n : Nat) : Str := if n < 10 then [Char.ofNat (48 + n)] else natDec (n / 10) ++ [Char.ofNat (48 + n % 10)]

/-- `strconv.Itoa` (go-redis, arguments of commands), and the numbers that Lua and redis write. -/
def dec (z : Int) : Str := if z < 0 then '-' :: natDec z.natAbs else natDec z.natAbs

def digits (acc : Nat) : Str → Option Nat
  | [] => some acc
  | c :: s => if isDigit c then digits (acc * 10 + (c.toNat - 48)) s else none

def signed : Str → Option Int
  | '-' :: r => (digits 0 r).map fun n : Nat => -(n : Int)
  | r => (digits 0 r).map fun n : Nat => (n : Int)

/-- `string2ll` of redis: decimal numbers without sign `+` and leading zeros. -/
def undec (s : Str) : Option Int :=
  match signed s with
  | some z => if dec z = s then some z else none
  | none => none

/-! ## Redis -/

/-- Strings, lists, and values of the other types. -/
inductive RVal where
  | str (s : Str)
  | list (l : List Str)
  | other (what : Str)
deriving DecidableEq

structure REntry where
  val      : RVal
  expireAt : Option Int
deriving DecidableEq

abbrev RDb := Str → Option REntry

def RDb.set (db : RDb) (k : Str) (e : Option REntry) : RDb := fun k' => if k' = k then e else db k'

/-- The entry visible at redis time `t` (expired: `now > when`). -/
def rlive (db : RDb) (t : Int) (k : Str) : Option REntry :=
  match db k with
  | none => none
  | some e => match e.expireAt with
    | none => some e
    | some w => if w < t then none else some e

inductive RErr where
  | wrongType | arity | notInt | range | syntax | lua
deriving DecidableEq

/-- Values of Lua. -/
inductive Value where
  | nil
  | bool (b : Bool)
  | num (n : Int)
  | str (s : Str)
  | table (l : List Value)

/-- Programs with the database as state; an error keeps the state. -/
abbrev M (α : Type) := RDb → RDb × Except RErr α

def M.pure {α : Type} (a : α) : M α := fun db => (db, .ok a)
def M.fail {α : Type} (e : RErr) : M α := fun db => (db, .error e)
def M.bind {α β : Type} (m : M α) (f : α → M β) : M β := fun db =>
  match m db with
  | (db', .ok a) => f a db'
  | (db', .error e) => (db', .error e)

/-- The elements from `a` to `b` (`LRANGE`). -/
def range (l : List Str) (a b : Int) : List Str :=
  let a' := if a < 0 then max (a + l.length) 0 else a
  let b' := if b < 0 then b + l.length else b
  (l.drop a'.toNat).take (b' + 1 - a').toNat

def cEXISTS (t : Int) (k : Str) : M Value := fun db => (db, .ok (.num (if (rlive db t k).isSome then 1 else 0)))

/-- Seconds, rounded. -/
def cTTL (t : Int) (k : Str) : M Value := fun db =>
  match rlive db t k with
  | none => (db, .ok (.num (-2)))
  | some e => match e.expireAt with
    | none => (db, .ok (.num (-1)))
    | some w => (db, .ok (.num ((max (w - t) 0 + 500) / 1000)))

/-- A nil reply becomes `false` in Lua. -/
def cGET (t : Int) (k : Str) : M Value := fun db =>
  match rlive db t k with
  | none => (db, .ok (.bool false))
  | some ⟨.str s, _⟩ => (db, .ok (.str s))
  | some _ => (db, .error .wrongType)

def cLLEN (t : Int) (k : Str) : M Value := fun db =>
  match rlive db t k with
  | none => (db, .ok (.num 0))
  | some ⟨.list l, _⟩ => (db, .ok (.num l.length))
  | some _ => (db, .error .wrongType)

def cRPUSH (t : Int) (k v : Str) : M Value := fun db =>
  match rlive db t k with
  | none => (db.set k (some ⟨.list [v], none⟩), .ok (.num 1))
  | some ⟨.list l, e⟩ => (db.set k (some ⟨.list (l ++ [v]), e⟩), .ok (.num (l.length + 1)))
  | some _ => (db, .error .wrongType)

/-- A list without elements is removed. -/
def cLPOP (t : Int) (k : Str) : M Value := fun db =>
  match rlive db t k with
  | none => (db, .ok (.bool false))
  | some ⟨.list (a :: b :: l), e⟩ => (db.set k (some ⟨.list (b :: l), e⟩), .ok (.str a))
  | some ⟨.list [a], _⟩ => (db.set k none, .ok (.str a))
  | some ⟨.list [], _⟩ => (db.set k none, .ok (.bool false))
  | some _ => (db, .error .wrongType)

def cLRANGE (t : Int) (k a b : Str) : M Value := fun db =>
  match undec a, undec b with
  | some a, some b =>
    match rlive db t k with
    | none => (db, .ok (.table []))
    | some ⟨.list l, _⟩ => (db, .ok (.table ((range l a b).map .str)))
    | some _ => (db, .error .wrongType)
  | _, _ => (db, .error .notInt)

/-- The time at which a key expires does not fit into 64 bits: `invalid expire time`. -/
def tooFar (t n : Int) : Bool := decide (2 ^ 63 ≤ t + n * 1000)

/-- A time that is over removes the key. -/
def cEXPIRE (t : Int) (k secs : Str) : M Value := fun db =>
  match undec secs with
  | none => (db, .error .notInt)
  | some n =>
    if tooFar t n then (db, .error .range)
    else match rlive db t k with
    | none => (db, .ok (.num 0))
    | some e => (db.set k (if n ≤ 0 then none else some { e with expireAt := some (t + n * 1000) }), .ok (.num 1))

/-- `SET k v EX n NX`; the reply `OK` is a table without numbered elements, a nil reply `false`. -/
def cSETEXNX (t : Int) (k v secs : Str) : M Value := fun db =>
  match undec secs with
  | none => (db, .error .notInt)
  | some n =>
    if n ≤ 0 then (db, .error .syntax)
    else if tooFar t n then (db, .error .range)
    else match rlive db t k with
      | some _ => (db, .ok (.bool false))
      | none => (db.set k (some ⟨.str v, some (t + n * 1000)⟩), .ok (.table []))

/-- The commands of the scripts. -/
def command (t : Int) (name : Str) (args : List Str) : M Value :=
  if name = "EXISTS".toList then (match args with | [k] => cEXISTS t k | _ => M.fail .arity)
  else if name = "TTL".toList then (match args with | [k] => cTTL t k | _ => M.fail .arity)
  else if name = "GET".toList then (match args with | [k] => cGET t k | _ => M.fail .arity)
  else if name = "LLEN".toList then (match args with | [k] => cLLEN t k | _ => M.fail .arity)
  else if name = "RPUSH".toList then (match args with | [k, v] => cRPUSH t k v | _ => M.fail .arity)
  else if name = "LPOP".toList then (match args with | [k] => cLPOP t k | _ => M.fail .arity)
  else if name = "LRANGE".toList then (match args with | [k, a, b] => cLRANGE t k a b | _ => M.fail .arity)
  else if name = "EXPIRE".toList then (match args with | [k, n] => cEXPIRE t k n | _ => M.fail .arity)
  else if name = "SET".toList then
    (match args with
      | [k, v, ex, n, nx] => if ex = "EX".toList ∧ nx = "NX".toList then cSETEXNX t k v n else M.fail .syntax
      | _ => M.fail .syntax)
  else M.fail .syntax

/-! ## The interpreter -/

abbrev Env := List (String × Value)

/-- The innermost variable of a name; nil if there is none. -/
def Env.get : Env → String → Value
  | [], _ => .nil
  | (y, v) :: env, x => if x = y then v else Env.get env x

def Value.truthy : Value → Bool
  | .nil => false
  | .bool false => false
  | _ => true

/-- `==`; different tables are different. -/
def Value.same : Value → Value → Bool
  | .nil, .nil => true
  | .bool a, .bool b => a == b
  | .num a, .num b => a == b
  | .str a, .str b => a == b
  | _, _ => false

/-- The numbers of Lua.  They are doubles; those that arise in the scripts are integers, so they are represented by integers. -/
structure Arith where
  /-- `tonumber` on strings -/
  read : Str → Option Int
  sub  : Int → Int → Int
  mul  : Int → Int → Int
  /-- the text of a number as an argument of `redis.call` -/
  text : Int → Str

/-- Arguments of `redis.call`: strings and numbers. -/
def strings (ar : Arith) : List Value → Option (List Str)
  | [] => some []
  | .str s :: l => (strings ar l).map (s :: ·)
  | .num n :: l => (strings ar l).map (ar.text n :: ·)
  | _ :: _ => none

/-- The library functions. -/
def callF (ar : Arith) (t : Int) (f : String) (args : List Value) : M Value :=
  if f = "redis.call" then
    match strings ar args with
    | some (name :: args) => command t name args
    | _ => M.fail .lua
  else if f = "tonumber" then
    match args with
    | [.str s] => M.pure (match ar.read s with | some n => .num n | none => .nil)
    | [.num n] => M.pure (.num n)
    | _ => M.pure .nil
  else if f = "table.getn" then
    match args with
    | [.table l] => M.pure (.num l.length)
    | _ => M.fail .lua
  else M.fail .lua

def binF (ar : Arith) (op : Op) (a b : Value) : M Value :=
  match op, a, b with
  | .le, .num a, .num b => M.pure (.bool (decide (a ≤ b)))
  | .lt, .num a, .num b => M.pure (.bool (decide (a < b)))
  | .gt, .num a, .num b => M.pure (.bool (decide (a > b)))
  | .sub, .num a, .num b => M.pure (.num (ar.sub a b))
  | .mul, .num a, .num b => M.pure (.num (ar.mul a b))
  | .eq, a, b => M.pure (.bool (a.same b))
  | _, _, _ => M.fail .lua

def indexF (e i : Value) : M Value :=
  match e, i with
  | .table l, .num i => M.pure (if i ≤ 0 then .nil else (l[(i - 1).toNat]?).getD .nil)
  | _, _ => M.fail .lua

mutual
def evalE (ar : Arith) (t : Int) (env : Env) : Expr → M Value
  | .num n => M.pure (.num n)
  | .str s => M.pure (.str s.toList)
  | .var x => M.pure (env.get x)
  | .index e i => M.bind (evalE ar t env e) fun a => M.bind (evalE ar t env i) fun b => indexF a b
  | .neg e => M.bind (evalE ar t env e) fun a => match a with | .num n => M.pure (.num (-n)) | _ => M.fail .lua
  | .bin .or a b => M.bind (evalE ar t env a) fun x => if x.truthy then M.pure x else evalE ar t env b
  | .bin op a b => M.bind (evalE ar t env a) fun x => M.bind (evalE ar t env b) fun y => binF ar op x y
  | .call f args => M.bind (evalA ar t env args) fun l => callF ar t f l
  | .table items => M.bind (evalA ar t env items) fun l => M.pure (.table l)

def evalA (ar : Arith) (t : Int) (env : Env) : Args → M (List Value)
  | .nil => M.pure []
  | .cons e a => M.bind (evalE ar t env e) fun v => M.bind (evalA ar t env a) fun l => M.pure (v :: l)
end

/-- How a statement ends. -/
inductive Ctl where
  | next (env : Env)
  | ret (v : Value)

/-- A numeric `for`: how often the body runs. -/
def rounds (a b c : Int) : Nat :=
  if c > 0 then (if a ≤ b then ((b - a) / c).toNat + 1 else 0)
  else (if b ≤ a then ((a - b) / (-c)).toNat + 1 else 0)

/-- `n` rounds; the body gets the control variable. -/
def loop (body : Int → M Ctl) (env : Env) : Nat → Int → Int → M Ctl
  | 0, _, _ => M.pure (.next env)
  | n + 1, a, c => M.bind (body a) fun r => match r with
    | .ret v => M.pure (.ret v)
    | .next _ => loop body env n (a + c) c

mutual
def execS (ar : Arith) (t : Int) (env : Env) : Stmt → M Ctl
  | .local x e => M.bind (evalE ar t env e) fun v => M.pure (.next ((x, v) :: env))
  | .ret e => M.bind (evalE ar t env e) fun v => M.pure (.ret v)
  | .call f args => M.bind (evalE ar t env (.call f args)) fun _ => M.pure (.next env)
  | .ifThen c b => M.bind (evalE ar t env c) fun v =>
      if v.truthy then
        M.bind (execB ar t env b) fun r => match r with
          | .ret v => M.pure (.ret v)
          | .next _ => M.pure (.next env)
      else M.pure (.next env)
  | .for x a b c body => M.bind (evalE ar t env a) fun a => M.bind (evalE ar t env b) fun b => M.bind (evalE ar t env c) fun c =>
      match a, b, c with
      | .num a, .num b, .num c => loop (fun i => execB ar t ((x, .num i) :: env) body) env (rounds a b c) a c
      | _, _, _ => M.fail .lua

def execB (ar : Arith) (t : Int) (env : Env) : Block → M Ctl
  | .nil => M.pure (.next env)
  | .cons s b => M.bind (execS ar t env s) fun r => match r with
      | .ret v => M.pure (.ret v)
      | .next env => execB ar t env b
end

/-! ## Replies -/

/-- Elements of an array reply: integers, strings, nil. -/
inductive Item where
  | int (n : Int)
  | bulk (s : Str)
  | null
deriving DecidableEq

/-- A value as an element of a reply.  Tables inside tables do not occur. -/
def Value.item : Value → Item
  | .num n => .int n
  | .str s => .bulk s
  | .bool true => .int 1
  | _ => .null

/-- `luaReplyToRedisReply` for tables: up to the first nil. -/
def items : List Value → List Item
  | [] => []
  | .nil :: _ => []
  | v :: l => v.item :: items l

/-- What `EvalSha(…).Result()` returns: an array, or something else (none). -/
def evalScript (ar : Arith) (t : Int) (prog : Block) (keys argv : List Str) : M (Option (List Item)) :=
  M.bind (execB ar t [("KEYS", .table (keys.map .str)), ("ARGV", .table (argv.map .str))] prog) fun r =>
    match r with
    | .ret (.table l) => M.pure (some (items l))
    | _ => M.pure none

/-- Lines 172-182 and 221-231 with their type assertions; none: a panic. -/
def goResult : Except RErr (Option (List Item)) → Option Result
  | .error _ => some .zero
  | .ok (some (.int b :: .int tr :: .int ttl :: .bulk m :: _)) => some ⟨b == 1, tr == 1, ttl, m⟩
  | .ok _ => none

/-- The programs: none of the scripts fails to compile (see `prog1_text`, `prog2_text`). -/
def compiled (lines : List String) : Block := (parse lines).getD .nil

/-- `ShouldBlock2Context` (ttl_ratelimiter_redis.go:186-233) with the text of the script; the arguments as go-redis sends them. -/
def goShouldBlock2 (ar : Arith) (db : RDb) (t : Int) (tag : Str) (pc pu : Params) (key blockKey msg : Str) (now : Int) :
    RDb × Option Result :=
  if pc.notSet then (db, some .zero)
  else
    let r := evalScript ar t (compiled text1) [listKey tag key, blockRKey tag blockKey]
      [dec pu.capacity, dec pu.window, dec pu.timeout, dec now, msg] db
    (r.1, goResult r.2)

/-- `IsBlockedContext` (162-184) -/
def goIsBlocked (ar : Arith) (db : RDb) (t : Int) (blockKey : Str) : RDb × Option Result :=
  let r := evalScript ar t (compiled text2) [blockKey ++ sfx] [] db
  (r.1, goResult r.2)

end Gears.TtlRedis.Lua
