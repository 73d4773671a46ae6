/-
Model of /repo/ratelimiter/ttl_ratelimiter_redis.go and ttl_ratelimiter.go: the redis-backed TTL rate limiter, the two
Lua scripts it runs, and the fragment of redis they use.

* Redis executes a script atomically, with one time stamp (ms) for the whole script.
* A key is expired when the redis time is strictly greater than its expiry time (redis `keyIsExpired`: `now > when`).
  Expired keys are treated as absent; physical deletion is invisible.
* A command on a value of the wrong type makes `redis.call` raise, which aborts the script; the client gets an error.
* List elements are the decimal client seconds pushed by script1; they are kept as integers.  Lua numbers are `Int`
  here; C105 shows that this is right for parameters and times up to 2^52, C128 what happens beyond.
* The network, `EVALSHA` with an unknown script and context cancellation are one event: the call returns an error
  without effect (`Call.shouldDown`, `Call.isBlockedDown`).
* Go strings are lists of characters.
-/

namespace Gears.TtlRedis

abbrev Str := List Char

/-! ### Redis -/

inductive Val where
  | str (s : Str)
  | list (l : List Int)
deriving Repr, DecidableEq

structure Entry where
  val      : Val
  expireAt : Option Int   -- ms
deriving Repr, DecidableEq

/-- A redis database. -/
abbrev Db := Str → Option Entry

def Db.empty : Db := fun _ => none

def Db.set (db : Db) (k : Str) (e : Option Entry) : Db := fun k' => if k' = k then e else db k'

inductive Err where
  | wrongType
  | unavailable
deriving Repr, DecidableEq

/-- The entry is expired at redis time `t`. -/
def Entry.expired (e : Entry) (t : Int) : Bool :=
  match e.expireAt with
  | none => false
  | some w => decide (w < t)

/-- The entry visible at redis time `t`. -/
def live (db : Db) (t : Int) (k : Str) : Option Entry :=
  match db k with
  | none => none
  | some e => if e.expired t then none else some e

/-- `EXISTS k` -/
def existsK (db : Db) (t : Int) (k : Str) : Bool := (live db t k).isSome

/-- `TTL k`: -2 if absent, -1 without expiry, else the remaining ms rounded to seconds, `(ms+500)/1000`. -/
def ttl (db : Db) (t : Int) (k : Str) : Int :=
  match live db t k with
  | none => -2
  | some e => match e.expireAt with
    | none => -1
    | some w => (max (w - t) 0 + 500) / 1000

/-- `GET k` of an existing key. -/
def getStr (db : Db) (t : Int) (k : Str) : Except Err Str :=
  match live db t k with
  | some ⟨.str s, _⟩ => .ok s
  | some ⟨.list _, _⟩ => .error .wrongType
  | none => .ok []

/-- `LLEN k` -/
def llen (db : Db) (t : Int) (k : Str) : Except Err Int :=
  match live db t k with
  | none => .ok 0
  | some ⟨.list l, _⟩ => .ok l.length
  | some ⟨.str _, _⟩ => .error .wrongType

/-- `RPUSH k v` on an absent key or a list (the scripts have run `LLEN` before, so no other case arises). -/
def rpush (db : Db) (t : Int) (k : Str) (v : Int) : Db :=
  match live db t k with
  | none => db.set k (some ⟨.list [v], none⟩)
  | some ⟨.list l, e⟩ => db.set k (some ⟨.list (l ++ [v]), e⟩)
  | some ⟨.str _, _⟩ => db

/-- `LPOP k`; a list that becomes empty is removed. -/
def lpop (db : Db) (t : Int) (k : Str) : Db :=
  match live db t k with
  | some ⟨.list (_ :: b :: l), e⟩ => db.set k (some ⟨.list (b :: l), e⟩)
  | some ⟨.list _, _⟩ => db.set k none
  | _ => db

/-- `LPOP k`, `n` times. -/
def lpopN (db : Db) (t : Int) (k : Str) : Nat → Db
  | 0 => db
  | n + 1 => lpopN (lpop db t k) t k n

/-- `LRANGE k 0 0` -/
def lrange00 (db : Db) (t : Int) (k : Str) : Option Int :=
  match live db t k with
  | some ⟨.list (a :: _), _⟩ => some a
  | _ => none

/-- `EXPIRE k secs` with `secs > 0`. -/
def expire (db : Db) (t : Int) (k : Str) (secs : Int) : Db :=
  match live db t k with
  | none => db
  | some e => db.set k (some { e with expireAt := some (t + secs * 1000) })

/-- `SET k v EX secs NX` -/
def setExNx (db : Db) (t : Int) (k : Str) (v : Str) (secs : Int) : Db :=
  match live db t k with
  | some _ => db
  | none => db.set k (some ⟨.str v, some (t + secs * 1000)⟩)

/-! ### The scripts -/

/-- Script replies `{block, triggered, ttl, msg}`. -/
structure Reply where
  block     : Int
  triggered : Int
  ttl       : Int
  msg       : Str
deriving Repr, DecidableEq

def Reply.pass : Reply := ⟨0, 0, 0, []⟩

/-- `script1` (ttl_ratelimiter_redis.go:54-111). -/
def script1 (db : Db) (t : Int) (key keyb : Str) (cap win exp now : Int) (msg : Str) : Db × Except Err Reply :=
  if cap ≤ 0 ∨ win ≤ 0 ∨ exp ≤ 0 then (db, .ok .pass)                       -- 62-65
  else if existsK db t keyb then                                            -- 67-72
    match getStr db t keyb with
    | .error e => (db, .error e)
    | .ok omsg => (db, .ok ⟨1, 0, ttl db t keyb, omsg⟩)
  else
    match llen db t key with                                                -- 74
    | .error e => (db, .error e)
    | .ok size =>
      if size < cap then                                                    -- 75-80
        (expire (rpush db t key now) t key (exp * 2), .ok .pass)
      else
        let db1 := lpopN db t key (size - cap).toNat                        -- 82-89
        match lrange00 db1 t key with                                       -- 91
        | none => (expire (rpush db1 t key now) t key (exp * 2), .ok .pass) -- 93-98
        | some oldest =>
          if now - oldest > win then                                        -- 100-107
            (expire (lpop (rpush db1 t key now) t key) t key (exp * 2), .ok .pass)
          else
            (setExNx db1 t keyb msg exp, .ok ⟨1, 1, exp, msg⟩)              -- 109-110

/-- `script2` (ttl_ratelimiter_redis.go:114-124). -/
def script2 (db : Db) (t : Int) (keyb : Str) : Except Err Reply :=
  if existsK db t keyb then
    match getStr db t keyb with
    | .error e => .error e
    | .ok omsg => .ok ⟨1, 0, ttl db t keyb, omsg⟩
  else .ok .pass

/-! ### The Go side -/

/-- `prefix` (ttl_ratelimiter_redis.go:50). -/
def pfx : Str := "_rl:".toList

/-- `suffix` (ttl_ratelimiter_redis.go:51). -/
def sfx : Str := ":bl".toList

/-- `Result` (ttl_ratelimiter.go:29-34). -/
structure Result where
  block     : Bool
  triggered : Bool
  ttl       : Int
  msg       : Str
deriving Repr, DecidableEq

/-- `&Result{}` -/
def Result.zero : Result := ⟨false, false, 0, []⟩

/-- Lines 177-182 and 226-231. -/
def Result.ofReply (r : Reply) : Result := ⟨r.block == 1, r.triggered == 1, r.ttl, r.msg⟩

/-- Lines 172-182 and 221-231. -/
def Result.ofEval : Except Err Reply → Result
  | .error _ => .zero
  | .ok r => .ofReply r

/-- `TtlRateLimiterParams` (ttl_ratelimiter.go:63-71): the values the getters return. -/
structure Params where
  capacity : Int
  window   : Int
  timeout  : Int
deriving Repr, DecidableEq

/-- `isParamsNotSet` (ttl_ratelimiter.go:73-75). -/
def Params.notSet (p : Params) : Prop := p.capacity ≤ 0 ∨ p.timeout ≤ 0 ∨ p.window ≤ 0

instance (p : Params) : Decidable p.notSet := by unfold Params.notSet; infer_instance

def isBrace (c : Char) : Bool := c == '{' || c == '}'

/-- `strings.Trim(s, "{}")` -/
def trimBraces (s : Str) : Str := ((s.dropWhile isBrace).reverse.dropWhile isBrace).reverse

/-- The `hashTag` field of a limiter: `""` from `NewRedisTtlRateLimiter` (132-138). -/
def standalone : Str := []

/-- The `hashTag` field set by `NewRedisTtlRateLimiterCluster` (143-150). -/
def clusterTag (hashTag : Str) : Str := '{' :: trimBraces hashTag ++ ['}']

/-- Redis list key of a request key (193, 196-199). -/
def listKey (tag key : Str) : Str := pfx ++ key ++ tag

/-- Redis block key (194, 196-199). -/
def blockRKey (tag blockKey : Str) : Str := blockKey ++ sfx ++ tag

/-- `ShouldBlock2Context` (ttl_ratelimiter_redis.go:186-233).  `tag` is the limiter's `hashTag`; `pc` are the values
the getters return for the check in line 189 and `pu` those returned for lines 214-216 (a dynamic implementation may
return different ones); `now` is the client's clock in seconds (209), `t` the redis time in ms. -/
def shouldBlock2 (db : Db) (t : Int) (tag : Str) (pc pu : Params) (key blockKey msg : Str) (now : Int) : Db × Result :=
  if pc.notSet then (db, .zero)
  else
    let r := script1 db t (listKey tag key) (blockRKey tag blockKey) pu.capacity pu.window pu.timeout now msg
    (r.1, .ofEval r.2)

/-- `ShouldBlockContext` (158-160). -/
def shouldBlock (db : Db) (t : Int) (tag : Str) (pc pu : Params) (key msg : Str) (now : Int) : Db × Result :=
  shouldBlock2 db t tag pc pu key key msg now

/-- `IsBlockedContext` (162-184).  The limiter's hash tag is not used. -/
def isBlocked (db : Db) (t : Int) (blockKey : Str) : Result := .ofEval (script2 db t (blockKey ++ sfx))

/-- Calls of any number of limiters that share the redis database. -/
inductive Call where
  | should (tag : Str) (pc pu : Params) (key blockKey msg : Str) (now : Int)
  | isBlocked (blockKey : Str)
  /-- a `ShouldBlock2` whose redis request fails -/
  | shouldDown (pc : Params)
  /-- an `IsBlocked` whose redis request fails -/
  | isBlockedDown
deriving Repr, DecidableEq

/-- The effect and result of one call executed by redis at time `t`. -/
def Call.exec (db : Db) (t : Int) : Call → Db × Result
  | .should tag pc pu key bk msg now => shouldBlock2 db t tag pc pu key bk msg now
  | .isBlocked bk => (db, TtlRedis.isBlocked db t bk)
  | .shouldDown pc => (db, if pc.notSet then .zero else .ofEval (.error .unavailable))
  | .isBlockedDown => (db, .ofEval (.error .unavailable))

/-- One line of the history. -/
structure Event where
  time   : Int
  call   : Call
  result : Result
deriving Repr, DecidableEq

/-- A sequence of calls in the order in which redis executes them. -/
def run (db : Db) : List (Int × Call) → Db × List Event
  | [] => (db, [])
  | (t, c) :: cs =>
    let r := c.exec db t
    let r2 := run r.1 cs
    (r2.1, ⟨t, c, r.2⟩ :: r2.2)

end Gears.TtlRedis
