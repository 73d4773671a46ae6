import Verif.Confstore.Model
import Verif.Duration.Props
import Verif.Procs.UrlProps
import Verif.Rsa.Curve

/-
The store of /repo/confstore with the processors of procs.go, when processors may panic.  A panic goes through all callers to the
goroutine that made the call; it is assumed to be recovered there, and the store to be used further.

* Keys and values are byte strings.  `kv` and `kvStr` are one map here, and `kvDefault` and `kvDefaultStr`: they are written
  together, under the lock.
* `dead`: kvLock was locked by a goroutine that is gone (store.go:163-166 has no `defer`).  A call that needs it hangs.
* One call at a time; Deadlock.lean has the interleavings of the locks.
-/

namespace Gears.Confstore.Panics

open Gears.Str Gears.Rsa Gears.Url
open Gears.Procs (IntProc stringValidate boolValidate boolConvert cssValidate enumValidate enumMap)

/-- How a call ends. -/
inductive Out (α : Type) where
  | ret (a : α)
  | panic
  | hang
deriving DecidableEq, Repr

/-- A ValueProcessor (confstore/interface.go); `ret none` of `validate`: the value is valid. -/
structure PProc (V : Type) where
  validate : Bytes → Out (Option String)
  convert : Bytes → Out V

/-- The load policies (loader.go:8-11, 24-35, 58-64); `last` is `none` for the zero time. -/
inductive LoadPolicy where
  | noop
  | simple
  | spaced (minInterval : Int) (last : Option Int)
deriving DecidableEq, Repr

structure Store (V : Type) where
  proc : Bytes → Option (PProc V)
  dflt : Bytes → Option (Bytes × V)
  cur : Bytes → Option (Bytes × V)
  /-- the redis hash -/
  hash : Bytes → Option Bytes
  policy : LoadPolicy
  dead : Bool

def set {α : Type} (f : Bytes → Option α) (k : Bytes) (v : Option α) : Bytes → Option α := fun x => if x = k then v else f x

variable {V : Type}

/-- `NewStore` (store.go:24-36) -/
def new (V : Type) (policy : LoadPolicy) (hash : Bytes → Option Bytes) : Store V :=
  ⟨fun _ => none, fun _ => none, fun _ => none, hash, policy, false⟩

/-- `RegisterKey` (store.go:38-71); `true`: no error.  Both locks are released by `defer`. -/
def register (s : Store V) (k d : Bytes) (p : PProc V) : Store V × Out Bool :=
  if k = [] then (s, .ret false)
  else if s.dead then (s, .hang)
  else if (s.proc k).isSome ∨ (s.dflt k).isSome then (s, .ret false)
  else match p.validate d with
    | .panic => (s, .panic)
    | .hang => (s, .hang)
    | .ret (some _) => (s, .ret false)
    | .ret none =>
      match p.convert d with
      | .panic => (s, .panic)
      | .hang => (s, .hang)
      | .ret x => ({ s with dflt := set s.dflt k (some (d, x)), proc := set s.proc k (some p) }, .ret true)

/-- `redisPersister.Delete` (persister.go:80-83) -/
def hashDelete (h : Bytes → Option Bytes) (k : Bytes) (r : PRes) : Bytes → Option Bytes := if r.done then set h k none else h

/-- `DeregisterKey` (store.go:73-95) -/
def deregister (s : Store V) (k : Bytes) (r : PRes) : Store V × Out Unit :=
  if k = [] then (s, .ret ())
  else if s.dead then (s, .hang)
  else ({ s with proc := set s.proc k none, cur := set s.cur k none, dflt := set s.dflt k none, hash := hashDelete s.hash k r }, .ret ())

/-- `ResetKey` (store.go:255-265) -/
def reset (s : Store V) (k : Bytes) (r : PRes) : Store V × Out Unit :=
  if s.dead then (s, .hang) else ({ s with cur := set s.cur k none, hash := hashDelete s.hash k r }, .ret ())

/-- `UpdateNoPersist` (store.go:138-168); `true`: there is an error. -/
def updateNoPersist (s : Store V) (k v : Bytes) : Store V × Out Bool :=
  if k = [] then (s, .ret false)
  else match s.proc k with
    | none => (s, .ret true)
    | some p =>
      match p.validate v with
      | .panic => (s, .panic)
      | .hang => (s, .hang)
      | .ret (some _) => (s, .ret true)
      | .ret none =>
        if s.dead then (s, .hang)
        else match p.convert v with
          | .panic => ({ s with dead := true }, .panic)
          | .hang => ({ s with dead := true }, .hang)
          | .ret x => ({ s with cur := set s.cur k (some (v, x)) }, .ret false)

/-- HMSET with the pairs (persister.go:64-78) -/
def save (h : Bytes → Option Bytes) (r : PRes) : List (Bytes × Bytes) → (Bytes → Option Bytes)
  | [] => h
  | (k, v) :: l => save (if r.done then set h k (some v) else h) r l

/-- `Update` (store.go:126-136): values with an error are saved. -/
def update (s : Store V) (k v : Bytes) (r : PRes) : Store V × Out Bool :=
  match updateNoPersist s k v with
  | (s, .ret true) => ({ s with hash := save s.hash r [(k, v)] }, .ret (r = .ok))
  | (s, o) => (s, o)

/-- The first loop of `BatchUpdate` (store.go:103-108): the keys with an error. -/
def batchApply (s : Store V) : List (Bytes × Bytes) → Store V × Out (List Bytes)
  | [] => (s, .ret [])
  | (k, v) :: l =>
    match updateNoPersist s k v with
    | (s, .panic) => (s, .panic)
    | (s, .hang) => (s, .hang)
    | (s, .ret e) =>
      match batchApply s l with
      | (s, .ret errs) => (s, .ret (if e then k :: errs else errs))
      | (s, o) => (s, o)

/-- `BatchUpdate` (store.go:97-124) -/
def batchUpdate (s : Store V) (l : List (Bytes × Bytes)) (r : PRes) : Store V × Out (List Bytes) :=
  match batchApply s l with
  | (s, .ret errs) => ({ s with hash := save s.hash r (l.filter fun x => x.1 ∉ errs) }, .ret errs)
  | (s, o) => (s, o)

/-- The loop of `redisPersister.Load` (persister.go:50-55). -/
def loadPairs (s : Store V) : List (Bytes × Bytes) → Store V × Out Unit
  | [] => (s, .ret ())
  | (k, v) :: l =>
    match updateNoPersist s k v with
    | (s, .panic) => (s, .panic)
    | (s, .hang) => (s, .hang)
    | (s, .ret _) => loadPairs s l

/-- What the outside does in one call of `DoLoad`: the clock, whether redis answers, and the order in which the pairs come. -/
structure LoadIn where
  now : Int
  now' : Int
  ok : Bool
  order : List (Bytes × Bytes)

/-- `Load` (persister.go:44-58); `true`: no error -/
def load (s : Store V) (i : LoadIn) : Store V × Out Bool :=
  if !i.ok then (s, .ret false)
  else match loadPairs s i.order with
    | (s, .panic) => (s, .panic)
    | (s, .hang) => (s, .hang)
    | (s, .ret _) => (s, .ret true)

/-- The last load is less than `d` ago (loader.go:46). -/
def tooEarly (last : Option Int) (now d : Int) : Bool :=
  match last with
  | none => false
  | some t => now - d < t

/-- `DoLoad` (loader.go:16-18, 37-56, 66-68); the lock of the policy is released by `defer`. -/
def doLoad (s : Store V) (i : LoadIn) : Store V × Out Bool :=
  match s.policy with
  | .noop => (s, .ret true)
  | .simple => load s i
  | .spaced d last =>
    if d ≤ 0 then load s i
    else if tooEarly last i.now d then (s, .ret true)
    else match load s i with
      | (s, .ret true) => ({ s with policy := .spaced d (some i.now') }, .ret true)
      | (s, o) => (s, o)

/-- What a read finds (store.go:227-235, 242-251): the text and the value. -/
def found (s : Store V) (k : Bytes) : Option (Bytes × V) :=
  match s.cur k with
  | some x => some x
  | none => s.dflt k

/-- `GetValue` and `GetValueString` (store.go:224-253) -/
def get (s : Store V) (i : LoadIn) (k : Bytes) : Store V × Out (Option (Bytes × V)) :=
  match doLoad s i with
  | (s, .panic) => (s, .panic)
  | (s, .hang) => (s, .hang)
  | (s, .ret _) => if s.dead then (s, .hang) else (s, .ret (found s k))

/-- `MustGetValue` and `MustGetValueString` (store.go:204-222) -/
def mustGet (s : Store V) (i j : LoadIn) (k : Bytes) : Store V × Out (Bytes × V) :=
  match doLoad s i with
  | (s, .panic) => (s, .panic)
  | (s, .hang) => (s, .hang)
  | (s, .ret _) =>
    match get s j k with
    | (s, .panic) => (s, .panic)
    | (s, .hang) => (s, .hang)
    | (s, .ret none) => (s, .panic)
    | (s, .ret (some x)) => (s, .ret x)

/-- The loops of `BatchGetValues` and `BatchGetValueString` (store.go:174-183, 191-200); every read loads again. -/
def batchLoop (s : Store V) : List (Bytes × LoadIn) → Store V × Out (List (Bytes × Bytes × V))
  | [] => (s, .ret [])
  | (k, i) :: l =>
    if k = [] then batchLoop s l
    else match get s i k with
      | (s, .panic) => (s, .panic)
      | (s, .hang) => (s, .hang)
      | (s, .ret x) =>
        match batchLoop s l with
        | (s, .ret r) => (s, .ret (match x with | none => r | some x => (k, x) :: r))
        | (s, o) => (s, o)

/-- `BatchGetValues` and `BatchGetValueString` (store.go:170-202) -/
def batchGet (s : Store V) (i : LoadIn) (l : List (Bytes × LoadIn)) : Store V × Out (List (Bytes × Bytes × V)) :=
  match doLoad s i with
  | (s, .panic) => (s, .panic)
  | (s, .hang) => (s, .hang)
  | (s, .ret _) => batchLoop s l

/-! ## The processors of procs.go -/

/-- What `Convert` returns; `none` is a nil pointer. -/
inductive Value where
  | str (b : Bytes)
  | bool (b : Bool)
  | int (i : Int)
  | dur (d : Int)
  | url (u : Option URL)
  | priv (k : Option RsaPriv)
  | pub (k : Option RsaPub)
deriving DecidableEq

/-- The processors (procs.go:15-29, 35-37, 65-67, 231-237). -/
inductive Builtin where
  | string (lo hi : Int)
  | bool
  | int (i : IntProc)
  | duration
  | url
  | urlString
  | css
  | rsaPriv
  | rsaPub
  | enum (l : List Bytes)

/-- The `Validate` methods; the text of the errors of keys is not modelled.  `dec` is `pem.Decode`. -/
def Builtin.validate (dec : Bytes → Option Block) (b : Builtin) (v : Bytes) : Out (Option String) :=
  match b with
  | .string lo hi => .ret (stringValidate lo hi v)
  | .bool => .ret (boolValidate v)
  | .int i => .ret (i.validate v)
  | .duration => .ret (Duration.durationProc.validate v)
  | .url | .urlString => .ret (urlValidate v)
  | .css => .ret (cssValidate v)
  | .enum l => .ret (enumValidate (enumMap l) v)
  -- procs.go:184-193
  | .rsaPriv =>
    if v = [] then .ret none
    else match readPrivate dec v with
      | .ok _ => .ret none
      | .err => .ret (some "error")
      | .panic => .panic
  -- procs.go:206-215
  | .rsaPub =>
    if v = [] then .ret none
    else match readPub dec v with
      | .ok _ => .ret none
      | .err => .ret (some "error")
      | .panic => .panic

/-- The `Convert` methods. -/
def Builtin.convert (dec : Bytes → Option Block) (b : Builtin) (v : Bytes) : Out Value :=
  match b with
  | .string _ _ | .urlString | .css | .enum _ => .ret (.str v)
  | .bool => .ret (.bool (boolConvert v))
  | .int _ => .ret (.int (IntProc.convert v))
  | .duration => .ret (.dur ((Duration.durationProc.convert v).getD 0))
  | .url => .ret (.url (urlConvert v))
  -- procs.go:195-202
  | .rsaPriv =>
    if v = [] then .ret (.priv none)
    else match readPrivate dec v with
      | .ok k => .ret (.priv (some k))
      | .err => .ret (.priv none)
      | .panic => .panic
  -- procs.go:217-224
  | .rsaPub =>
    if v = [] then .ret (.pub none)
    else match readPub dec v with
      | .ok k => .ret (.pub (some k))
      | .err => .ret (.pub none)
      | .panic => .panic

def Builtin.proc (dec : Bytes → Option Block) (b : Builtin) : PProc Value := ⟨b.validate dec, b.convert dec⟩

end Gears.Confstore.Panics
