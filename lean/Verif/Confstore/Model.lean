/-
Model of /repo/confstore: store.go, persister.go, loader.go.

* Go maps are functions to `Option`; values of type interface{} are of a type `V`.
* A ValueProcessor is given by its two methods, which are functions (the same arguments give the same results) and do not
  panic.  `validate` gives the error, `none` if the value is valid.
* The persister is the one for redis: a hash of strings.  A command can fail, with or without having had its effect
  (`PRes`).  The noop persister is the one whose hash is always empty and whose commands do nothing.
* This file has the operations as functions, for one goroutine; Conc.lean has their steps for many goroutines.
-/

namespace Gears.Confstore

structure Proc (V : Type) where
  validate : String → Option String
  convert  : String → V

structure KVStr where
  key   : String
  value : String
deriving Repr, DecidableEq

structure KVError where
  key   : String
  value : String
  error : String
deriving Repr, DecidableEq

/-- What becomes of a command of the persister. -/
inductive PRes where
  | ok
  | err
  /-- error, but the command was executed -/
  | errDone
deriving Repr, DecidableEq

def PRes.done : PRes → Bool
  | .err => false
  | _ => true

structure State (V : Type) where
  proc   : String → Option (Proc V)
  dflt   : String → Option V
  dfltStr : String → Option String
  kv     : String → Option V
  kvStr  : String → Option String
  /-- the redis hash -/
  hash   : String → Option String

def setKey {α : Type} (f : String → Option α) (k : String) (v : Option α) : String → Option α :=
  fun x => if x = k then v else f x

/-- `NewStore` (store.go:24-36), with a persister that may hold values already. -/
def new (V : Type) (hash : String → Option String) : State V :=
  ⟨fun _ => none, fun _ => none, fun _ => none, fun _ => none, fun _ => none, hash⟩

inductive RegRes where
  | ok
  | emptyKey
  | nilProcessor
  | duplicate
  | invalid (err : String)
deriving Repr, DecidableEq

variable {V : Type}

/-- `RegisterKey` (store.go:38-71); `none` is a nil processor. -/
def register (s : State V) (k d : String) (vp : Option (Proc V)) : State V × RegRes :=
  if k = "" then (s, .emptyKey)
  else match vp with
    | none => (s, .nilProcessor)
    | some p =>
      if (s.proc k).isSome then (s, .duplicate)
      else if (s.dflt k).isSome then (s, .duplicate)
      else match p.validate d with
        | some e => (s, .invalid e)
        | none =>
          ({ s with
              dflt := setKey s.dflt k (some (p.convert d))
              dfltStr := setKey s.dfltStr k (some d)
              proc := setKey s.proc k (some p) }, .ok)

/-- `redisPersister.Delete` (persister.go:80-83) -/
def hashDelete (h : String → Option String) (k : String) (r : PRes) : String → Option String :=
  if r.done then setKey h k none else h

/-- `DeregisterKey` (store.go:73-95) -/
def deregister (s : State V) (k : String) (r : PRes) : State V :=
  if k = "" then s
  else
    { proc := setKey s.proc k none
      kv := setKey s.kv k none
      kvStr := setKey s.kvStr k none
      dflt := setKey s.dflt k none
      dfltStr := setKey s.dfltStr k none
      hash := hashDelete s.hash k r }

/-- The error of an unregistered key (store.go:151). -/
def notRegistered (k : String) : String := "key[" ++ k ++ "] not registered"

/-- `UpdateNoPersist` (store.go:138-168) -/
def updateNoPersist (s : State V) (k v : String) : State V × Option KVError :=
  if k = "" then (s, none)
  else match s.proc k with
    | none => (s, some ⟨k, v, notRegistered k⟩)
    | some p =>
      match p.validate v with
      | some e => (s, some ⟨k, v, e⟩)
      | none => ({ s with kv := setKey s.kv k (some (p.convert v)), kvStr := setKey s.kvStr k (some v) }, none)

/-- HMSET with the pairs -/
def hashSet (h : String → Option String) : List KVStr → (String → Option String)
  | [] => h
  | x :: l => hashSet (setKey h x.key (some x.value)) l

/-- `redisPersister.BatchSave` (persister.go:64-78); without pairs no command is sent. -/
def batchSave (h : String → Option String) (l : List KVStr) (r : PRes) : (String → Option String) × Bool :=
  if l = [] then (h, true)
  else (if r.done then hashSet h l else h, r = .ok)

/-- `Update` (store.go:126-136) -/
def update (s : State V) (k v : String) (r : PRes) : State V × Option KVError :=
  match updateNoPersist s k v with
  | (s1, none) => (s1, none)
  | (s1, some e) =>
    match batchSave s1.hash [⟨k, v⟩] r with
    | (h, true) => ({ s1 with hash := h }, some e)
    | (h, false) => ({ s1 with hash := h }, none)

/-- The first loop of `BatchUpdate` (store.go:103-108). -/
def batchApply (s : State V) : List KVStr → State V × List KVError
  | [] => (s, [])
  | x :: l =>
    match updateNoPersist s x.key x.value with
    | (s1, none) => batchApply s1 l
    | (s1, some e) => ((batchApply s1 l).1, e :: (batchApply s1 l).2)

/-- `BatchUpdate` (store.go:97-124) -/
def batchUpdate (s : State V) (l : List KVStr) (r : PRes) : State V × List KVError :=
  if l = [] then (s, [])
  else
    let (s1, errors) := batchApply s l
    let okKvs := l.filter fun x => !errors.any (fun e => e.key = x.key)
    ({ s1 with hash := (batchSave s1.hash okKvs r).1 }, errors)

/-- `ResetKey` (store.go:255-265) -/
def reset (s : State V) (k : String) (r : PRes) : State V :=
  { s with kv := setKey s.kv k none, kvStr := setKey s.kvStr k none, hash := hashDelete s.hash k r }

/-- The loop of `redisPersister.Load` (persister.go:50-55) over the pairs in the order of the map iteration. -/
def loadPairs (s : State V) : List KVStr → State V
  | [] => s
  | x :: l => loadPairs (updateNoPersist s x.key x.value).1 l

/-- `order` is the contents of the hash, in any order. -/
def Enumerates (order : List KVStr) (h : String → Option String) : Prop :=
  (order.map (·.key)).Nodup ∧ ∀ x : KVStr, x ∈ order ↔ h x.key = some x.value

/-- The read of `GetValue` (store.go:227-235). -/
def getValue (s : State V) (k : String) : Option V :=
  match s.kv k with
  | some v => some v
  | none => s.dflt k

/-- The read of `GetValueString` (store.go:242-251). -/
def getValueString (s : State V) (k : String) : Option String :=
  match s.kvStr k with
  | some v => some v
  | none => s.dfltStr k

/-! ## Load policy -/

/-- `defaultLoadPolicy` (loader.go:31-35); `last` is `none` for the zero time. -/
structure Policy where
  minInterval : Int
  last        : Option Int
deriving Repr, DecidableEq

/-- `NewLoadPolicy` (loader.go:24-29) -/
def Policy.new (minInterval : Int) : Policy := ⟨minInterval, none⟩

/-- What `DoLoad` does with the persister. -/
inductive LoadDone where
  | skipped
  | loaded
  | failed
deriving Repr, DecidableEq

/-- `DoLoad` (loader.go:37-56), which runs under a lock: the clock says `now` at line 45 and `now'` at line 54; `ok`: the
call of `Load` in between succeeds.  (At 46 the zero time is earlier than `now - minInterval`, which is after 1677.) -/
def Policy.doLoad (t : Policy) (now now' : Int) (ok : Bool) : Policy × LoadDone :=
  if t.minInterval ≤ 0 then (t, if ok then .loaded else .failed)
  else
    let skip := match t.last with
      | none => false
      | some l => decide (now - t.minInterval < l)
    if skip then (t, .skipped)
    else if ok then ({ t with last := some now' }, .loaded)
    else (t, .failed)

/-! ## Reading with loading -/

/-- What the persister does in one call of `DoLoad`. -/
structure LoadIn where
  now   : Int
  now'  : Int
  ok    : Bool
  order : List KVStr

/-- The store and its policy; `none` is the policy `simpleLoadPolicy` (loader.go:63-68). -/
abbrev Sys (V : Type) := State V × Option Policy

def doLoad (s : Sys V) (i : LoadIn) : Sys V × LoadDone :=
  match s.2 with
  | none => if i.ok then ((loadPairs s.1 i.order, none), .loaded) else (s, .failed)
  | some p =>
    match p.doLoad i.now i.now' i.ok with
    | (p', .loaded) => ((loadPairs s.1 i.order, some p'), .loaded)
    | (p', d) => ((s.1, some p'), d)

/-- `GetValue` (store.go:224-237) -/
def opGetValue (s : Sys V) (i : LoadIn) (k : String) : Sys V × Option V :=
  ((doLoad s i).1, getValue (doLoad s i).1.1 k)

/-- `GetValueString` (store.go:239-253) -/
def opGetValueString (s : Sys V) (i : LoadIn) (k : String) : Sys V × Option String :=
  ((doLoad s i).1, getValueString (doLoad s i).1.1 k)

/-- The loop of `BatchGetValues` (store.go:174-183); every call of `GetValue` loads again. -/
def batchGetLoop (s : Sys V) : List (String × LoadIn) → Sys V × List (String × V)
  | [] => (s, [])
  | (k, i) :: l =>
    if k = "" then batchGetLoop s l
    else
      match opGetValue s i k with
      | (s1, none) => batchGetLoop s1 l
      | (s1, some v) => ((batchGetLoop s1 l).1, (k, v) :: (batchGetLoop s1 l).2)

/-- `BatchGetValues` (store.go:170-185) -/
def opBatchGetValues (s : Sys V) (i : LoadIn) (l : List (String × LoadIn)) : Sys V × List (String × V) :=
  batchGetLoop (doLoad s i).1 l

/-- The loop of `BatchGetValueString` (store.go:191-200). -/
def batchGetStrLoop (s : Sys V) : List (String × LoadIn) → Sys V × List KVStr
  | [] => (s, [])
  | (k, i) :: l =>
    if k = "" then batchGetStrLoop s l
    else
      match opGetValueString s i k with
      | (s1, none) => batchGetStrLoop s1 l
      | (s1, some v) => ((batchGetStrLoop s1 l).1, ⟨k, v⟩ :: (batchGetStrLoop s1 l).2)

/-- `BatchGetValueString` (store.go:187-202) -/
def opBatchGetValueString (s : Sys V) (i : LoadIn) (l : List (String × LoadIn)) : Sys V × List KVStr :=
  batchGetStrLoop (doLoad s i).1 l

/-- `MustGetValue` (store.go:204-212); `none`: panic -/
def opMustGetValue (s : Sys V) (i j : LoadIn) (k : String) : Sys V × Option V := opGetValue (doLoad s i).1 j k

/-- `MustGetValueString` (store.go:214-222); `none`: panic -/
def opMustGetValueString (s : Sys V) (i j : LoadIn) (k : String) : Sys V × Option String :=
  opGetValueString (doLoad s i).1 j k

end Gears.Confstore
