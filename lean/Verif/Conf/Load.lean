import Verif.Conf.Reflect

/-
Model of `conf.Load`: /repo/conf/conf.go, env.go, flag.go, yaml.go, and of the parts of the Go package `flag` it uses.

* `initStruct` and `visitExportedFields` are modelled in Reflect.lean; here the visited fields are given as a list of
  `Binding`s, and field number `i` is a variable `cells i`.
* A value is coded by an integer; `pv k s` is what the `Set` method of a flag value of kind `k` makes of the string
  `s` (`none`: error).  After an error the process exits, so what `Set` stores in that case does not matter.
* yaml.Unmarshal is a parameter: for each field it leaves the variable alone, stores a value in it, or replaces a
  pointer on the way to it, so that the field is another variable (`some v`) or does not exist (`none`) from then on.
* `flag.CommandLine` has the error handling ExitOnError; it may contain flags of other packages (`pre`).
-/

namespace Gears.Conf

/-- `'='` -/
def equals : UInt8 := 61

/-- `"true"` -/
def trueBytes : Bytes := [116, 114, 117, 101]

structure Binding where
  flagName : Bytes
  envName  : Bytes
  kind     : Kind
  named    : Bool
deriving Repr, DecidableEq

/-- the closures in env.go:43-72 and flag.go:44-74 -/
def bindingOf (x : Visit) : Binding := ⟨flagStyle x.path, envStyle x.path, x.kind, x.named⟩

/-- What a flag sets. -/
inductive Target where
  | cell (i : Nat) (k : Kind)
  | yamlFile
  | pre (isBool : Bool)
deriving Repr, DecidableEq

def Target.isBool : Target → Bool
  | .cell _ k => k = .bool
  | .yamlFile => false
  | .pre b => b

/-- A `flag.FlagSet`: the map `formal`. -/
abbrev FlagSet := List (Bytes × Target)

def FlagSet.lookup (fs : FlagSet) (name : Bytes) : Option Target := (fs.find? (·.1 = name)).map (·.2)

/-- A name that begins with `-` or contains `=`. -/
def oddName (name : Bytes) : Bool := name.head? = some dash || name.contains equals

/-- `FlagSet.Var`: panics (`none`) if the name is defined already; since Go 1.17 (`strict`) also if it begins with `-` or
contains `=`. -/
def FlagSet.define (strict : Bool) (fs : FlagSet) (name : Bytes) (t : Target) : Option FlagSet :=
  if strict && oddName name then none
  else if (fs.lookup name).isSome then none else some ((name, t) :: fs)

inductive YamlEff where
  | keep
  | set (v : Int)
  | replace (v : Option Int)
deriving Repr, DecidableEq

structure World where
  /-- the Go version is 1.17 or later (go.mod:3 says 1.14, which is the least version allowed) -/
  strict : Bool
  /-- flags defined before `Load`, with `IsBoolFlag` -/
  pre    : List (Bytes × Bool)
  /-- whether such a flag accepts a value -/
  preOk  : Bytes → Bytes → Bool
  /-- os.Args[1:] -/
  args   : List Bytes
  /-- os.LookupEnv -/
  env    : Bytes → Option Bytes
  /-- reading and decoding a yaml file; `none`: error -/
  yaml   : Bytes → Option (Nat → YamlEff)
  /-- parsing of values -/
  pv     : Kind → Bytes → Option Int

structure Mem where
  /-- the variables bound to the flags -/
  cells    : Nat → Int
  /-- fields that are no longer these variables -/
  over     : Nat → Option (Option Int)
  yamlFile : Bytes

/-- What the fields hold. -/
def Mem.view (m : Mem) (i : Nat) : Option Int :=
  match m.over i with
  | none => some (m.cells i)
  | some v => v

def upd (c : Nat → Int) (i : Nat) (v : Int) : Nat → Int := fun j => if j = i then v else c j

/-- `flag.Value.Set(value)`; `none`: error -/
def setTarget (w : World) (name : Bytes) (t : Target) (value : Bytes) (m : Mem) : Option Mem :=
  match t with
  | .cell i k =>
    match w.pv k value with
    | some v => some { m with cells := upd m.cells i v }
    | none => none
  | .yamlFile => some { m with yamlFile := value }
  | .pre _ => if w.preOk name value then some m else none

/-- Everything before and after the first `=`. -/
def cutEq : Bytes → Bytes × Option Bytes
  | [] => ([], none)
  | b :: rest => if b = equals then ([], some rest) else (b :: (cutEq rest).1, (cutEq rest).2)

/-- The loop in `parseOne` that splits the name at the first `=` other than at the beginning. -/
def splitEq : Bytes → Bytes × Option Bytes
  | [] => ([], none)
  | b :: rest => (b :: (cutEq rest).1, (cutEq rest).2)

/-- `FlagSet.parseOne` up to the lookup: what the first argument is. -/
inductive Head where
  | stop
  | bad
  | flag (name : Bytes) (value : Option Bytes)
deriving Repr, DecidableEq

def parseHead : Bytes → Head
  | a :: b :: s =>
    if a ≠ dash then .stop
    else if b = dash then
      match s with
      | [] => .stop
      | c :: s' =>
        if c = dash ∨ c = equals then .bad
        else .flag (splitEq (c :: s')).1 (splitEq (c :: s')).2
    else if b = equals then .bad
    else .flag (splitEq (b :: s)).1 (splitEq (b :: s)).2
  | _ => .stop

/-- `FlagSet.Parse` (the flags are set in the memory on the way); `none`: error. -/
def parseArgs (w : World) (fs : FlagSet) : List Bytes → Mem → Option Mem
  | [], m => some m
  | s :: args, m =>
    match parseHead s with
    | .stop => some m
    | .bad => none
    | .flag name value =>
      match fs.lookup name with
      -- also for -h and -help, which print the usage
      | none => none
      | some t =>
        if t.isBool then
          match setTarget w name t (value.getD trueBytes) m with
          | some m' => parseArgs w fs args m'
          | none => none
        else
          match value with
          | some v =>
            match setTarget w name t v m with
            | some m' => parseArgs w fs args m'
            | none => none
          | none =>
            match args with
            | [] => none
            | v :: args' =>
              match setTarget w name t v m with
              | some m' => parseArgs w fs args' m'
              | none => none

/-- `envResolver.init` (env.go:33-75) and `flagResolver.init` (flag.go:32-76), with `name` the naming function: the
assertion `vi.(*int)` etc. panics for types declared from the supported ones; `XxxVar` stores the value that the variable
has already. -/
def defineAll (strict : Bool) (name : Binding → Bytes) : List Binding → Nat → FlagSet → Option FlagSet
  | [], _, fs => some fs
  | b :: bs, i, fs =>
    if b.named then none
    else match fs.define strict (name b) (.cell i b.kind) with
      | none => none
      | some fs' => defineAll strict name bs (i + 1) fs'

/-- `envResolver.Resolve` (env.go:77-90) -/
def resolveEnv (w : World) (fs : FlagSet) : List Bytes → Mem → Option Mem
  | [], m => some m
  | name :: names, m =>
    match w.env name with
    | none => resolveEnv w fs names m
    | some s =>
      match fs.lookup name with
      | none => none
      | some t =>
        match setTarget w name t s m with
        | some m' => resolveEnv w fs names m'
        | none => none

/-- `yamlFileResolver.Resolve` (yaml.go:28-40) -/
def resolveYaml (w : World) (m : Mem) : Option Mem :=
  match w.yaml m.yamlFile with
  | none => none
  | some eff => some { m with
      cells := fun i => match eff i with | .set v => v | _ => m.cells i
      over := fun i => match eff i with | .replace v => some v | _ => none }

inductive Res where
  | panic
  | exit
  | done (m : Mem)

/-- `Load` (conf.go:30-64) after `initStruct`. -/
def load (w : World) (yamlFlag : Bytes) (bs : List Binding) (init : Nat → Int) : Res :=
  let fs0 : FlagSet := w.pre.map fun p => (p.1, .pre p.2)
  let m0 : Mem := ⟨init, fun _ => none, []⟩
  -- 36-39
  match (if yamlFlag ≠ [] then fs0.define w.strict yamlFlag .yamlFile else some fs0) with
  | none => .panic
  | some fs1 =>
    -- 41-42
    match defineAll w.strict (·.envName) bs 0 [] with
    | none => .panic
    | some efs =>
      -- 44-46
      match defineAll w.strict (·.flagName) bs 0 fs1 with
      | none => .panic
      | some ffs =>
        -- 48
        match parseArgs w ffs w.args m0 with
        | none => .exit
        | some m1 =>
          -- 50-53
          match (if m1.yamlFile ≠ [] then resolveYaml w m1 else some m1) with
          | none => .exit
          | some m2 =>
            match resolveEnv w efs (bs.map (·.envName)) m2 with
            | none => .exit
            | some m3 =>
              match parseArgs w ffs w.args m3 with
              | none => .exit
              | some m4 => .done m4

end Gears.Conf
