import Verif.Conf.Naming

/-
Model of /repo/conf/reflect.go.

Types.  A type is a finite tree; the element types of pointers are given by number (`env`), which is how types refer to
themselves.  (Go forbids types that contain themselves without a pointer.)  `basic k named`: one of the supported
kinds; `named` says that the type is not the predeclared type itself (nor time.Duration) but declared from it, such as
`type Level int`.  `other` stands for every unsupported kind (slices, maps, int32, interfaces, …).

Values.  A value is a finite tree: two pointers to one variable, and pointer cycles, are the subject of Share.lean.  A basic
value is coded by an integer, the zero value by 0.

reflect: a value is settable (`CanSet`) if it was reached through a pointer and through exported fields only; `ro` below
is `¬ CanSet` for values reached through the pointer given to `initStruct`.  `Elem` of a nil pointer is the zero
`reflect.Value`, which is not settable.
-/

namespace Gears.Conf

inductive Kind where
  | bool | float64 | int | int64 | string | uint | uint64
  /-- the type time.Duration -/
  | duration
deriving Repr, DecidableEq

/-- The tag `yaml:"…"` of a field: the name, and whether it is `-` or has the option `inline`. -/
structure YamlTag where
  key  : Bytes := []
  skip : Bool := false
  inl  : Bool := false
deriving Repr, DecidableEq

structure FieldInfo where
  name     : Bytes
  exported : Bool
  /-- embedded -/
  anon     : Bool
  yaml     : YamlTag := {}
deriving Repr, DecidableEq

mutual
inductive Ty where
  | basic (k : Kind) (named : Bool)
  | other
  /-- pointer to type number `n` -/
  | ptr (n : Nat)
  | struct (fs : TyFields)

inductive TyFields where
  | nil
  | cons (f : FieldInfo) (t : Ty) (fs : TyFields)
end

mutual
inductive Val where
  | basic (k : Kind) (named : Bool) (v : Int)
  | other (v : Int)
  /-- nil pointer to type number `n` -/
  | nil (n : Nat)
  | ptr (v : Val)
  | struct (fs : Fields)

inductive Fields where
  | nil
  | cons (f : FieldInfo) (v : Val) (fs : Fields)
end

mutual
/-- `reflect.New(t).Elem()` -/
def zero : Ty → Val
  | .basic k named => .basic k named 0
  | .other => .other 0
  | .ptr n => .nil n
  | .struct fs => .struct (zeroFields fs)

def zeroFields : TyFields → Fields
  | .nil => .nil
  | .cons f t fs => .cons f (zero t) (zeroFields fs)
end

/-- The loop 48-57; `rec` is the recursive call, with the settability of the field. -/
def initFields (rec : Bool → Val → Option Val) : Fields → Option Fields
  | .nil => some .nil
  | .cons f v fs =>
    match rec f.exported v with
    | some v' =>
      match initFields rec fs with
      | some fs' => some (.cons f v' fs')
      | none => none
    | none => none

/-- Lines 40-57, for a value reached by `Elem` or given directly. -/
def initElem (rec : Bool → Val → Option Val) (canSet : Bool) (v : Val) : Option Val :=
  if !canSet then some v
  else match v with
    | .struct fs => (initFields rec fs).map .struct
    | v => some v

/-- `initPtrValue` (31-59); `none`: it needs more than `fuel` nested calls. -/
def initPtrValue (env : Nat → Ty) : Nat → Bool → Val → Option Val
  | 0, _, _ => none
  | fuel + 1, canSet, v =>
    match v with
    | .nil n =>
      -- 34-35
      if canSet then (initElem (initPtrValue env fuel) true (zero (env n))).map .ptr
      else some (.nil n)
    -- 37
    | .ptr w => (initElem (initPtrValue env fuel) canSet w).map .ptr
    | v => initElem (initPtrValue env fuel) canSet v

/-- `initStruct(&v)` (26-28): the pointer itself is not settable and not nil; what it points to is settable. -/
def initStruct (env : Nat → Ty) (fuel : Nat) (v : Val) : Option Val := initElem (initPtrValue env fuel) true v

/-- A step from a value into a part of it. -/
inductive Step where
  | field (i : Nat)
  | deref
deriving Repr, DecidableEq

/-- What the visitor gets: the path, the variable (its location) and its type. -/
structure Visit where
  path  : Bytes
  loc   : List Step
  kind  : Kind
  named : Bool
deriving Repr, DecidableEq

/-- 101-106, 134-144 -/
def pathExt (path : Bytes) (f : FieldInfo) : Bytes :=
  if f.anon then path
  else if path = [] then f.name
  else path ++ [dot] ++ f.name

mutual
/-- `visitExportedFieldsPath` (111-151) for a settable value; `mayDeref`: `Elem` (113-118) has not been taken yet. -/
def visit (mayDeref : Bool) (path : Bytes) (loc : List Step) : Val → List Visit
  | .nil _ => []
  | .ptr w => if mayDeref then visit false path (loc ++ [.deref]) w else []
  | .basic k named _ => [⟨path, loc, k, named⟩]
  | .struct fs => visitFields path loc 0 fs
  | .other _ => []

/-- the loops 98-107, 131-145; a field that is not exported is not settable (120-122) -/
def visitFields (path : Bytes) (loc : List Step) (i : Nat) : Fields → List Visit
  | .nil => []
  | .cons f v fs =>
    (if f.exported then visit true (pathExt path f) (loc ++ [.field i]) v else []) ++ visitFields path loc (i + 1) fs
end

/-- `visitExportedFields(&v, fn)` (80-109): the calls of `fn` in order. -/
def visitExportedFields : Val → List Visit
  | .struct fs => visitFields [] [] 0 fs
  | _ => []

end Gears.Conf
