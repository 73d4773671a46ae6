import Verif.Conf.Load
import Verif.Conf.ReflectProps

/-
Model of `conf.Load` as a whole: `initStruct`, the visit of the fields (Reflect.lean), and the rest (Load.lean).
-/

namespace Gears.Conf

/-- The variable at a location; 0 if there is none. -/
def Val.int (v : Val) (loc : List Step) : Int :=
  match v.get loc with
  | some (.basic _ _ x) => x
  | _ => 0

inductive ConfRes where
  | panic
  | exit
  /-- `v`: what `initStruct` made of the value; the fields visited have become the variables in `m` -/
  | done (v : Val) (m : Mem)

/-- `Load(&v, yamlFlag)` (conf.go:30-64); `none`: `initStruct` needs more than `fuel` nested calls.  The closures of
`envResolver.init` and `flagResolver.init` visit the same fields in the same order. -/
def loadConf (env : Nat → Ty) (fuel : Nat) (w : World) (yamlFlag : Bytes) (v : Val) : Option ConfRes :=
  match initStruct env fuel v with
  | none => none
  | some v' =>
    match load w yamlFlag ((visitExportedFields v').map bindingOf)
        (fun i => match (visitExportedFields v')[i]? with | some x => v'.int x.loc | none => 0) with
    | .panic => some .panic
    | .exit => some .exit
    | .done m => some (.done v' m)

/-- What the field at a location holds afterwards (`none`: it does not exist any more). -/
def fieldAfter (v' : Val) (m : Mem) (loc : List Step) : Option Int :=
  match (visitExportedFields v').findIdx? (fun x => decide (x.loc = loc)) with
  | some i => m.view i
  | none => none

end Gears.Conf
