import Verif.Model.FromPaths

/-
Model of the function `usl` (`ieml/usl/usl.py` lines 108-181), which makes a USL from a text, a script, a USL or a list of pairs.
-/

namespace Verif
open Script

/-- An item of the iterable given to `usl`, as far as the `for p, u in usl_list` of line 146 and its tests look at it. -/
inductive CastItem where
  /-- Two objects: `none` when the first is not a `UslPath`, or the second neither a `USL` nor a `Script`. -/
  | pair (p : Option Path) (u : Option Expr)
  /-- An iterable that has not two elements: `ValueError` when unpacked. -/
  | badLength
  /-- An object that is not iterable: `TypeError` when unpacked. -/
  | notIterable

/-- The argument of `usl`.  Scripts and USLs are `Expr`; instances (`InstancedUSL`) are not modelled. -/
inductive CastArg where
  | text (s : Str)
  | expr (e : Expr)
  | items (l : List CastItem)
  /-- An object that is not iterable. -/
  | other

/-- The generator inside `all` (line 146): it stops at the first item of the wrong types. -/
def allPairs : List CastItem → Except Err Bool
  | [] => .ok true
  | .pair (some _) (some _) :: l => allPairs l
  | .pair _ _ :: _ => .ok false
  | .badLength :: _ => .error .valueError
  | .notIterable :: _ => .error .typeError

/-- `usl_from_path_values(usl_list)` (line 149): the paths and the values are parsed from their texts (`decoration/path.py` lines 695-697). -/
def pairTexts (l : List CastItem) : List (Str × Str) :=
  l.filterMap fun i => match i with
    | .pair (some p) (some u) => some (pathText p, u.text)
    | _ => none

/-- `usl(arg)` (lines 108-181).  `ord` is the order in which Python lists a set of values. -/
def castUsl (ord : List Expr → List Expr) : CastArg → Except Err Expr
  | .text s => readValue s
  | .expr (.script s) => .ok (.pm (mkPM [s] []))
  | .expr e => .ok e
  | .items [] => .ok (.pm (mkPM [] []))
  | .items l => do
    if ← allPairs l then fromPaths ord (pairTexts l) else throw .valueError
  | .other => .error .notImplemented

end Verif
