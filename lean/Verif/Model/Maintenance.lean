import Verif.Model.Listing
import Verif.Model.ReadKey
import Verif.Model.WordCheck

/-
Model of the maintenance programs of `scripts/database_management` (`normalize_database.py`, `rewrite_words.py`, `remove_usl.py`) and of
`scripts/factorize_db.py`: they move the descriptors and the settings of expressions to other expressions.

The new expressions are represented by their texts.  An expression without any singular sequence is false in Python, so that
`normalize_key` does not read its text again: this case is not represented.
-/

namespace Verif

/-- A sequence of changes of the files: the files as they are left and the error that stopped it, if any. -/
def runSteps : List (FS → Except Err FS) → FS → FS × Option Err
  | [], fs => (fs, none)
  | s :: ss, fs => match s fs with
    | .error e => (fs, some e)
    | .ok fs' => runSteps ss fs'

/-- Copying the settings and the descriptors read before the transaction, in `all`, to another expression
(`normalize_database.py` lines 97-103, `rewrite_words.py` lines 131-137, `remove_usl.py` lines 109-115, `factorize_db.py` lines 48-54). -/
def copySteps (x : Ext) (all : FS) (old new : Str) : Except Err (List (FS → Except Err FS)) := do
  let settings ← structureGroups all old
  let groups ← descriptorGroups all old
  return (settings.flatMap fun g => g.2.map fun v => fun fs => addStructure x fs (some new) (some g.1) (some v)) ++
    groups.flatMap fun g => g.2.2.map fun v => fun fs => addDescriptor x fs (some new) (some g.1) (some g.2.1) v

/-- Removing an expression (`normalize_database.py` lines 106-107, and `factorize_db.py` lines 45-46 with `normalize=True`). -/
def dropSteps (x : Ext) (normalize : Bool) (old : Str) : List (FS → Except Err FS) :=
  [fun fs => removeStructure x fs (some old) none none normalize,
   fun fs => removeDescriptor x fs (some old) none none none normalize]

/-- The changes made by `normalize_database.py` (lines 93-107), `rewrite_words.py` (lines 127-141) and `remove_usl.py` (lines 105-119): the
copies first, then the removals; `toRemove` are the expressions that are removed without being moved. -/
def moveSteps (x : Ext) (all : FS) (toRemove : List Str) (m : List (Str × Str)) : Except Err (List (FS → Except Err FS)) := do
  let copies ← m.mapM fun e => copySteps x all e.1 e.2
  return copies.flatten ++ (toRemove ++ m.map (·.1)).flatMap (dropSteps x false)

/-- The changes made by `factorize_db.py` (lines 43-54): each expression is removed, then copied. -/
def factorizeSteps (x : Ext) (all : FS) (m : List (Str × Str)) : Except Err (List (FS → Except Err FS)) := do
  let moves ← m.mapM fun e => do return dropSteps x true e.1 ++ (← copySteps x all e.1 e.2)
  return moves.flatten

/-- The text an expression is given by `normalize_database.py` (lines 50-61): `none` when it cannot be parsed.  A word is simplified,
unless this raises.  `inst` is the text of an expression with decorations. -/
def normalText (inst : Expr → List (Str × Str) → Str) (s : Str) : Except Err (Option Str) :=
  match uslRead s with
  | .error e => if e = .cannotParse then .ok none else .error e
  | .ok (.word w, []) => match simplifyWord w with
    | .ok w' => .ok (some w'.text)
    | .error _ => .ok (some w.text)
  | .ok (u, []) => .ok (some u.text)
  | .ok (u, d :: ds) => .ok (some (inst u (d :: ds)))

/-- The dictionary `to_migrate` (`normalize_database.py` lines 47-70): the listed expressions with another text.  The calls of `check`
only print (lines 72-78). -/
def toMigrate (inst : Expr → List (Str × Str) → Str) : List Str → Except Err (List (Str × Str))
  | [] => .ok []
  | s :: l => do
    let t ← normalText inst s
    let r ← toMigrate inst l
    return match t with
      | none => r
      | some t => if t = s then r else (s, t) :: r

/-- `normalize_database.py` (lines 33-107) on a repository; `dictionary` is the outcome of `get_dictionary`. -/
def normalizeDatabase (x : Ext) (inst : Expr → List (Str × Str) → Str) (dictionary : FS → Except Err Unit) (exists_ : Str → Bool) (r : Repo)
    (fault : Option Fault) : Repo × Option Err :=
  let prepared : Except Err (List (FS → Except Err FS)) := do
    let _ ← getDescriptors r.work
    let _ ← getStructure r.work
    dictionary r.work
    let keys ← listKeys exists_ r.work none none
    let m ← toMigrate inst (dedupBy id keys)
    moveSteps x r.work [] m
  match prepared with
  | .error e => (r, some e)
  | .ok steps => r.transaction (runSteps steps) fault

end Verif
