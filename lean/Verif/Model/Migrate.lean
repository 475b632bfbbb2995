import Verif.Model.Rules
import Verif.Model.Maintenance
import Verif.Model.DictTransaction

/-
Model of `scripts/migrate_script.py`: the rules that move the scripts of one given root to a new root, and `migrate`, which
applies a rule to the whole dictionary.  `add_row_`, `add_row_evolution_culturel`, `add_empty_science_humaine` and
`migrate_merge`, which nothing calls, are not modelled.
-/

namespace Verif
namespace Script

/-- `a, b, c = s.children`: `ValueError` unless there are exactly three children. -/
def childrenOf (s : Script) : Except Err (Script × Script × Script) :=
  match s.children with
  | [x, y, z] => .ok (x, y, z)
  | _ => .error .valueError

/-- `set(s.singular_sequences).issubset(script(root).singular_sequences_set)`: scripts are compared by their texts
(`migrate_script.py` lines 22, 32, 42, 54, 159, 214). -/
def wordsWithin (s : Script) (root : Str) : Except Err Bool := do
  let xs ← s.singularSequences
  let ys ← (← parseScript root).singularSequences
  return xs.all fun x => ys.any fun y => y.pyEq x

/-- `migrate_sOOF` (`migrate_script.py` lines 20-28). -/
def migrateSOOF (s : Script) : Except Err Script := do
  if !(← wordsWithin s (c!"s.O:O:.-F:.-'")) then return s
  let (s, a, _) ← childrenOf s
  let (ss, sa, _) ← childrenOf s
  let x ← mOp (some ss) (some (← parseScript (c!"o.")))
  let y ← mOp (some sa)
  let x ← mOp (some x) (some y)
  mOp (some x) (some (← mOp (some a)))

/-- `migrate_EMOto` (`migrate_script.py` lines 30-38). -/
def migrateEMOto (s : Script) : Except Err Script := do
  if !(← wordsWithin s (c!"E:M:O:.t.o.-")) then return s
  let (s, a, m) ← childrenOf s
  let (ss, sa, sm) ← childrenOf s
  let x ← mOp (some (← mOp (some ss) (some sa)))
  let y ← mOp (some (← mOp (some sm)))
  let z ← mOp (some a) (some m)
  mOp (some x) (some y) (some z)

/-- `migrate_EOOMt0` (`migrate_script.py` lines 40-49). -/
def migrateEOOMt0 (s : Script) : Except Err Script := do
  if !(← wordsWithin s (c!"E:.-'O:O:.-M:.t.o.-',")) then return s
  let (s, a, _) ← childrenOf s
  let (as, aa, _) ← childrenOf a
  let (aas, aaa, aam) ← childrenOf aa
  let y ← mOp (some as) (some (← mOp (some aas)))
  let z ← mOp (some (← mOp (some aaa) (some aam)))
  mOp (some s) (some y) (some z)

/-- `migrate_EOETI` (`migrate_script.py` lines 52-58). -/
def migrateEOETI (s : Script) : Except Err Script := do
  if !(← wordsWithin s (c!"E:.O:.E:T:.+I:.-")) then return s
  let (_, a, m) ← childrenOf s
  mOp (some (← parseScript (c!"S:."))) (some a) (some m)

/-- `translate_temps` (`migrate_script.py` lines 154-163). -/
def translateTemps (s : Script) : Except Err Script := do
  if !(← wordsWithin s (c!"t.o.-n.o.-M: O:.-'")) then return s
  let (s, a, m) ← unpack s
  let x ← mOp (some s) (some a)
  mOp (some x) (some (← mOp (some m)))

/-- `migrate_tidi` (`migrate_script.py` lines 203-219). -/
def migrateTidi (s : Script) : Except Err Script := do
  if !(← wordsWithin s (c!"t.i.-d.i.-t.+M:O:.-'")) then return s
  let (s, a, m) ← unpack s
  let x ← mOp (some s) (some a)
  mOp (some x) (some (← mOp (some m)))

end Script

open Script

/-- The dictionary `to_migrate` (`migrate_script.py` lines 84-91): the scripts that the function changes, with the new ones. -/
def changedBy (f : Script → Except Err Script) : List Script → Except Err (List (Str × Str))
  | [] => .ok []
  | s :: l => do
    let t ← f s
    let r ← changedBy f l
    return if t.pyEq s then r else (s.str, t.str) :: r

/-- The changes made for one script (`migrate_script.py` lines 97-105): its settings are removed, then copied from the
database read before; then its descriptors. -/
def migrateStep (x : Ext) (all : FS) (old new : Str) : Except Err (List (FS → Except Err FS)) := do
  let settings ← structureGroups all old
  let groups ← descriptorGroups all old
  return (fun fs => removeStructure x fs (some old) none none) ::
    (settings.flatMap fun g => g.2.map fun v => fun fs => addStructure x fs (some new) (some g.1) (some v)) ++
    (fun fs => removeDescriptor x fs (some old) none none none) ::
    groups.flatMap fun g => g.2.2.map fun v => fun fs => addDescriptor x fs (some new) (some g.1) (some g.2.1) v

/-- The changes made by `migrate` (`migrate_script.py` lines 96-105). -/
def migrateSteps (x : Ext) (all : FS) (m : List (Str × Str)) : Except Err (List (FS → Except Err FS)) := do
  let moves ← m.mapM fun e => migrateStep x all e.1 e.2
  return moves.flatten

/-- `migrate` (`migrate_script.py` lines 65-105) on a repository that is already cloned; `scripts` gives the scripts of the
dictionary of the files (`get_dictionary().scripts`). -/
def migrateDatabase (x : Ext) (scripts : FS → Except Err (List Script)) (f : Script → Except Err Script) (old new : Script) (r : Repo)
    (fault : Option Fault) : Repo × Option Err :=
  let prepared : Except Err (List (FS → Except Err FS)) := do
    let t ← f old
    assertThat (t.pyEq new)
    let _ ← getDescriptors r.work
    let _ ← getStructure r.work
    let m ← changedBy f (← scripts r.work)
    migrateSteps x r.work m
  match prepared with
  | .error e => (r, some e)
  | .ok steps => r.transaction (runSteps steps) fault

end Verif
