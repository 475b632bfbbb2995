import Verif.Model.Table
import Verif.Lemmas.ScriptDec

/-
Model of the access to the cells of a table and to the tables of a dictionary: `shape`, `rows`, `columns`, `__getitem__`, `index_of`
(`ieml/dictionary/table/table.py`) and `children` (`table_structure.py`).
-/

namespace Verif
open Script

/-- The index of Python `i` of a dimension of size `n`: a negative index counts from the end. -/
def wrapIndex (n : Nat) (i : Int) : Except Err Nat :=
  if 0 ≤ i then (if i < n then .ok i.toNat else .error .indexError)
  else if 0 ≤ n + i then .ok (n + i).toNat else .error .indexError

namespace Table

/-- `t.shape` (`table.py` lines 41-43, 163-165, 222-224, 253-255). -/
def shape (t : Table) : Except Err (List Nat) :=
  match t.kind with
  | .t2d => do
    let c ← first (← tables t.script).cells
    return [c.n0, c.n1]
  | .t1d | .cell => do
    let c ← first (← tables t.script).cells
    return [c.n0]
  | .t3d => do
    let c ← first (← tables t.script).cells
    return [c.n0, c.n1, c.n2]
  | .set => .error .valueError

/-- `t.rows` (`table.py` lines 45-51); only tables of two dimensions have this attribute. -/
def rows (t : Table) : Except Err (List Script) :=
  match t.kind with
  | .t2d => do
    let h ← first (← tables t.script).headers
    first h
  | _ => .error .attributeError

/-- `t.columns` (`table.py` lines 54-61). -/
def columns (t : Table) : Except Err (List Script) :=
  match t.kind with
  | .t2d => do
    let h ← first (← tables t.script).headers
    match h with
    | _ :: c :: _ => return c
    | _ => throw .indexError
  | _ => .error .attributeError

/-- `t[ix]` for a tuple of integers (`table.py` lines 67-68, 171-172, 246-247), with as many indexes as there are dimensions: with fewer
the result is an array, which is not modelled.  `none` is the initial `0` of the array.  The pages of a table of three dimensions are
scripts, which have no `__getitem__`. -/
def getItem (t : Table) (ix : List Int) : Except Err (Option Script) :=
  match t.kind with
  | .t2d => do
    let c ← first (← tables t.script).cells
    match ix with
    | [i, j] => return c.get (← wrapIndex c.n0 i) (← wrapIndex c.n1 j) 0
    | _ :: _ :: _ :: _ => throw .indexError
    | _ => throw .unmodelled
  | .t1d | .cell => do
    let c ← first (← tables t.script).cells
    match ix with
    | [i] => return c.get (← wrapIndex c.n0 i) 0 0
    | _ :: _ :: _ => throw .indexError
    | _ => throw .unmodelled
  | .t3d => do
    let ts := (← tables t.script).scripts
    match ix with
    | [] => throw .indexError
    | i :: _ => do
      let _ ← wrapIndex ts.length i
      throw .typeError
  | .set => .error .typeError

/-- `t.index_of(x)` for a script (`table.py` lines 70-76, 174-180); the sets of tables and the tables of three dimensions have no such
attribute. -/
def indexOf (t : Table) (x : Script) : Except Err (List Nat) :=
  match t.kind with
  | .t2d => do
    let p ← indexOf2 (← first (← tables t.script).cells) x
    return [p.1, p.2]
  | .t1d | .cell => do return [← indexOf1 (← first (← tables t.script).cells) x]
  | .t3d | .set => .error .attributeError

/-- `t.parent` (`table.py` lines 6-10). -/
def parent : Table → Option Table
  | root _ _ => none
  | sub _ _ _ p => some p

end Table

deriving instance DecidableEq for Table

/-- `tables.values()` (`table_structure.py` lines 112-115): for each script the last table. -/
def TableStructure.values (x : TableStructure) : List Table := (dedupBy str (x.all.map Table.script)).filterMap x.get?

/-- `children(table)` (`table_structure.py` lines 39-44).  Tables are compared by identity in Python; a table is here the script, the class
and the parent, which are the same for no two tables of a structure. -/
def TableStructure.children (x : TableStructure) (t : Table) : List Table := x.values.filter fun u => u.parent == some t

end Verif
