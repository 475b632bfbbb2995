import Verif.Model.TableAccess

/-
Model of the access to a whole row of a table (`ieml/dictionary/table/table.py`).
-/

namespace Verif
open Script

namespace Table

/-- `list(t[i])` for an integer `i` (`table.py` lines 67-68), which is `t.cells[i]`: the row of a table of two dimensions.  The other tables
are not considered: `t[i]` is a script for a table of one dimension (see `getItem`), and raises for the others. -/
def getRow (t : Table) (i : Int) : Except Err (List (Option Script)) :=
  match t.kind with
  | .t2d => do
    let c ← first (← tables t.script).cells
    let r ← wrapIndex c.n0 i
    return (List.range c.n1).map fun j => c.get r j 0
  | _ => .error .unmodelled

/-- `[list(r) for r in t]`: without `__iter__`, Python asks for `t[0]`, `t[1]`, … until `IndexError` (`table.py` lines 67-68); `n` bounds the
number of rows asked for. -/
def iterRows (t : Table) : Nat → Nat → Except Err (List (List (Option Script)))
  | _, 0 => .ok []
  | k, n + 1 =>
    match t.getRow k with
    | .error e => if e = .indexError then .ok [] else .error e
    | .ok r => do
      let rs ← iterRows t (k + 1) n
      return r :: rs

end Table

end Verif
