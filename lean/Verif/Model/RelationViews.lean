import Verif.Model.Relations

/-
Model of the views of the relations of a dictionary (`ieml/dictionary/relation/relations.py` lines 20, 28-58): the relations of a script, the
relations between two scripts, the table of all relations and the matrix.

The matrix is the sum of the matrices of the relations, whose entries are not negative: an entry is not zero when one of them has it.
-/

namespace Verif
open Script

/-- `RELATIONS` (`constants.py` lines 159-178). -/
def relationOrder : List Rel :=
  [.contains, .contained, .father 0, .child 0, .father 1, .child 1, .father 2, .child 2, .sibling .opposed, .sibling .associated, .sibling .crossed,
   .sibling .twin, .table 0, .table 1, .table 2, .table 3, .table 4, .table 5, .identity]

/-- The names in `RELATIONS` (`constants.py` lines 159-178). -/
def Rel.name : Rel → Str
  | .contains => c!"contains"
  | .contained => c!"contained"
  | .father r => fatherName r
  | .child 0 => c!"child_substance" | .child 1 => c!"child_attribute" | .child 2 => c!"child_mode"
  | .sibling .opposed => c!"opposed" | .sibling .associated => c!"associated" | .sibling .crossed => c!"crossed" | .sibling .twin => c!"twin"
  | .table 0 => c!"table_0" | .table 1 => c!"table_1" | .table 2 => c!"table_2" | .table 3 => c!"table_3" | .table 4 => c!"table_4" | .table 5 => c!"table_5"
  | .identity => c!"identity"

namespace Dictionary

/-- `relation_object(subject)` (`relations.py` lines 28-29), in the order of the names. -/
def relationObject (d : Dictionary) (s : Script) : Except Err (List (Rel × List Script)) := relationOrder.mapM fun r => do return (r, ← d.object s r)

/-- `relation(subject, object)` (`relations.py` lines 31-32): `in` compares the scripts of the array with `==`. -/
def between (d : Dictionary) (s o : Script) : Except Err (List Rel) := do
  let l ← d.relationObject s
  return (l.filter fun e => e.2.any fun x => x.pyEq o).map (·.1)

/-- The rows of one script in `pandas` (`relations.py` lines 40-44): subject, object and name. -/
def rowsOf (d : Dictionary) (s : Script) : Except Err (List (Str × Str × Str)) := do
  let l ← d.relationObject s
  return l.flatMap fun e => e.2.map fun o => (s.str, o.str, e.1.name)

/-- `pandas` (`relations.py` lines 35-50): the columns `substance`, `attribute` and `mode`. -/
def pandas (d : Dictionary) : Except Err (List (Str × Str × Str)) := do
  let l ← d.base.scripts.mapM d.rowsOf
  return l.flatten

/-- `boolean_matrix` (`relations.py` lines 20, 53-58). -/
def booleanMatrix (d : Dictionary) : List (List Bool) :=
  (List.range d.base.scripts.length).map fun i => (List.range d.base.scripts.length).map fun j =>
    relationOrder.any fun r => (d.relation r).contains (i, j)

end Dictionary
end Verif
