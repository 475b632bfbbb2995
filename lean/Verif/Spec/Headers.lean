import Verif.Spec.Tables

/-
Specification of the headers of the tables of any paradigm.
-/

namespace Verif
open Script

/-- The table of a line: one array of one dimension, filled, and one script which has the words of the cells and is the only header. -/
def Line (t : Tables) : Prop :=
  ∃ R T, t.cells = [R] ∧ t.scripts = [T] ∧ t.headers = [[[T]]] ∧ R.n1 = 1 ∧ R.n2 = 1 ∧
    (∀ i < R.n0, ∃ q, R.get i 0 0 = some q ∧ Singular q) ∧ ∀ w, Den T w ↔ ∃ i < R.n0, CellDen R i 0 0 w

/-- The tables are put together, in order, from grids and lines. -/
def Blocks (t : Tables) : Prop :=
  ∃ bs : List Tables, t.cells = bs.flatMap Tables.cells ∧ t.scripts = bs.flatMap Tables.scripts ∧
    t.headers = bs.flatMap Tables.headers ∧ ∀ b ∈ bs, Grid b ∨ Line b

end Verif
