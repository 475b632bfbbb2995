import Verif.Model.Cells
import Verif.Spec.Word

/-
Specification of the paradigm tables: the scripts whose table is refused, and what a table with two headers shows.
-/

namespace Verif
open Script

/-- `TooWide s`: somewhere in the construction of the tables of `s`, a product with at least two plural roles has a role
with more than 12 sequences.  The construction goes into the only plural role of a product, and into the terms of a sum
when all of them are plural. -/
inductive TooWide : Script → Prop where
  | product {s a m c : Script} : 2 ≤ ([s, a, m].filter fun c => c.cardinal ≠ 1).length → c ∈ [s, a, m] → 12 < c.cardinal →
      TooWide (.mult s a m)
  | role {s a m c : Script} : [s, a, m].filter (fun c => c.cardinal ≠ 1) = [c] → TooWide c → TooWide (.mult s a m)
  | sum {cs : List Script} {c : Script} : (∀ d ∈ cs, 1 < d.cardinal) → c ∈ cs → TooWide c → TooWide (.add cs)

/-- The word `w` belongs to the sequence in the cell `(i, j, k)`. -/
def CellDen (R : Arr) (i j k : Nat) (w : Word) : Prop := ∃ q, R.get i j k = some q ∧ Den q w

/-- `Labels R k T rows cols`: the script `T` and its two headers label the `k`-th page of the array.  Every cell is filled; `T`
has the words of all the cells of the page, the `i`-th row header the words of the `i`-th row, the `j`-th column header the
words of the `j`-th column. -/
structure Labels (R : Arr) (k : Nat) (T : Script) (rows cols : List Script) : Prop where
  filled : ∀ i < R.n0, ∀ j < R.n1, ∃ q, R.get i j k = some q ∧ Singular q
  page : ∀ w, Den T w ↔ ∃ i < R.n0, ∃ j < R.n1, CellDen R i j k w
  nrows : rows.length = R.n0
  ncols : cols.length = R.n1
  row : ∀ i x, rows[i]? = some x → ∀ w, Den x w ↔ ∃ j < R.n1, CellDen R i j k w
  col : ∀ j x, cols[j]? = some x → ∀ w, Den x w ↔ ∃ i < R.n0, CellDen R i j k w

/-- The tables of a product with several plural roles: one array, and for each of its pages a script and two headers that
label it. -/
def Grid (t : Tables) : Prop :=
  ∃ R, t.cells = [R] ∧ t.scripts.length = R.n2 ∧ t.headers.length = R.n2 ∧
    ∀ k < R.n2, ∃ T rows cols, t.scripts[k]? = some T ∧ t.headers[k]? = some [rows, cols] ∧ Labels R k T rows cols

end Verif
