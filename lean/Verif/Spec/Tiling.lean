import Verif.Model.Cells
import Verif.Spec.Word

/-
Specification of the parts of a table: rows, columns and blocks.
-/

namespace Verif
open Script

/-- The place of a table (its first page) is used by `s`: `s` has the word of the cell. -/
def Occupied (c : Arr) (s : Script) (i j : Nat) : Prop :=
  i < c.n0 ∧ j < c.n1 ∧ ∃ y w, c.get i j 0 = some y ∧ Den y w ∧ Den s w

/-- `j` is the end of a gap of `I` on a circle of `n` places: not in `I`, but its successor is. -/
def GapEnd (n : Nat) (I : Nat → Prop) (j : Nat) : Prop := j < n ∧ ¬ I j ∧ I ((j + 1) % n)

/-- The parts of `I` on the circle start at equal distances (one part, for instance), or `I` has no gap. -/
def Spaced (n : Nat) (I : Nat → Prop) : Prop :=
  (∀ j, ¬ GapEnd n I j) ∨ ∃ d a, d ∣ n ∧ ∀ j, GapEnd n I j ↔ j < n ∧ j % d = a

/-- `s` is exactly one column or one row of the table. -/
def OneLineOf (c : Arr) (s : Script) : Prop :=
  (∃ j, ∀ i' j', Occupied c s i' j' ↔ i' < c.n0 ∧ j' = j) ∨ ∃ i, ∀ i' j', Occupied c s i' j' ↔ i' = i ∧ j' < c.n1

/-- `s` has a word in every row, or in every column. -/
def AcrossOf (c : Arr) (s : Script) : Prop := (∀ i < c.n0, ∃ j, Occupied c s i j) ∨ ∀ j < c.n1, ∃ i, Occupied c s i j

/-- `s` is made of whole rows, or of whole columns. -/
def LinesOfTable (c : Arr) (s : Script) : Prop :=
  (∃ I : Nat → Prop, ∀ i j, Occupied c s i j ↔ i < c.n0 ∧ j < c.n1 ∧ I i) ∨ ∃ J : Nat → Prop, ∀ i j, Occupied c s i j ↔ i < c.n0 ∧ j < c.n1 ∧ J j

/-- `s` is a block: some rows and some columns, at least two of each, at equal distances. -/
def BlockOf (c : Arr) (s : Script) : Prop :=
  ∃ I J : Nat → Prop, (∀ i j, Occupied c s i j ↔ i < c.n0 ∧ j < c.n1 ∧ I i ∧ J j) ∧
    (∃ i i', i < i' ∧ i' < c.n0 ∧ I i ∧ I i') ∧ (∃ j j', j < j' ∧ j' < c.n1 ∧ J j ∧ J j') ∧ Spaced c.n0 I ∧ Spaced c.n1 J

/-- `s` is an interval of a table with one column. -/
def IntervalOf (c : Arr) (s : Script) : Prop :=
  ∀ i j k, i ≤ j → j ≤ k → Occupied c s i 0 → Occupied c s k 0 → Occupied c s j 0

end Verif
