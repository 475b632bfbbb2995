import Verif.Model.Relations

/-
Vocabulary for the properties of the relations of a dictionary.
-/

namespace Verif
open Script

/-- `b` is among the objects of `a` for the relation `r`. -/
def Related (d : Dictionary) (r : Rel) (a b : Script) : Prop := ∃ l, d.object a r = .ok l ∧ ∃ x ∈ l, x.str = b.str

/-- The text of a child. -/
def kid (x : Script) (n : Nat) : Option Str := (x.children[n]?).map str

/-- The first two children are exchanged. -/
def Exchanged (x y : Script) : Prop :=
  x.empty = false ∧ y.empty = false ∧ x.cardinal = y.cardinal ∧ kid x 0 = kid y 1 ∧ kid x 1 = kid y 0

/-- What the children of two scripts must be for a sibling relation. -/
def SiblingRule : DictBase.Sibling → Script → Script → Prop
  | .opposed, x, y => Exchanged x y
  | .associated, x, y => x.cardinal = y.cardinal ∧ kid x 0 = kid y 0 ∧ kid x 1 = kid y 1 ∧ kid x 2 ≠ kid y 2
  | .crossed, x, y => 2 ≤ x.layer ∧ x.cardinal = y.cardinal ∧ ∀ v, v < 2 →
      ∃ c c', x.children[v]? = some c ∧ y.children[v]? = some c' ∧ Exchanged c c'
  | .twin, x, y => x.cardinal = y.cardinal ∧ kid x 0 = kid x 1 ∧ kid y 0 = kid y 1

end Verif
