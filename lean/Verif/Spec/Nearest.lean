import Verif.Model.Script

/-
Vocabulary for the relations between a script and the scripts in its roles.
-/

namespace Verif

/-- The scripts of `D` nearest to the root of the tree of a script: a sum is looked at term by term, a product of `D` is its own,
another product is looked at role by role; an empty script has none. -/
inductive Nearest (D : Script → Prop) : Script → Script → Prop
  | prim {p : Prim} : D (.prim p) → Nearest D (.prim p) (.prim p)
  | here {s a m : Script} : D (.mult s a m) → Nearest D (.mult s a m) (.mult s a m)
  | role {s a m c x : Script} : ¬ D (.mult s a m) → c ∈ [s, a, m] → Nearest D c x → Nearest D (.mult s a m) x
  | term {cs : List Script} {c x : Script} : c ∈ cs → Nearest D c x → Nearest D (.add cs) x

/-- `u` is a term of `s`: one of the terms of a sum, or `s` itself. -/
def TermOf (u s : Script) : Prop := (u = s ∧ ∀ cs, s ≠ .add cs) ∨ ∃ cs, s = .add cs ∧ u ∈ cs

/-- `c` has the role `r` in the product `u`. -/
def RoleOf (r : Fin 3) (c u : Script) : Prop := ∃ s a m, u = .mult s a m ∧ [s, a, m][r.val]? = some c

end Verif
