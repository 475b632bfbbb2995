import Verif.Model.Distance

/-
Which tables USLs reach, for C108.
-/

namespace Verif

variable {T U : Type}

/-- The cell is a singular sequence of a term of the USL. -/
def HasCell (d : Lexicon T U) (u : U) (c : T) : Prop := ∃ t ∈ d.terms u, c ∈ d.cells t

/-- The table contains a cell of one of the USLs, and is not a set of tables. -/
def Reached (d : Lexicon T U) (usls : List U) (t : T) : Prop := d.tableSet t = false ∧ ∃ u ∈ usls, ∃ c, HasCell d u c ∧ t ∈ d.contained c

end Verif
