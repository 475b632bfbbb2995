import Verif.Model.UslOrder

/-
Model of the membership and the length of USLs: `USL.__contains__`, `__len__`, `cardinal`, `is_singular`,
`singular_sequences_set` (`ieml/usl/usl.py` lines 49-57, 78-101) and `Script.__contains__` (`ieml/dictionary/script/script.py`
lines 156-166).
-/

namespace Verif

/-- The texts of `self.singular_sequences` (`usl.py` lines 82-87, `script.py` line 200 for scripts).  Two elements are equal when
their texts are (`usl.py` lines 46-51), so that the texts stand for the elements of `singular_sequences_set`; a script and a USL
of the same text are equal too, since `Script.__eq__` leaves the comparison to the USL (`script.py` lines 81-89). -/
def Expr.sequences : Expr → Except Err (List Str)
  | .script s => s.singularSequences.map (·.map Script.str)
  | .pm p => p.singularSequences.map (·.map PM.text)
  | .lexeme x => x.singularSequences.map (·.map Lexeme.text)
  | .word w => w.singularSequences.map (·.map WordUsl.text)

/-- `item in self` (`usl.py` lines 56-57; `script.py` lines 156-163, a USL is never in a script). -/
def Expr.contains : Expr → Expr → Except Err Bool
  | .script s, .script t => s.contains t
  | .script _, _ => .ok false
  | self, item => do
    let a ← item.sequences
    let b ← self.sequences
    return a.all fun t => decide (t ∈ b)

/-- `len(self)`, that is `self.cardinal` (`usl.py` lines 53-54, 78-80). -/
def Expr.length (u : Expr) : Except Err Nat := u.sequences.map List.length

/-- `self.is_singular` (`usl.py` lines 99-101). -/
def Expr.isSingular (u : Expr) : Except Err Bool := u.length.map (· == 1)

end Verif
