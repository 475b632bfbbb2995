import Verif.Model.Database
import Verif.Model.Membership
import Verif.Model.UslParser

/-
What the database uses of the expressions returned by the parser (`ieml_database.py` lines 79-86, 118-146).
-/

namespace Verif

/-- The class of an expression, as a key of `CLASS_TO_FOLDER` (`ieml_database.py` lines 79-86). -/
def Expr.kind : Expr → Kind
  | .script _ => .morpheme
  | .pm _ => .polymorpheme
  | .lexeme _ => .lexeme
  | .word _ => .word

/-- `len(ieml)` (`ieml_database.py` line 141): the cardinal of a script (`script.py` lines 165-166), the number of singular sequences of
a USL (`usl.py` lines 53-54, 78-80). -/
def Expr.len : Expr → Except Err Nat
  | .script s => .ok s.cardinal
  | u => u.length

/-- The text, the class and the singularity of an expression (`ieml_database.py` lines 118-146).  The length is taken here as soon as the
text is parsed; the database takes it when it computes a path. -/
def Expr.parsed (u : Expr) : Except Err Parsed := do
  let n ← u.len
  return ⟨u.text, u.kind, n == 1⟩

/-- The parser of the database (`descriptors.py` lines 23-28, `ieml_database.py` lines 118-122) for expressions without decorations;
`inst` is what it returns for the others, `digest` the hash of file names. -/
def readerExt (inst : Expr → List (Str × Str) → Except Err Parsed) (digest : Str → Str) : Ext where
  parse t := match uslRead t with
    | .error e => .error e
    | .ok (u, []) => u.parsed
    | .ok (u, d :: ds) => inst u (d :: ds)
  digest := digest

end Verif
