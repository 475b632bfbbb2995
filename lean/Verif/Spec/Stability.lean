import Verif.Props.WordParser

/-
Specification for the texts of expressions used as keys: the expressions whose text is read back, and the same expression.
-/

namespace Verif
open Script

/-- A morpheme that does not start like an old grammatical class and is no sum of one term, unless it has a single word. -/
def CleanMorpheme (x : Script) : Prop := NotOldClass x ∧ (NotOneTermSum x ∨ Singular x)

/-- A polymorpheme of such morphemes, without empty groups. -/
structure CleanPM (p : PM) : Prop where
  constant : ∀ x ∈ p.constant, CleanMorpheme x
  groups : ∀ g ∈ p.groups, g.1 ≠ [] ∧ ∀ x ∈ g.1, CleanMorpheme x

/-- A lexeme of such polymorphemes. -/
def CleanLexeme (x : Lexeme) : Prop := CleanPM x.flexion ∧ CleanPM x.content

/-- A polymorpheme of one morpheme and no group. -/
def LonePM (p : PM) : Prop := p.groups = [] ∧ ∃ m, p.constant = [m]

/-- An expression whose text is a good key: its morphemes are clean; a polymorpheme is not empty; no actor of a word is missing. -/
def Expr.Clean : Expr → Prop
  | .script s => NotOldClass s
  | .pm p => CleanPM p ∧ p.empty = false
  | .lexeme x => CleanLexeme x
  | .word w => ∀ e ∈ w.sfun.asList w.context, ∃ x, e.2 = some x ∧ CleanLexeme x

/-- Every morpheme of a polymorpheme satisfies `P`. -/
def PM.Each (P : Script → Prop) (p : PM) : Prop := (∀ x ∈ p.constant, P x) ∧ ∀ g ∈ p.groups, ∀ x ∈ g.1, P x

/-- Every morpheme of a USL satisfies `P`. -/
def Expr.Each (P : Script → Prop) : Expr → Prop
  | .script _ => True
  | .pm p => p.Each P
  | .lexeme x => x.flexion.Each P ∧ x.content.Each P
  | .word w => ∀ e ∈ w.sfun.asList w.context, ∀ x, e.2 = some x → x.flexion.Each P ∧ x.content.Each P

/-- An expression whose text is a key of the database that leads back to it: it is clean, the morphemes of a USL have a single word
(as `check` demands), and it is no polymorpheme of one morpheme. -/
structure Expr.Key (u : Expr) : Prop where
  clean : u.Clean
  singular : u.Each Singular
  notLone : ∀ p, u = .pm p → ¬ LonePM p

/-- The same expression: the same class, the same text, and the same parts. -/
def SameExpr : Expr → Expr → Prop
  | .script s, .script t => s.str = t.str ∧ SameMeaning s t
  | .pm p, .pm q => SamePM p q
  | .lexeme x, .lexeme y => SameLexeme x y
  | .word w, .word v => SameWord w v
  | _, _ => False

/-- The characters of the texts of expressions. -/
def uslAlphabet : List Char := c!"EUASBTOMFIwoayeuijgsbthckmnpxdfl:.-',_;+m0123456789()[]!> None"

end Verif
