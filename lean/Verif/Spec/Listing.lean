import Verif.Spec.Database
import Verif.Model.Listing

/-
Vocabulary for the lists of expressions.
-/

namespace Verif

/-- The key has a value for some language and descriptor. -/
def Described (fs : FS) (k : Str) : Prop := ∃ l ∈ languages, ∃ d ∈ descriptorClasses, ∃ v vs, getValues fs k l d = .ok (v :: vs)

/-- What is asked of an expression: its class, and whether it is a paradigm. -/
def Asked (kind : Option Kind) (paradigm : Option Bool) (u : Parsed) : Prop :=
  (∀ k ∈ kind, u.kind = k) ∧ ∀ b ∈ paradigm, (b = true ↔ u.singular = false)

/-- A key without quotation mark and without white space at its ends. -/
structure Tidy (k : Str) : Prop where
  noQuote : NoQuote k
  ne : k ≠ []
  ends : stripBytes k = k

/-- The argument `type` for a class of expressions: the name of its folder. -/
def Kind.arg (k : Kind) : TypeArg := .text k.folder.1

end Verif
