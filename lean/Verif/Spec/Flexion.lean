import Verif.Model.Parser
import Verif.Spec.Word

/-
Vocabulary for the checks of flexions: the families of the flexions of each kind of role, and what is asked of a flexion.
-/

namespace Verif

/-- Duration aspects, tenses, moods, logical constructions and modes, modes of the tetrad and of the hexad. -/
def processFamilies : List Str :=
  [c!"E:F:.-t.o.-'", c!"E:M:.-O:.-t.o.-'", c!"E:.-'O:O:.-M:.-'t.o.-',", c!"E:O:O:.", c!"E:M:O:.", c!"E:.b.O:O:.-", c!"E:.b.O:M:.-"]

/-- The voices. -/
def voiceFamily : Str := c!"E:.-O:O:.-t.o.-'"

/-- The flexions of actants and of dependant qualities: definition, continuity, gender, number, quantity, logic, gradients, manners, causes,
places, groupings, adverbs and times. -/
def actantFamilies : List Str :=
  [c!"E:M:.-d.u.-'", c!"E:.-',b.-S:.U:.-'y.-'O:.-',_", c!"E:.-n.E:U:.+F:.-'", c!"E:.O:O:.-", c!"E:I:.-t.u.-'", c!"E:O:O:.", c!"E:M:O:.",
   c!"E:F:M:.", c!"E:.O:.M:O:.-", c!"E:M:.d.+M:O:.-", c!"E:.-F:.M:M:.-l.-'", c!"E:S:.j.-'M:O:.-O:.-',", c!"E:.+E:U:S:+T:.-M:M:.o.-'",
   c!"E:.O:O:.O:.-t.o.-'"]

/-- The flexions of independant qualities. -/
def qualityFamilies : List Str :=
  [c!"E:O:O:.", c!"E:M:O:.", c!"E:M:.-d.u.-'", c!"E:F:M:.", c!"E:.O:.M:O:.-", c!"E:M:.d.+M:O:.-", c!"E:.-F:.M:M:.-l.-'",
   c!"E:.+E:U:S:+T:.-M:M:.o.-'", c!"E:.O:O:.O:.-t.o.-'"]

/-- `m` has one word, which is a word of the script written `r`. -/
def OfFamily (r : Str) (m : Script) : Prop := ∃ p w, parseScript r = .ok p ∧ m.layer = p.layer ∧ Den p w ∧ ∀ v, Den m v ↔ v = w

/-- Only empty words. -/
def Void (m : Script) : Prop := ∀ w, Den m w → ∀ c ∈ w, c = none

/-- No two places of the list hold morphemes of the family. -/
def OnceAtMost (l : List Script) (r : Str) : Prop := l.Pairwise fun a b => ¬ (OfFamily r a ∧ OfFamily r b)

/-- A flexion made of morphemes of the families, at most one of each, and of empty morphemes. -/
structure FlexionOf (families : List Str) (l : List Script) : Prop where
  known : ∀ m ∈ l, Void m ∨ ∃ r ∈ families, OfFamily r m
  once : ∀ r ∈ families, OnceAtMost l r

end Verif
