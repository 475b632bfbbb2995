import Verif.Model.CleanUp

/-
Vocabulary for the clean-up of translations: the pieces of a text, and the words of a piece.
-/

namespace Verif

/-- The parts of a text between the characters that satisfy `p`. -/
def segments (p : Char → Bool) : Str → List Str
  | [] => [[]]
  | c :: cs => if p c then [] :: segments p cs else
    match segments p cs with
    | h :: t => (c :: h) :: t
    | [] => [[c]]

/-- The pieces of a translation are separated by commas and bars. -/
def pieceSep (c : Char) : Bool := c = ',' || c = '|'

/-- The words of a text: the parts between white spaces that are not empty. -/
def spacedWords (s : Str) : List Str := (segments pySpace s).filter fun w => w ≠ []

/-- Words separated by one space. -/
def unwords : List Str → Str
  | [] => []
  | [w] => w
  | w :: ws => w ++ ' ' :: unwords ws

/-- All the pieces of the values, in order, each with its words separated by one space. -/
def tidyPieces (vs : List Str) : List Str := vs.flatMap fun v => (segments pieceSep v).map fun p => unwords (spacedWords p)

end Verif
