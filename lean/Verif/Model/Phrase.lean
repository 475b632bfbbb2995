import Verif.Model.WordCheck
import Verif.Model.UslParser

/-
Model of `ieml/usl/phrase.py`: phrases, made of three words.
-/

namespace Verif

/-- `Phrase` objects (`phrase.py` lines 14-22): `substance`, `attribute` (here `attr`), `mode` and `_str`.  `grammatical_class` stays
`None` and `syntactic_level` 0. -/
structure Phrase where
  substance : WordUsl
  attr : WordUsl
  mode : WordUsl
  text : Str

/-- `Phrase.__init__` (lines 16-22). -/
def mkPhrase (s a m : WordUsl) : Phrase :=
  { substance := s, attr := a, mode := m, text := c!"(" ++ (s.text ++ c!"*" ++ (a.text ++ c!"*" ++ m.text)) ++ c!")" }

/-- `check_phrase` on words (lines 8-11); `true` when it raises nothing. -/
def Phrase.check (p : Phrase) : Bool := p.substance.check && p.attr.check && p.mode.check

/-- `Phrase.empty` (lines 24-26): `and` stops at the first word that is not empty. -/
def Phrase.empty (p : Phrase) : Except Err Bool := do
  let a ← p.substance.empty
  if !a then return false
  let b ← p.attr.empty
  if !b then return false
  p.mode.empty

/-- One iteration of the loop filling `words` (lines 38-39). -/
def phraseStep (words : OD Str Phrase) (e : WordUsl × WordUsl × WordUsl) : Except Err (OD Str Phrase) :=
  let w := mkPhrase e.1 e.2.1 e.2.2
  OD.set words w.text w

/-- `Phrase._compute_singular_sequences` (lines 28-41).  The sequences of the words are needed in this order in both branches,
hence computed first; they are kept by the words. -/
def Phrase.singularSequences (p : Phrase) : Except Err (List Phrase) := do
  let ss ← p.substance.singularSequences
  let as ← p.attr.singularSequences
  let ms ← p.mode.singularSequences
  if ss.length = 1 ∧ as.length = 1 ∧ ms.length = 1 then return [p]
  let words ← (ss.flatMap fun s => as.flatMap fun a => ms.map fun m => (s, a, m)).foldlM phraseStep []
  return words.map (·.2)

/-- `cardinal` (`usl.py` lines 78-80). -/
def Phrase.cardinal (p : Phrase) : Except Err Nat := p.singularSequences.map List.length

/-- `USL.__lt__` of two objects without `do_lt` of their own (`usl.py` lines 32-44): `NotImplementedError` at equal levels. -/
def levelLt (a b : Nat) : Except Err Bool :=
  if a < b then .ok true else if a = b then .error .notImplemented else .ok false

/-- `syntactic_level` (`usl.py` line 9, `polymorpheme.py` line 152, `lexeme.py`, `word.py` line 45). -/
def phraseLevel : Nat := 0

/-- `p < q` of phrases. -/
def Phrase.lt (_ _ : Phrase) : Except Err Bool := levelLt phraseLevel phraseLevel

end Verif
