import Verif.Model.RulesSums
import Verif.Spec.Rules

/-
What the rules of `scripts/dictionary_tools.py` that also accept sums are meant to do.
-/

namespace Verif
open Script Layout

/-- The script of a text; used for texts that can be read. -/
def readScript (t : Str) : Script := (parseScript t).toOption.getD (.null 0)

/-- The two parts of the old root, from the comment above `translate_ocean`:
`s.-S:.U:.-'l.-S:.O:.-'n.-T:.A:.-',+M:.-'M:.-'n.-T:.A:.-',`. -/
def oceanTable : Script := readScript (c!"M:.-'M:.-'n.-T:.A:.-',")
/-- The other part. -/
def oceanWord : Script := readScript (c!"s.-S:.U:.-'l.-S:.O:.-'n.-T:.A:.-',")

/-- The last two roles exchanged: `s.-S:.U:.-'l.-S:.O:.-'n.-T:.A:.-', => s.-S:.U:.-'n.-T:.A:.-'l.-S:.O:.-',`. -/
def swapMove : Move := ⟨Rule.n3 (part 0) (part 1) (part 2), Rule.n3 (part 0) (part 2) (part 1)⟩

/-- What `translate_ocean` is meant to do with a word of the old root. -/
def OceanMoves (w w' : Word) : Prop :=
  Den oceanTable w ∧ (Rule.move .rotate).Moves 4 4 w w' ∨ Den oceanWord w ∧ swapMove.Moves 4 4 w w'

/-- The script `f.` in the middle of the substance removed: `i.f.B:.-O:.-' => i.B:.-O:.-'`. -/
def removeMove : Move := ⟨Rule.n2 (.node (part 0) (fixedOf (c!"f.")) (part 1)) (part 2), Rule.n2 (Rule.n2 (part 0) (part 1)) (part 2)⟩

end Verif
