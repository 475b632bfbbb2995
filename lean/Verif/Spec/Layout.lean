import Verif.Spec.Word

/-
Layouts of scripts and of words: what the rules of `scripts/dictionary_tools.py` are meant to do, as their comments show
it by one line such as `E:F:.O:M:.t.- => E:.-F:.O:M:.-t.-'`.
-/

namespace Verif

/-- The layout of a script: a numbered part, an empty part, a fixed script, or three layouts. -/
inductive Layout where
  | part (i : Nat)
  | blank
  | fixed (c : Script)
  | node (s a m : Layout)

namespace Layout

/-- The numbers of the parts, from left to right. -/
def parts : Layout → List Nat
  | part i => [i]
  | blank => []
  | fixed _ => []
  | node s a m => s.parts ++ a.parts ++ m.parts

/-- `Spells p l ρ w`: the word `w` of layer `l` is laid out as `p`, with the word `ρ i` at part `i`. -/
def Spells : Layout → Nat → (Nat → Word) → Word → Prop
  | part i, l, ρ, w => w = ρ i ∧ w.length = 3 ^ l
  | blank, l, _, w => w = List.replicate (3 ^ l) none
  | fixed c, l, _, w => c.layer = l ∧ Den c w
  | node _ _ _, 0, _, _ => False
  | node s a m, l + 1, ρ, w => ∃ u v x, s.Spells l ρ u ∧ a.Spells l ρ v ∧ m.Spells l ρ x ∧ w = u ++ v ++ x

/-- `Matches p σ s`: the script `s` is laid out as `p` by products, with the script `σ i` at part `i`. -/
def Matches : Layout → (Nat → Script) → Script → Prop
  | part i, σ, s => s = σ i
  | blank, _, s => ∃ l, s = .null l
  | fixed c, _, s => s.str = c.str
  | node p q r, σ, s => ∃ x y z, s = .mult x y z ∧ p.Matches σ x ∧ q.Matches σ y ∧ r.Matches σ z

end Layout

/-- A rule: from a layout to another one, from a layer to another one. -/
structure Move where
  src : Layout
  dst : Layout

/-- The word `w` of layer `l` is moved to the word `w'` of layer `l'`. -/
def Move.Moves (r : Move) (l l' : Nat) (w w' : Word) : Prop := ∃ ρ, r.src.Spells l ρ w ∧ r.dst.Spells l' ρ w'

end Verif
