import Verif.Spec.Word

/-
Shapes of sets of words, for the cases where factorisation succeeds.
-/

namespace Verif

/-- The `i`-th third of a word of layer `l + 1`. -/
def part (l i : Nat) (w : Word) : Word := (w.drop (i * 3 ^ l)).take (3 ^ l)

/-- The `i`-th thirds of the words of `W`. -/
def PartWords (l i : Nat) (W : Word → Prop) : Word → Prop := fun p => ∃ w, W w ∧ part l i w = p

/-- One of the three thirds is the same in all the words. -/
def FlatWords (l : Nat) (W : Word → Prop) : Prop := ∃ i, i < 3 ∧ ∀ w w', W w → W w' → part l i w = part l i w'

/-- Any combination of thirds of words of `W` is a word of `W`. -/
def FullWords (l : Nat) (W : Word → Prop) : Prop :=
  ∀ u v w, W u → W v → W w → W (part l 0 u ++ part l 1 v ++ part l 2 w)

/-- At every layer, the words vary in at most two of the three roles. -/
def HereditarilyFlat : Nat → (Word → Prop) → Prop
  | 0, _ => True
  | l + 1, W => FlatWords l W ∧ ∀ i, i < 3 → HereditarilyFlat l (PartWords l i W)

/-- At every layer, the words are all the combinations of their thirds, down to layers from which they vary in at most two
roles. -/
def Factorable : Nat → (Word → Prop) → Prop
  | 0, _ => True
  | l + 1, W => HereditarilyFlat (l + 1) W ∨ FullWords l W ∧ ∀ i, i < 3 → Factorable l (PartWords l i W)

/-- Scripts whose sums are all sums of primitives. -/
inductive PrimitiveSums : Script → Prop where
  | null (l : Nat) : PrimitiveSums (.null l)
  | prim (p : Prim) : PrimitiveSums (.prim p)
  | mult {s a m : Script} : PrimitiveSums s → PrimitiveSums a → PrimitiveSums m → PrimitiveSums (.mult s a m)
  | add {cs : List Script} : (Script.add cs).layer = 0 → PrimitiveSums (.add cs)

end Verif
