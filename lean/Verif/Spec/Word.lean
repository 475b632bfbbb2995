import Verif.Model.Script

/-
Specification of the meaning of scripts, independent of the computations of the library: a script stands for a set of
words of primitives.  A word of layer `l` has `3 ^ l` letters.
-/

namespace Verif

/-- A letter: one of the five primitives, or `none` for the empty primitive `E`. -/
abbrev Letter := Option Prim

/-- A word of letters. -/
abbrev Word := List Letter

/-- `Den s w`: the word `w` is one of the words that the script `s` stands for. -/
inductive Den : Script → Word → Prop where
  | null (l : Nat) : Den (.null l) (List.replicate (3 ^ l) none)
  | prim (p : Prim) : Den (.prim p) [some p]
  | mult {s a m : Script} {u v w : Word} : Den s u → Den a v → Den m w → Den (.mult s a m) (u ++ v ++ w)
  | add {cs : List Script} {c : Script} {w : Word} : c ∈ cs → Den c w → Den (.add cs) w

/-- A script with exactly one word. -/
def Singular (s : Script) : Prop := ∃ w, Den s w ∧ ∀ w', Den s w' → w' = w

/-- Same layer and same words. -/
def SameMeaning (s t : Script) : Prop := s.layer = t.layer ∧ ∀ w, Den s w ↔ Den t w

/-- Class of a letter: auxiliary 0, verb 1, noun 2. -/
def letterClass : Letter → Nat
  | none => 0
  | some .U | some .A => 1
  | some .S | some .B | some .T => 2

end Verif

namespace Verif

/-- In every sum inside the script, no two terms share a word. -/
inductive DisjointSums : Script → Prop where
  | null (l : Nat) : DisjointSums (.null l)
  | prim (p : Prim) : DisjointSums (.prim p)
  | mult {s a m : Script} : DisjointSums s → DisjointSums a → DisjointSums m → DisjointSums (.mult s a m)
  | add {cs : List Script} : (∀ c ∈ cs, DisjointSums c) → cs.Pairwise (fun c d => ∀ w, ¬ (Den c w ∧ Den d w)) →
      DisjointSums (.add cs)

/-- The word a missing role stands for, or a word of a role that is present. -/
def RoleDen (l : Nat) : Option Script → Word → Prop
  | some c, w => Den c w
  | none, w => w = List.replicate (3 ^ l) none

end Verif
