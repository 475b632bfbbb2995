import Verif.Model.PolyMorpheme
import Mathlib.Data.Finset.Card
import Mathlib.Data.List.Forall2

/-
Specification of polymorphemes: rearrangements, balanced selections.
-/

namespace Verif
open Script

/-- The morphemes of a list that are not empty. -/
def Meant (l : List Script) (x : Script) : Prop := x ∈ l ∧ x.empty = false

/-- `l'` is a rearrangement of `l`, empty morphemes being free. -/
def Rearranged (l l' : List Script) : Prop :=
  ((l.filter fun x => x.empty = false).map str).Perm ((l'.filter fun x => x.empty = false).map str)

/-- Two groups with the same multiplicity and rearranged morphemes. -/
def GroupRearranged (g g' : Group) : Prop := Rearranged g.1 g'.1 ∧ g.2 = g'.2

/-- The groups `gs'` are those of `gs` in another order, each of them rearranged. -/
def GroupsRearranged (gs gs' : List Group) : Prop := ∃ gs'', List.Forall₂ GroupRearranged gs gs'' ∧ gs''.Perm gs'

/-- The same polymorpheme: same text, same constants and groups, morpheme by morpheme. -/
structure SamePM (p q : PM) : Prop where
  text : p.text = q.text
  constant : p.constant.map str = q.constant.map str
  groups : p.groups.map (fun g => (g.1.map str, g.2)) = q.groups.map (fun g => (g.1.map str, g.2))

/-- `ml` is the size of the smallest group. -/
def SmallestSize (groups : List Group) (ml : Nat) : Prop :=
  (∃ g ∈ groups, g.1.length = ml) ∧ ∀ g ∈ groups, ml ≤ g.1.length

/-- `sel` takes `q` or `q + 1` morphemes of the group `g`; the additional one needs that the multiplicity allows it, or
that the smallest group is exhausted. -/
structure Takes (ml q : Nat) (sel : List Script) (g : Group) : Prop where
  sub : sel.Sublist g.1
  size : sel.length = q ∨ sel.length = q + 1 ∧ (q + 1 ≤ g.2 ∨ q = ml)

/-- A balanced selection: `sels` takes from every group about `q` morphemes, `q` being allowed by the size and the
multiplicity of every group. -/
structure Selection (groups : List Group) (ml q : Nat) (sels : List (List Script)) : Prop where
  small : q ≤ ml
  mult : ∀ g ∈ groups, q ≤ g.2
  takes : List.Forall₂ (Takes ml q) sels groups

/-- `m` is the polymorpheme without groups whose morphemes are those of the lists `ls`, each once. -/
structure Gathers (ls : List Script) (m : PM) : Prop where
  groups : m.groups = []
  nodup : m.constant.Pairwise fun x y => x.str ≠ y.str
  mem : ∀ t, (∃ x, Meant m.constant x ∧ x.str = t) ↔ ∃ x, Meant ls x ∧ x.str = t

/-- Number of different texts in a list of scripts. -/
def distinct (l : List Script) : Nat := (l.map str).toFinset.card

end Verif
