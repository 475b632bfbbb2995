import Verif.Model.UslTable
import Verif.Props.PolyMorpheme

/-
Specification of the tables of polymorphemes by the paths of their groups.
-/

namespace Verif
open Script

/-- The group of index `i`. -/
def partAt (p : PM) (i : GIdx) : Option Group :=
  match i.index with
  | none => none
  | some n => p.groups[n]?

/-- The groups of the rows and the other groups of the polymorpheme `p` in the table `T` with the columns of the group `i`. -/
inductive TableCase (p : PM) : Table2D → GIdx → List GIdx → List GIdx → Prop
  | rows {i j : GIdx} {G H : Group} : partAt p i = some G → partAt p j = some H → i ≠ j →
    TableCase p ⟨.pm p, [.pm i none (some G.2)], some [.pm j none (some H.2)]⟩ i [j]
      ([GIdx.g0, .g1, .g2].filter fun g => decide (g ≠ i) && decide (g ≠ j) && (partAt p g).isSome)
  | all {i : GIdx} {G : Group} : partAt p i = some G →
    TableCase p ⟨.pm p, [.pm i none (some G.2)], none⟩ i ([GIdx.g0, .g1, .g2].filter fun g => decide (g ≠ i) && (partAt p g).isSome) []

/-- The same morphemes, up to empty ones. -/
def SameMeant (l l' : List Script) : Prop := ∀ t, (∃ x, Meant l x ∧ x.str = t) ↔ ∃ x, Meant l' x ∧ x.str = t

/-- `q` has the morphemes `ms` as constants, each once, and the groups `gs`. -/
def Composed (ms : List Script) (gs : List Group) (q : PM) : Prop :=
  ∃ C, (∀ x ∈ C, Orderly x) ∧ ((C.filter fun x => x.empty = false).map str).Nodup ∧ SameMeant C ms ∧ SamePM q (mkPM C gs)

/-- The groups of `p` at the places `R`. -/
def partsAt (p : PM) (R : List GIdx) : List Group := [GIdx.g0, .g1, .g2].filterMap fun g => if g ∈ R then partAt p g else none

/-- The singular sequences of the groups of `p` at the places `R`, in some order. -/
def Variations (p : PM) (R : List GIdx) (L : List PM) : Prop := ∃ L', (mkPM [] (partsAt p R)).singularSequences = .ok L' ∧ L.Perm L'

/-- The variations `L` are in the order of the USLs that they make with the constants and the groups at `S` of `p`. -/
def InOrder (p : PM) (S : List GIdx) (L : List PM) : Prop :=
  ∃ K, List.Forall₂ (fun a k => Composed (p.constant ++ a.constant) (partsAt p S) k) L K ∧ K.Pairwise fun x y => y.lt x = false

end Verif
