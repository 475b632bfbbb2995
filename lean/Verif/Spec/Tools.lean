import Verif.Model.Tools

/-
Vocabulary for the tools that generate objects: trees, and the objects of an answer.
-/

namespace Verif
variable {α : Type}

/-- The nodes reached from the root along the edges. -/
inductive ReachedFrom (root : α) (es : List (α × α × α)) : α → Prop
  | root : ReachedFrom root es root
  | step {s a m : α} : ReachedFrom root es s → (s, a, m) ∈ es → ReachedFrom root es a

/-- The destinations of the edges. -/
def dests (es : List (α × α × α)) : List α := es.map (·.2.1)

/-- A tree: every node has one edge to it, the root none, and all are reached from the root. -/
structure IsTree (root : α) (es : List (α × α × α)) : Prop where
  one : (dests es).Nodup
  noEdge : root ∉ dests es
  reached : ∀ e ∈ es, ReachedFrom root es e.1

/-- The objects of the answer. -/
def bucketObjects (nodes : List BucketNode) : List BucketNode := nodes.filter fun b => decide (b.tag = s3 (c!"Contents"))

end Verif
