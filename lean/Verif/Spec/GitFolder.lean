import Verif.Model.GitFolder
import Verif.Props.Transaction

/-
Specification of branches, ancestry and publication, without the functions that follow the commits or move the branches.
-/

namespace Verif

/-- `d` is `c` or one of its ancestors. -/
inductive Ancestor (commits : List Commit) : Nat → Nat → Prop where
  | refl (c : Nat) : Ancestor commits c c
  | step {c q d : Nat} {k : Commit} : commits[c]? = some k → q ∈ k.parents → Ancestor commits q d → Ancestor commits c d

/-- Parents are older than their children, as the identifier of a commit depends on those of its parents. -/
def OrderedCommits (commits : List Commit) : Prop := ∀ (c : Nat) (k : Commit), commits[c]? = some k → ∀ q ∈ k.parents, q < c

/-- A hidden file of the folder that no commit, index or program knows, and that has not the content it has in the commit `c`. -/
def InTheWay (r : Repo) (c : Nat) (p : Str) : Prop :=
  ¬Visible p ∧ fsGet r.headTree p = none ∧ fsGet r.index p = none ∧
    ∃ x y, fsGet r.work p = some x ∧ fsGet (r.treeOf c) p = some y ∧ x ≠ y

/-- The commit can be reached from a branch of the server. -/
def Published (commits : List Commit) (s : Server) (d : Nat) : Prop := ∃ b c, fsGet s.branches b = some c ∧ Ancestor commits c d

end Verif
