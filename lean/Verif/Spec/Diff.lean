import Verif.Model.Diff

/-
Specification of the comparison of two texts line by line.
-/

namespace Verif

/-- The lines of a text, with their ends; every line is ended. -/
def LinesOf (s : Str) (L : List Str) : Prop := L.flatten = s ∧ ∀ l ∈ L, ∃ b, l = b ++ ['\n'] ∧ '\n' ∉ b

/-- The lines of a hunk in the first text. -/
def oldLines (h : List DiffLine) : List Str := (h.filter fun l => l.tag ≠ .added).map (·.content)

/-- The lines of a hunk in the second text. -/
def newLines (h : List DiffLine) : List Str := (h.filter fun l => l.tag ≠ .deleted).map (·.content)

/-- The hunks turn the first list of lines into the second: between hunks nothing changes, and in every hunk something does. -/
inductive Hunks : List Str → List Str → List (List DiffLine) → Prop
  | done (s : List Str) : Hunks s s []
  | hunk (s : List Str) {h : List DiffLine} {o n : List Str} {hs : List (List DiffLine)} : (∃ l ∈ h, l.tag ≠ .context) → Hunks o n hs →
      Hunks (s ++ oldLines h ++ o) (s ++ newLines h ++ n) (h :: hs)

/-- A correct algorithm of comparison. -/
def ValidDiff (hunks : Str → Str → List (List DiffLine)) : Prop := ∀ a b La Lb, LinesOf a La → LinesOf b Lb → Hunks La Lb (hunks a b)

/-- A line that starts with the key `k` between quotation marks. -/
def KeyLine (k l : Str) : Prop := '"' ∉ k ∧ ∃ r, l = c!"\"" ++ k ++ c!"\"" ++ r

end Verif
