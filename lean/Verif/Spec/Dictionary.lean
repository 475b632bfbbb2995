import Verif.Model.Parser
import Verif.Spec.Word

/-
Vocabulary for the properties of dictionaries.
-/

namespace Verif

/-- `b` has the layer of `a` and all its words are words of `a`. -/
def Within (b a : Script) : Prop := b.layer = a.layer ∧ ∀ w, Den b w → Den a w

/-- The two scripts have no word in common. -/
def Apart (a b : Script) : Prop := ∀ w, ¬ (Den a w ∧ Den b w)

/-- Every key is the text of the script it is read as. -/
def NormalKeys (ks : List Str) : Prop := ∀ k ∈ ks, ∀ s, parseScript k = .ok s → s.str = k

/-- The structure says that the attribute is true for the key. -/
def Marked (rows : List (Str × Str × Str)) (attr k : Str) : Prop :=
  ∃ c v, (k, attr, c :: v) ∈ rows ∧ (c = 't' ∨ c = 'T')

/-- The row says that the attribute is true. -/
def marks (attr : Str) (row : Str × Str × Str) : Bool :=
  row.2.1 = attr && match row.2.2 with
    | [] => false
    | c :: _ => c = 't' || c = 'T'

/-- Consistent data: the keys are texts of scripts; the attributes have a value; the roots are keys and have no word in common; an
ignored key is marked once, has several words, is not a root and lies within the roots. -/
structure ConsistentData (ks : List Str) (rows : List (Str × Str × Str)) : Prop where
  keys : ∀ k ∈ ks, ∃ s, parseScript k = .ok s ∧ s.str = k
  values : ∀ row ∈ rows, row.2.1 = c!"is_root" ∨ row.2.1 = c!"is_ignored" → row.2.2 ≠ []
  rootKeys : ∀ k, Marked rows (c!"is_root") k → k ∈ ks
  apart : ((rows.filter (marks (c!"is_root"))).map (·.1)).Pairwise fun a b =>
    ∀ s t, parseScript a = .ok s → parseScript b = .ok t → Apart s t
  once : ((rows.filter (marks (c!"is_ignored"))).map (·.1)).Nodup
  ignored : ∀ k s, Marked rows (c!"is_ignored") k → parseScript k = .ok s → s.cardinal ≠ 1 ∧ ¬ Marked rows (c!"is_root") k ∧
    ∀ w, Den s w → ∃ k' r, Marked rows (c!"is_root") k' ∧ parseScript k' = .ok r ∧ Den r w

/-- No key is marked both as a root and as ignored. -/
def NoIgnoredRoot (rows : List (Str × Str × Str)) : Prop :=
  ∀ k, ¬ (Marked rows (c!"is_root") k ∧ Marked rows (c!"is_ignored") k)

end Verif
