import Verif.Model.Relations

/-
Model of `scripts/export.py` (identifiers and relations) and of `scripts/version.py`.

These files import modules that the code does not have: terms and versions are elements of any types, and what is read of them
(order, script, relations, terms of a version) is given by parameters.
-/

namespace Verif

/-- The type of an exported relation (`_RELATIONS`, `export.py` lines 65-76); the others are not keys. -/
def exportedType : Rel → Except Err Str
  | .contains | .contained => .ok (c!"inclusion")
  | .father _ | .child _ => .ok (c!"etymology")
  | .sibling _ => .ok (c!"sibling")
  | .table _ | .identity => .error .keyError

/-- `MAX_TERMS_DICTIONARY` (`export.py` line 14). -/
def maxTerms : Nat := 19999

/-- The identifier of a text (`export.py` line 42); `digest` is the number of its SHA-1. -/
def drupalId (digest : Str → Nat) (t : Str) : Nat := 1000 + digest t % maxTerms

/-- `_get_drupal_utils()['all_uuid']` (`export.py` lines 41-43) for the texts of the terms: the `dict` keeps one item for each text, and
`bidict` raises `ValueDuplicationError` (here `none`) when two of them have the same identifier. -/
def drupalIds (digest : Str → Nat) (texts : List Str) : Option (List (Str × Nat)) :=
  let items := (dedupBy id texts).map fun t => (t, drupalId digest t)
  if (items.map (·.2)).Nodup then some items else none

/-- `all_uuid[t]`. -/
def drupalIdOf (ids : List (Str × Nat)) (t : Str) : Except Err Nat :=
  match ids.find? fun e => e.1 = t with
  | some e => .ok e.2
  | none => .error .keyError

section
variable {T : Type} [DecidableEq T]

/-- `relations[p].add(r)`, where `relations` is `defaultdict(set)`; sets are lists without repetition. -/
def addName (relations : List ((T × T) × List Rel)) (p : T × T) (r : Rel) : List ((T × T) × List Rel) :=
  if relations.any (fun e => decide (e.1 = p)) then
    relations.map fun e => if e.1 = p then (e.1, if r ∈ e.2 then e.2 else e.2 ++ [r]) else e
  else relations ++ [(p, [r])]

/-- `add_rel` (`export.py` lines 91-98); `lt` is the order of terms. -/
def addRelation (lt : T → T → Bool) (relations : List ((T × T) × List Rel)) (t0 t1 : T) (r : Rel) : List ((T × T) × List Rel) :=
  let p := if lt t0 t1 then (t1, t0) else (t0, t1)
  if p.1 ≠ p.2 then addName relations p r else relations

/-- The pairs of the two loops (`export.py` lines 102-103). -/
def exportPairs : List T → List (T × T)
  | [] => []
  | t :: l => (t :: l).map (fun u => (t, u)) ++ exportPairs l

/-- `relations` after the loops (`export.py` lines 102-105); `names t0 t1` is `t0.relations.to(t1, relations_types=REL)`. -/
def collectRelations (lt : T → T → Bool) (names : T → T → List Rel) (paradigm : List T) : List ((T × T) × List Rel) :=
  (exportPairs paradigm).foldl (fun acc p => (names p.1 p.2).foldl (fun acc r => addRelation lt acc p.1 p.2 r) acc) []

/-- A row of the export; the comment is always empty. -/
structure RelationRow where
  src : Nat
  dest : Nat
  name : Rel
  type : Str
  deriving DecidableEq, Repr

/-- The two rows of a relation (`export.py` lines 112-126). -/
def relationRows (text : T → Str) (ids : List (Str × Nat)) (p : T × T) (r : Rel) : Except Err (List RelationRow) := do
  let a ← drupalIdOf ids (text p.1)
  let b ← drupalIdOf ids (text p.2)
  let ty ← exportedType r
  return [⟨a, b, r, ty⟩, ⟨b, a, r.inverse, ty⟩]

/-- `res[:n]`. -/
def firstRows {α : Type} (l : List α) (n : Int) : List α := if 0 ≤ n then l.take n.toNat else l.take (l.length - (-n).toNat)

/-- `drupal_relations_dump` (`export.py` lines 79-131) for the list `paradigm` of terms (lines 82-87). -/
def relationsDump (lt : T → T → Bool) (names : T → T → List Rel) (text : T → Str) (ids : List (Str × Nat)) (paradigm : List T)
    (number : Option Int) : Except Err (List RelationRow) := do
  let rows ← ((collectRelations lt names paradigm).flatMap fun e => e.2.map fun r => (e.1, r)).mapM
    fun e => relationRows text ids e.1 e.2
  let res := rows.flatten
  return match number with
    | none => res
    | some n => if n ≠ 0 then firstRows res n else res

end

/-! ### `version.py` -/

/-- The two sets printed by `diff` (`version.py` lines 5-22), for the terms of the versions: those deleted and those added. -/
def versionDiff (terms0 terms1 : List Str) : List Str × List Str :=
  ((dedupBy id terms0).filter (· ∉ terms1), (dedupBy id terms1).filter (· ∉ terms0))

/-- `find_first_version_of_script` (`version.py` lines 25-33), from the last version seen. -/
def firstVersionFrom {V : Type} (terms : V → List Str) (sc : Str) (last : Option V) : List V → Option V
  | [] => none
  | v :: vs => if sc ∉ terms v then last else firstVersionFrom terms sc (some v) vs

/-- `find_first_version_of_script` (`version.py` lines 25-33); `versions` is `get_available_dictionary_version()`. -/
def firstVersion {V : Type} (terms : V → List Str) (versions : List V) (sc : Str) : Option V := firstVersionFrom terms sc none versions

end Verif
