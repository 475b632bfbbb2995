import Verif.Model.PolyMorpheme

/-
Model of `ieml/usl/variation.py`: the variations of polymorphemes, and of what they inherit from `USL`.
-/

namespace Verif
open Script

/-- What `_compute_singular_sequences` returns is made of: the tuple `(NULL_SCRIPTS[0],)` as it is when there are no items
(lines 22-25), polymorphemes otherwise (line 33). -/
inductive VarSeq where
  | tuple (l : List Script)
  | pm (p : PM)

/-- `PolyMorphemeVariation` objects (`variation.py` lines 14-19): `items`, `multiplicity`, any integer, and
`_singular_sequences`, filled by the constructor.  `_str` stays the `None` of `USL.__init__` (`usl.py` lines 11-17), hence is
not a component. -/
structure PMVariation where
  items : List Script
  multiplicity : Int
  sequences : List VarSeq

/-- `PolyMorphemeVariation._compute_singular_sequences` (lines 21-33); `range(0, k)` is empty when `k` is negative. -/
def variationSequences (items : List Script) (k : Int) : List VarSeq :=
  if items.length = 0 then [.tuple [.null 0]]
  else
    let res := [Script.null 0] :: (List.range k.toNat).flatMap fun i => combs (i + 1) items
    res.map fun r => .pm (mkPM r [])

/-- `PolyMorphemeVariation.__init__` (lines 15-19). -/
def mkVariation (items : List Script) (k : Int) : PMVariation :=
  let items := pySort lt items
  { items := items, multiplicity := k, sequences := variationSequences items k }

/-- `cardinal` (`usl.py` lines 78-87): `singular_sequences` is there already. -/
def PMVariation.cardinal (v : PMVariation) : Nat := v.sequences.length

/-- `PolyMorphemeVariation.empty` (lines 35-37). -/
def PMVariation.empty (v : PMVariation) : Bool := v.items.length != 0

/-- `bool(v)` (`usl.py` lines 19-20). -/
def PMVariation.truth (v : PMVariation) : Bool := !v.empty

/-- `POLYMORPHEME_MAX_MULTIPLICITY` (`ieml/constants.py`). -/
def maxMultiplicity : Int := 3

/-- `PolyMorphemeVariation.check` on items that are scripts and a multiplicity that is an integer (lines 39-41); the answer
is returned, nothing is raised. -/
def PMVariation.check (v : PMVariation) : Bool :=
  v.items.all (fun e => e.cardinal == 1) && decide (v.multiplicity < maxMultiplicity)

/-- `PolyMorphemeVariation.do_lt` (lines 43-44): `<` of pairs of a tuple of scripts and an integer. -/
def PMVariation.lt (v w : PMVariation) : Bool :=
  if eqTuple v.items w.items then decide (v.multiplicity < w.multiplicity) else ltTuple v.items w.items

/-- `str(v)` (`usl.py` lines 29-30): `__str__` returns `None`, which `str` refuses. -/
def PMVariation.text (_ : PMVariation) : Except Err Str := .error .typeError

/-- `v == w` (`usl.py` lines 46-47) of two variations. -/
def PMVariation.eq (v w : PMVariation) : Except Err Bool := do
  let a ← v.text
  let b ← w.text
  return a == b

/-- `iter_structure` and `morphemes` (lines 46-47 and 53-55). -/
def PMVariation.morphemes (v : PMVariation) : List Script := v.items

/-- `list(v.iter_structure_path())` (lines 49-51): the bare `yield` gives `None` once for every item. -/
def PMVariation.structurePath (v : PMVariation) : List (Option (Str × Script)) := v.items.map fun _ => none

/-- `for path, item in …` of `iter_structure_path_by_type` (`usl.py` lines 65-68): unpacking `None` is a `TypeError`.  The
test of the type is true for scripts, the default type. -/
def structureByType : List (Option (Str × Script)) → Except Err (List (Str × Script))
  | [] => .ok []
  | none :: _ => .error .typeError
  | some e :: es => do
    let r ← structureByType es
    return e :: r

/-- `list(v.iter_structure_path_by_type())`. -/
def PMVariation.structureByType (v : PMVariation) : Except Err (List (Str × Script)) := Verif.structureByType v.structurePath

end Verif
