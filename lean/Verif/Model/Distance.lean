import Mathlib.Data.Finset.SymmDiff
import Mathlib.Data.Finset.Card
import Verif.Model.Py

/-
Model of `ieml/usl/distance/sort.py`, `projection.py` and `order.py`.

These files import modules, and use a name (`Usl`, `sort.py` line 34), that the rest of the code does not have: what is modelled is their logic,
with the missing parts as parameters.  A Python `set` is a `Finset`; USLs, terms and words are elements of types with an equality.
-/

namespace Verif

/-! ### `sort.py` -/

section
variable {S U : Type} [DecidableEq S] [DecidableEq U]

/-- `_proximity` (`sort.py` lines 43-53) of the sets `s0` and `s1`, as a numerator and a denominator.  The quotient of Python is a float: the
order of two of them is the order of the fractions as long as the sets have fewer than 2^26 elements. -/
def proximity (s0 s1 : Finset S) : Nat × Nat :=
  let symDiff := (symmDiff s0 s1).card
  if symDiff ≠ 0 then ((s0 ∩ s1).card, symDiff) else (s0.card + 1, 1)

/-- `<` of fractions. -/
def ltFrac (a b : Nat × Nat) : Bool := decide (a.1 * b.2 < b.1 * a.2)

/-- `QuerySort(usl).sort(collection)` (lines 36-41); `semes` is `lambda u: u.semes`. -/
def querySort (semes : U → Finset S) (usl : U) (collection : List U) : List U :=
  pySort (fun u v => ltFrac (proximity (semes usl) (semes u)) (proximity (semes usl) (semes v))) collection

/-- `indexes[u]` (lines 15-17): a later index replaces an earlier one. -/
def lastIndex (l : List U) (u : U) : Nat := l.length - 1 - l.reverse.idxOf u

/-- `order_mat[i, j] = v`; the array of integers is the function of its indexes. -/
def setCell (m : Nat → Nat → Nat) (i j v : Nat) : Nat → Nat → Nat := fun a b => if a = i ∧ b = j then v else m a b

/-- `square_order_matrix` (lines 4-26). -/
def squareOrder (semes : U → Finset S) (l : List U) : Nat → Nat → Nat :=
  l.foldl (fun m u => (querySort semes u l).zipIdx.foldl (fun m e => setCell m (lastIndex l u) (lastIndex l e.1) e.2) m) fun _ _ => 0

end

/-! ### `projection.py` -/

section
variable {T U D : Type} [DecidableEq T] [DecidableEq U] [DecidableEq D]

/-- The dictionary and the USLs, as `projection.py` reads them: `u.objects(Term)`, `t.singular_sequences`, `t.relations.contained` and
`isinstance(t, TableSet)`. -/
structure Lexicon (T U : Type) where
  terms : U → List T
  cells : T → List T
  contained : T → List T
  tableSet : T → Bool

/-- `cells_to_usls` and `tables`. -/
structure Met (T U : Type) where
  usls : List (T × List U)
  tables : List T

/-- `cells_to_usls[c]` of a `defaultdict`, or of a `dict` if present. -/
def Met.get (m : List (T × List U)) (c : T) : Option (List U) := (m.find? fun e => e.1 = c).map (·.2)

/-- `set.add`. -/
def addTo {α : Type} [DecidableEq α] (l : List α) (x : α) : List α := if x ∈ l then l else l ++ [x]

/-- `cells_to_usls[c].add(u)`. -/
def putAt (m : List (T × List U)) (c : T) (u : U) : List (T × List U) :=
  match m with
  | [] => [(c, [u])]
  | e :: m => if e.1 = c then (e.1, addTo e.2 u) :: m else e :: putAt m c u

/-- The body of the loops (lines 36-42). -/
def meet (d : Lexicon T U) (st : Met T U) (u : U) (c : T) : Met T U :=
  let tables := if ((Met.get st.usls c).getD []).isEmpty then (d.contained c).foldl addTo st.tables else st.tables
  { usls := putAt st.usls c u, tables := tables }

/-- Lines 31-42. -/
def meetAll (d : Lexicon T U) (usls : List U) : Met T U :=
  usls.foldl (fun st u => (d.terms u).foldl (fun st t => (d.cells t).foldl (fun st c => meet d st u c) st) st) { usls := [], tables := [] }

/-- `cells_to_usls[c]` (line 49) of a `dict` (`strict`) or of a `defaultdict`. -/
def lookupCell (strict : Bool) (cells : List (T × List U)) (c : T) : Except Err (List U) :=
  match Met.get cells c with
  | some us => .ok us
  | none => if strict then .error .keyError else .ok []

/-- `project_usls_on_dictionary` (lines 25-53).  An `allowed_terms` that is empty or `None` is not used; otherwise `cells_to_usls` becomes a
`dict` and a cell that is not in it raises `KeyError`. -/
def projectUsls (d : Lexicon T U) (usls : List U) (allowed : List T) : Except Err (List (T × List U)) :=
  let st := meetAll d usls
  let tables := if allowed.isEmpty then st.tables else st.tables.filter (· ∈ allowed)
  let cells := if allowed.isEmpty then st.usls else st.usls.filter fun e => e.1 ∈ allowed
  (tables.filter fun t => !d.tableSet t).mapM fun t => do
    let ls ← (d.cells t).mapM (lookupCell (!allowed.isEmpty) cells)
    return (t, dedupBy id ls.flatten)

/-- `project_usl_with_data` (lines 56-72) with the default metric: the table, the usls and the posts. `data` is `usls_data`. -/
def projectData (d : Lexicon T U) (data : List (U × List D)) : Except Err (List (T × List U × List D)) := do
  let projection ← projectUsls d (data.map (·.1)) []
  let allTerms := dedupBy id (data.flatMap fun e => (d.terms e.1).flatMap d.cells)
  let metric : T × List U × List D → Nat := fun e => e.2.2.length * (allTerms.filter fun c => c ∈ d.cells e.1).length
  let rows := projection.map fun e =>
    (e.1, e.2, dedupBy id (e.2.flatMap fun u => ((data.find? fun x => x.1 = u).map (·.2)).getD []))
  return pySort (fun a b => decide (metric b < metric a)) rows

end

/-! ### `order.py` -/

section
variable {T : Type} [DecidableEq T]

/-- A word of `order.py`: its root and its flexing. -/
structure RootWord (T : Type) where
  root : List T
  flexing : List T
deriving DecidableEq

/-- `m_opposed` (lines 17-18). -/
def mOpposed (opposed : T → T → Bool) : List T → List T → Bool
  | [a], [b] => opposed a b
  | _, _ => false

/-- `max((1,2,3), key=lambda i: len(count[i - 1]))`, or 0 if all are empty (lines 41-44, 73-76). -/
def mostOf (a b c : Nat) : Nat :=
  if a = 0 ∧ b = 0 ∧ c = 0 then 0
  else if b ≤ a ∧ c ≤ a then 1
  else if c ≤ b then 2
  else 3

/-- `count_id` (lines 25-46). -/
def countId (w0 w1 : RootWord T) : Nat :=
  mostOf (w0.root.toFinset ∩ w1.root.toFinset).card (w0.flexing.toFinset ∩ w1.flexing.toFinset).card
    ((w0.root.toFinset ∩ w1.flexing.toFinset) ∪ (w1.root.toFinset ∩ w0.flexing.toFinset)).card

/-- `count_relations` (lines 51-77); `related t` are the terms of the indices of `relations[t.index, :]`. -/
def countRelations (related : T → List T) (w0 w1 : RootWord T) : Nat :=
  let r0 := (w0.root.flatMap related).toFinset
  let f0 := (w0.flexing.flatMap related).toFinset
  mostOf (r0 ∩ w1.root.toFinset).card (f0 ∩ w1.flexing.toFinset).card ((r0 ∩ w1.flexing.toFinset) ∪ (f0 ∩ w1.root.toFinset)).card

/-- `SUB_KLASS` (line 89). -/
def subKlass (n : Nat) : Except Err Char :=
  if n = 1 then .ok '0' else if n = 2 then .ok '1' else if n = 3 then .ok '2' else .error .keyError

/-- `get_mark` (lines 91-102).  `w_twin` returns a `bool`, of which `SUB_KLASS[True]` is `SUB_KLASS[1]`. -/
def getMark (opposed : T → T → Bool) (related : T → List T) (w0 w : RootWord T) : Except Err Str :=
  if w0.root = w.root then .ok (c!"A0")
  else if w0.root = w.flexing ∧ w0.flexing = w.root then .ok (c!"A1")
  else if mOpposed opposed w0.root w.root && mOpposed opposed w0.flexing w.flexing then .ok (c!"A2")
  else if countId w0 w ≠ 0 then (subKlass (countId w0 w)).map fun c => ['B', c]
  else if countRelations related w0 w ≠ 0 then (subKlass (countRelations related w0 w)).map fun c => ['C', c]
  else if w.root = w.flexing then (subKlass 1).map fun c => ['D', c]
  else .ok (c!"E")

/-- `itertools.groupby` on pairs, by the second component. -/
def groupMarks {α : Type} : List (α × Str) → List (Str × List α)
  | [] => []
  | (x, k) :: l =>
    match groupMarks l with
    | [] => [(k, [x])]
    | (k', xs) :: gs => if k = k' then (k, x :: xs) :: gs else (k, [x]) :: (k', xs) :: gs

/-- `order_word_list` (lines 83-105), as the list of the items of the `dict`: a later group replaces an earlier one of the same mark. -/
def orderWordList (opposed : T → T → Bool) (related : T → List T) (w0 : RootWord T) (l : List (RootWord T)) : Except Err (List (Str × List (RootWord T))) := do
  let marked ← l.mapM fun w => do
    let k ← getMark opposed related w0 w
    return (w, k)
  let gs := groupMarks (pySort (fun a b => ltBytes (a.2.map Char.toNat) (b.2.map Char.toNat)) marked)
  return gs.filter fun g => (gs.reverse.find? fun h => h.1 = g.1) = some g

end

end Verif
