import Verif.Model.Table
import Verif.Model.Database

/-
Model of `ieml/dictionary/dictionary.py` and `ieml/dictionary/relation/relations.py`.

A sparse matrix is the list of its positions; numpy arrays of scripts are lists.
-/

namespace Verif
open Script

/-- Membership of a script in a set of scripts: same text. -/
def memText (s : Script) (l : List Script) : Bool := l.any fun x => x.pyEq s

/-- The tables, the positions of the scripts and the inhibitions used for the computation of the relations.  The inhibitions are
by text of the root. -/
structure DictBase where
  scripts : List Script
  tables : TableStructure
  inhibitions : List (Str × List Str)

namespace DictBase

/-- `dictionary.index[s]` (`dictionary.py` line 62): the last position of the text. -/
def index (d : DictBase) (s : Script) : Except Err Nat := seqIndex d.scripts s

/-- `dictionary._inhibitions[root]`, a `defaultdict(list)`. -/
def inhibited (d : DictBase) (root : Script) (rel : Str) : Bool := ((fsGet d.inhibitions root.str).getD []).contains rel

/-- The relations of one paradigm in `_compute_contains` (`relations.py` lines 158-162). -/
def containsOf (d : DictBase) (paradigms : List Table) (p : Table) : Except Err (List (Nat × Nat)) := do
  let ss ← (← singularSequences p.script).mapM d.index
  let ks ← (← paradigms.filterM fun k => contains p.script k.script).mapM fun k => d.index k.script
  let i ← d.index p.script
  return (ss ++ ks).map fun j => (i, j)

/-- `_compute_contains` (`relations.py` lines 148-164). -/
def contains (d : DictBase) : Except Err (List (Nat × Nat)) := do
  let rs ← d.tables.roots.mapM fun r => do
    let ps := r.2.filter fun t => t.script.paradigm
    return (← ps.mapM (d.containsOf ps)).flatten
  return (List.range d.scripts.length).map (fun i => (i, i)) ++ rs.flatten

mutual
/-- `_recurse_script` (`relations.py` lines 172-184), `ix` being the position of the scripts of the dictionary.  The terms of a
sum are not sums. -/
def fathers (ix : Script → Option Nat) : Script → List Nat
  | .null _ => []
  | .prim p => (ix (.prim p)).toList
  | .mult s a m => match ix (.mult s a m) with
    | some i => [i]
    | none => fathers ix s ++ fathers ix a ++ fathers ix m
  | .add cs => fathersL ix cs
/-- The terms of a sum. -/
def fathersL (ix : Script → Option Nat) : List Script → List Nat
  | [] => []
  | c :: cs => fathers ix c ++ fathersL ix cs
end

/-- The terms over which the loop of line 191 goes. -/
def terms : Script → List Script
  | .add cs => cs
  | s => [s]

/-- The relation of line 195 for the role `r`.  The test of line 196 compares the name of the relation with the roots that have
inhibitions. -/
def father (d : DictBase) (r : Nat) (rel : Str) : Except Err (List (Nat × Nat)) := do
  let l ← d.scripts.mapM fun s => do
    let l ← (terms s).mapM fun u =>
      if u.children.length = 0 || u.isNull then return []
      else if d.inhibitions.any fun e => e.1 = rel then return []
      else do
        let c ← child u r
        let i ← d.index s
        return (fathers (fun x => (d.index x).toOption) c).map fun j => (i, j)
    return l.flatten
  return l.flatten

/-- `_opposed_sibling` (`relations.py` lines 213-216). -/
def opposedSibling (s0 s1 : Script) : Except Err Bool :=
  if s0.empty || s1.empty || s0.cardinal ≠ s1.cardinal then return false
  else do
    if !(← child s0 0).pyEq (← child s1 1) then return false
    return (← child s0 1).pyEq (← child s1 0)

/-- `_associated_sibling` (`relations.py` lines 218-222). -/
def associatedSibling (s0 s1 : Script) : Except Err Bool :=
  if s0.cardinal ≠ s1.cardinal then return false
  else do
    if !(← child s0 0).pyEq (← child s1 0) then return false
    if !(← child s0 1).pyEq (← child s1 1) then return false
    return !(← child s0 2).pyEq (← child s1 2)

/-- `_crossed_sibling` (`relations.py` lines 224-228). -/
def crossedSibling (s0 s1 : Script) : Except Err Bool :=
  if s0.layer < 2 || s0.cardinal ≠ s1.cardinal then return false
  else do
    if !(← opposedSibling (← child s0 0) (← child s1 0)) then return false
    opposedSibling (← child s0 1) (← child s1 1)

/-- The four sibling relations. -/
inductive Sibling where
  | opposed | associated | crossed | twin
  deriving DecidableEq, Repr

/-- Name of a sibling relation (`relations.py` lines 233-236). -/
def Sibling.name : Sibling → Str
  | .opposed => c!"opposed" | .associated => c!"associated" | .crossed => c!"crossed" | .twin => c!"twin"

/-- All the pairs `(l[i], l[j])` with `i < j`. -/
def pairs {α : Type} : List α → List (α × α)
  | [] => []
  | x :: l => l.map (fun y => (x, y)) ++ pairs l

/-- `permutations(l, 2)` -/
def permutations2 {α : Type} (l : List α) : List (α × α) := (pairs l).flatMap fun p => [(p.1, p.2), (p.2, p.1)]

/-- `t.script.children[0] == t.script.children[1]` (`relations.py` line 246). -/
def isTwin (t : Table) : Except Err Bool := do return (← child t.script 0).pyEq (← child t.script 1)

/-- The test of one pair for one of the relations found by pairs (`relations.py` lines 255-265). -/
def siblingTest (k : Sibling) (s0 s1 : Script) : Except Err Bool :=
  match k with
  | .opposed => opposedSibling s0 s1
  | .associated => associatedSibling s0 s1
  | .crossed => crossedSibling s0 s1
  | .twin => .ok false

/-- The relations of one root found by pairs (`relations.py` lines 232-265). -/
def pairSiblings (d : DictBase) (k : Sibling) (root : Script) (ts : List Table) : Except Err (List (Nat × Nat)) :=
  if d.inhibited root k.name then return []
  else do
    let l ← (pairs (ts.filter fun t => t.script.isMult)).mapM fun p => do
      let i0 ← d.index p.1.script
      let i1 ← d.index p.2.script
      if ← siblingTest k p.1.script p.2.script then return [(i0, i1), (i1, i0)] else return []
    return l.flatten

/-- The twins of one root (`relations.py` lines 246-247, 267-275): the groups of equal cardinal. -/
def twinSiblings (d : DictBase) (root : Script) (ts : List Table) : Except Err (List (Nat × Nat)) := do
  let tw ← (ts.filter fun t => t.script.isMult).filterM isTwin
  if d.inhibited root Sibling.twin.name then return []
  let cards := dedupBy id ((pySort (fun a b => decide (a.script.cardinal < b.script.cardinal)) tw).map fun t => t.script.cardinal)
  let l ← cards.mapM fun c => do
    let ix ← (tw.filter fun t => t.script.cardinal = c).mapM fun t => d.index t.script
    return permutations2 ix
  return l.flatten

/-- `_compute_siblings` (`relations.py` lines 206-278) for one of the relations; the roots of layer 0 have none. -/
def siblings (d : DictBase) (k : Sibling) : Except Err (List (Nat × Nat)) := do
  let l ← d.tables.roots.mapM fun r =>
    if r.1.layer = 0 then return []
    else if k = .twin then d.twinSiblings r.1 r.2
    else d.pairSiblings k r.1 r.2
  return l.flatten

/-- The scripts that contain the script at the position `i`: the row of `contained` (`relations.py` lines 116-118). -/
def containers (contains : List (Nat × Nat)) (i : Nat) : List Nat := dedupBy id ((contains.filter fun p => p.2 = i).map (·.1))

/-- The ranks of the tables of some scripts, as a set; `KeyError` when a script has no table. -/
def ranksOf (d : DictBase) (l : List Nat) : Except Err (List Nat) := do
  let r ← l.mapM fun i => match d.scripts[i]? with
    | none => .error .indexError
    | some s => match d.tables.get? s with
      | none => .error .keyError
      | some t => .ok t.rank
  return dedupBy id r

/-- One entry of the six table relations: rank and position; another rank raises `IndexError` (`relations.py` lines 128-130,
140-142). -/
def rankEntries (ranks : List Nat) (ps : List (Nat × Nat)) : Except Err (List (Nat × Nat × Nat)) := do
  let l ← ranks.mapM fun r => if r < 6 then .ok (ps.map fun p => (r, p.1, p.2)) else .error .indexError
  return l.flatten

/-- One pair of tables (`relations.py` lines 122-130): the entries and the ranks. -/
def rankPair (d : DictBase) (contains : List (Nat × Nat)) (p : Table × Table) :
    Except Err (List (Nat × Nat × Nat) × List Nat) := do
  let i0 ← d.index p.1.script
  let i1 ← d.index p.2.script
  let ranks ← d.ranksOf ((containers contains i0).filter fun i => (containers contains i1).contains i)
  return (← rankEntries ranks [(i0, i1), (i1, i0)], ranks)

/-- The ranks of one script (`relations.py` lines 134-139).  When a `KeyError` is caught the variable `ranks` keeps its last
value, and is not defined if there is none. -/
def scriptRanks (d : DictBase) (last : Option (List Nat)) (l : List Nat) : Except Err (List Nat) :=
  match d.ranksOf l with
  | .ok r => .ok (r.filter fun x => x ≠ 6)
  | .error .keyError => match last with
    | some r => .ok r
    | none => .error .nameError
  | .error e => .error e

/-- One script (`relations.py` lines 132-142). -/
def rankScript (d : DictBase) (contains : List (Nat × Nat)) (st : List (Nat × Nat × Nat) × Option (List Nat)) (t : Script) :
    Except Err (List (Nat × Nat × Nat) × Option (List Nat)) := do
  let i ← d.index t
  let ranks ← d.scriptRanks st.2 (containers contains i)
  return (st.1 ++ (← rankEntries ranks [(i, i)]), some ranks)

/-- `_compute_table_rank` (`relations.py` lines 112-145): rank and position of the entries of the six table relations. -/
def tableRank (d : DictBase) (contains : List (Nat × Nat)) : Except Err (List (Nat × Nat × Nat)) := do
  let l ← (d.tables.roots.flatMap fun r => pairs r.2).mapM (d.rankPair contains)
  let st ← d.scripts.foldlM (d.rankScript contains) ((l.map (·.1)).flatten, (l.getLast?).map (·.2))
  return st.1

end DictBase

/-- The names of the relations (`constants.py` lines 159-178). -/
inductive Rel where
  | contains | contained
  | father (role : Fin 3) | child (role : Fin 3)
  | sibling (k : DictBase.Sibling)
  | table (rank : Fin 6)
  | identity
  deriving DecidableEq, Repr

/-- `INVERSE_RELATIONS` (`constants.py` lines 188-214). -/
def Rel.inverse : Rel → Rel
  | .contains => .contained
  | .contained => .contains
  | .father r => .child r
  | .child r => .father r
  | .sibling k => .sibling k
  | .table r => .table r
  | .identity => .identity

/-- Name of the relations with the roles (`relations.py` line 195). -/
def fatherName : Fin 3 → Str
  | 0 => c!"father_substance" | 1 => c!"father_attribute" | 2 => c!"father_mode"

/-- A dictionary with its relations (`dictionary.py` lines 55-67); the positions of each relation. -/
structure Dictionary where
  base : DictBase
  roots : List Script
  relation : Rel → List (Nat × Nat)

/-- Exchange of rows and columns. -/
def transpose (l : List (Nat × Nat)) : List (Nat × Nat) := l.map fun p => (p.2, p.1)

/-- `_compute_relations` (`relations.py` lines 61-109). -/
def computeRelations (d : DictBase) : Except Err (Rel → List (Nat × Nat)) := do
  let contains ← d.contains
  let f0 ← d.father 0 (fatherName 0)
  let f1 ← d.father 1 (fatherName 1)
  let f2 ← d.father 2 (fatherName 2)
  let s0 ← d.siblings .opposed
  let s1 ← d.siblings .associated
  let s2 ← d.siblings .crossed
  let s3 ← d.siblings .twin
  let ranks ← d.tableRank contains
  let father : Fin 3 → List (Nat × Nat) := fun r => match r with | 0 => f0 | 1 => f1 | 2 => f2
  return fun rel => match rel with
    | .contains => contains
    | .contained => transpose contains
    | .father r => father r
    | .child r => transpose (father r)
    | .sibling .opposed => s0
    | .sibling .associated => s1
    | .sibling .crossed => s2
    | .sibling .twin => s3
    | .table k => (ranks.filter fun e => e.1 = k.val).map (·.2)
    | .identity => (List.range d.scripts.length).map fun i => (i, i)

/-- What is read from the structure (`dictionary.py` lines 14-18). -/
structure Reading where
  scripts : List (Str × Script)
  roots : List Script
  inhibitions : List (Str × List Str)
  ignored : List Script

/-- `value[0].lower() == 't'` -/
def isTrueValue (v : Str) : Except Err Bool :=
  match v with
  | [] => .error .indexError
  | c :: _ => .ok (c = 't' || c = 'T')

/-- One row of the structure (`dictionary.py` lines 19-34). -/
def readRow (st : Reading) (row : Str × Str × Str) : Except Err Reading :=
  match fsGet st.scripts row.1 with
  | none => .ok st
  | some p => do
    let ss ← singularSequences p
    let st := { st with scripts := ss.foldl (fun d q => fsSet d q.str q) st.scripts }
    if row.2.1 = c!"inhibition" then
      return { st with inhibitions := fsSet st.inhibitions p.str ((fsGet st.inhibitions p.str).getD [] ++ [row.2.2]) }
    else if row.2.1 = c!"is_root" then do
      if ← isTrueValue row.2.2 then return { st with roots := st.roots ++ [p] } else return st
    else if row.2.1 = c!"is_ignored" then do
      if ← isTrueValue row.2.2 then return { st with ignored := st.ignored ++ [p] } else return st
    else return st

/-- One round of the check of the roots (`dictionary.py` lines 38-41). -/
def addRoot (acc : List Script) (r : Script) : Except Err (List Script) := do
  let ss ← singularSequences r
  if ss.any fun q => memText q acc then throw .valueError else return acc ++ ss

/-- The check of the roots (`dictionary.py` lines 37-41): the singular sequences of the roots. -/
def checkRoots (roots : List Script) : Except Err (List Script) := roots.foldlM addRoot []

/-- The scripts that are not inside the roots (`dictionary.py` lines 43-45). -/
def outsideRoots (scripts : List (Str × Script)) (seqs : List Script) : Except Err (List Script) := do
  let l ← scripts.mapM fun e => do
    let ss ← singularSequences e.2
    return (e.2, ss.all fun q => memText q seqs)
  return (l.filter fun e => !e.2).map (·.1)

/-- One round of the removal of the ignored scripts (`dictionary.py` lines 47-52).  `list.remove` removes the first equal
script. -/
def removeIgnored (st : Reading) (s : Script) : Except Err Reading :=
  match fsGet st.scripts s.str with
  | none => .error .keyError
  | some _ => .ok { st with
      scripts := fsRemove st.scripts s.str
      roots := st.roots.eraseP fun r => r.pyEq s
      inhibitions := fsRemove st.inhibitions s.str }

/-- `Dictionary(paradigms, structure)` before the tables (`dictionary.py` lines 13-57). -/
def readDictionary (paradigms : List Str) (rows : List (Str × Str × Str)) : Except Err Reading := do
  let scripts ← paradigms.foldlM (fun d k => do return fsSet d k (← parseScript k)) []
  let st ← rows.foldlM readRow ⟨scripts, [], [], []⟩
  let seqs ← checkRoots st.roots
  let out ← outsideRoots st.scripts seqs
  (st.ignored ++ out).foldlM removeIgnored st

/-- The tables and the scripts that are kept (`dictionary.py` lines 57-61). -/
def dictionaryBase (o : SetOrder) (st : Reading) : Except Err DictBase := do
  let sorted := pySort lt (st.scripts.map (·.2))
  let tables ← buildTables o st.roots sorted
  return ⟨sorted.filter fun s => s.cardinal = 1 || (tables.get? s).isSome, tables, st.inhibitions⟩

/-- `Dictionary(paradigms, structure)` (`dictionary.py` lines 13-67). -/
def mkDictionary (o : SetOrder) (paradigms : List Str) (rows : List (Str × Str × Str)) : Except Err Dictionary := do
  let st ← readDictionary paradigms rows
  let base ← dictionaryBase o st
  let _ ← st.roots.mapM base.index
  let rel ← computeRelations base
  return ⟨base, st.roots, rel⟩

namespace Dictionary

/-- `item in dictionary` (`dictionary.py` lines 92-93) for a script. -/
def mem (d : Dictionary) (s : Script) : Bool := (d.base.index s).isOk

/-- `relations.object(subject, relation)` (`relations.py` lines 25-26): the positions in the row, sorted, and their scripts. -/
def object (d : Dictionary) (s : Script) (r : Rel) : Except Err (List Script) := do
  let i ← d.base.index s
  let js := pySort (fun a b => decide (a < b)) (dedupBy id (((d.relation r).filter fun p => p.1 = i).map (·.2)))
  return js.filterMap fun j => d.base.scripts[j]?

end Dictionary
end Verif
