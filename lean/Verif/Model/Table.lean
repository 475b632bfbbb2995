import Verif.Model.Cells
import Verif.Model.Parser

/-
Model of `ieml/dictionary/table/table.py` and `table_structure.py`: the tables of the paradigms of a dictionary.

Tables are compared by identity in Python.  Sets of tables are lists here; the order in which Python iterates over sets of
scripts and tables is a parameter (`SetOrder`).
-/

namespace Verif
open Script

/-- The classes of tables (`table.py` lines 26, 154, 193, 203, 245). -/
inductive TableKind where
  | cell | t1d | t2d | t3d | set
  deriving DecidableEq, Repr

/-- A table: with `parent=None`, or with a parent (`table.py` lines 6-10). -/
inductive Table where
  | root (script : Script) (kind : TableKind)
  | sub (script : Script) (kind : TableKind) (regular : Bool) (parent : Table)
  deriving Repr

namespace Table

/-- `t.script` -/
def script : Table → Script
  | root s _ => s
  | sub s _ _ _ => s

/-- The class of the table. -/
def kind : Table → TableKind
  | root _ k => k
  | sub _ k _ _ => k

/-- `isinstance(t, TableSet)`; `Table3D` is a subclass (`table.py` line 245). -/
def isSet (t : Table) : Bool := t.kind = .set || t.kind = .t3d

/-- `t.rank` (`table.py` lines 12-23, and 198-200 for cells). -/
def rank : Table → Nat
  | root _ k => if k = .cell then 6 else 0
  | sub _ k regular p =>
    if k = .cell then 6
    else if p.isSet then max p.rank 1
    else if regular then max p.rank 1 + 2
    else max p.rank 1 + 1

end Table

/-- `x[0]` -/
def first {α : Type} (l : List α) : Except Err α :=
  match l with
  | [] => .error .indexError
  | x :: _ => .ok x

/-- `table_class(script)` (`table.py` lines 258-274). -/
def tableClass (s : Script) : Except Err TableKind :=
  if s.cardinal = 1 then .ok .cell
  else do
    let t ← tables s
    if t.scripts.length = 1 then do
      let c ← first t.cells
      match ([c.n0, c.n1, c.n2].filter fun n => n ≠ 1).length with
      | 1 => return .t1d
      | 2 => return .t2d
      | _ => throw .valueError
    else if t.cells.length = 1 then return .t3d
    else return .set

/-- The checks of the constructors (`table.py` lines 30-33 and 207-209). -/
def checkTable (s : Script) (k : TableKind) : Except Err Unit :=
  match k with
  | .t2d => do
    let t ← tables s
    let s0 ← first t.scripts
    let c ← first t.cells
    if !s0.pyEq s || c.n2 ≠ 1 || c.n1 = 1 then throw .valueError
  | .t3d | .set => do
    let t ← tables s
    if t.scripts.length = 1 then throw .valueError
  | _ => return ()

/-- `table_class(root)(root, parent=None)` (`table_structure.py` line 51). -/
def mkRoot (s : Script) : Except Err Table := do
  let k ← tableClass s
  checkTable s k
  return .root s k

/-- `table_class(s)(script=s, parent=parent, regular=regular)` (`table_structure.py` lines 82-84). -/
def mkSub (s : Script) (regular : Bool) (parent : Table) : Except Err Table := do
  let k ← tableClass s
  checkTable s k
  return .sub s k regular parent

/-- `self._index[item]` of a two dimensional table (`table.py` lines 70-76): the position in `cells[0][:, :, 0]`, compared by
text, the last one when there are several. -/
def indexOf2 (c : Arr) (x : Script) : Except Err (Nat × Nat) :=
  match ((List.range c.n0).flatMap fun i => (List.range c.n1).map fun j => (i, j)).reverse.find? fun p =>
      match c.get p.1 p.2 0 with
      | some y => y.pyEq x
      | none => false with
  | some p => .ok p
  | none => .error .keyError

/-- `self._index[item]` of a one dimensional table (`table.py` lines 174-180): the position in `cells[0][:, 0, 0]`. -/
def indexOf1 (c : Arr) (x : Script) : Except Err Nat :=
  match (List.range c.n0).reverse.find? fun i =>
      match c.get i 0 0 with
      | some y => y.pyEq x
      | none => false with
  | some i => .ok i
  | none => .error .keyError

/-- One dimension of `is_connexe_tilling` (`table.py` lines 88-105): `n` is the size of the dimension, `l` the positions. -/
def tilingDim (n : Nat) (l : List Nat) : Bool :=
  let indexes := dedupBy id l
  let missing := (List.range n).filter fun j => !indexes.contains j
  let transitions := missing.filter fun j => !missing.contains ((j + 1) % n)
  let step := n / transitions.length
  if transitions.length > 1 && transitions.any fun j => !transitions.contains ((j + step) % n) then false
  else decide (2 ≤ indexes.length)

/-- `is_connexe_tilling(coords)` (`table.py` lines 84-110). -/
def connexeTiling (n0 n1 : Nat) (coords : List (Nat × Nat)) : Bool :=
  tilingDim n0 (coords.map (·.1)) && tilingDim n1 (coords.map (·.2)) &&
    coords.length == (dedupBy id (coords.map (·.1))).length * (dedupBy id (coords.map (·.2))).length

/-- `is_dim_subset(coords)` (`table.py` lines 112-131). -/
def dimSubset (n0 n1 : Nat) (coords : List (Nat × Nat)) : Bool × Nat :=
  let m0 := (dedupBy id (coords.map (·.1))).length
  let m1 := (dedupBy id (coords.map (·.2))).length
  if m0 = n0 then (true, m1)
  else if m1 = n1 then (true, m0)
  else (false, 0)

namespace Table

/-- `Table2D.accept_script` (`table.py` lines 78-151). -/
def accept2 (t : Table) (s : Script) : Except Err (Bool × Bool) := do
  if !(← contains t.script s) then return (false, false)
  if t.rank ≠ 0 ∧ t.rank % 2 = 0 then return (false, false)
  let c ← first (← tables t.script).cells
  let coords ← (← singularSequences s).mapM (indexOf2 c)
  let (isDim, count) := dimSubset c.n0 c.n1 coords
  if isDim && count = 1 then return (true, true)
  if connexeTiling c.n0 c.n1 coords || isDim then return (true, false)
  return (false, false)

/-- `Table1D.accept_script` (`table.py` lines 182-190), also used by cells. -/
def accept1 (t : Table) (s : Script) : Except Err (Bool × Bool) := do
  if !(← contains t.script s) then return (false, false)
  let c ← first (← tables t.script).cells
  let coords := pySort (fun a b => decide (a < b)) (← (← singularSequences s).mapM (indexOf1 c))
  match coords.head?, coords.getLast? with
  | some a, some b => if coords.length = b - a + 1 then return (true, true) else return (false, false)
  | _, _ => throw .indexError

/-- `isinstance(self.parent, TableSet)` (`table.py` line 234). -/
def parentIsSet : Table → Bool
  | root _ _ => false
  | sub _ _ _ p => p.isSet

/-- `TableSet.accept_script` (`table.py` lines 227-242). -/
def acceptSet (t : Table) (s : Script) : Except Err (Bool × Bool) := do
  if t.parentIsSet then return (false, false)
  let ts ← (← tables t.script).scripts.filterM fun u => contains s u
  let ss ← singularSequences s
  let us ← ts.mapM singularSequences
  if ts.length ≥ 1 ∧ us.flatten.all (fun u => ss.any fun v => v.pyEq u) ∧ ss.all (fun u => us.flatten.any fun v => v.pyEq u) then
    return (true, false)
  return (false, false)

/-- `t.accept_script(s)` -/
def accept (t : Table) (s : Script) : Except Err (Bool × Bool) :=
  match t.kind with
  | .t2d => t.accept2 s
  | .t1d | .cell => t.accept1 s
  | .t3d | .set => t.acceptSet s

end Table

/-- The orders in which Python iterates over the sets of scripts, of candidates and of tables. -/
structure SetOrder where
  scripts : List Script → List Script
  candidates : List (Table × Bool) → List (Table × Bool)
  tables : List Table → List Table

/-- Every iteration goes once over each element. -/
def SetOrder.Valid (o : SetOrder) : Prop :=
  (∀ l, (o.scripts l).Perm l) ∧ (∀ l, (o.candidates l).Perm l) ∧ ∀ l, (o.tables l).Perm l

/-- `min(candidates, key=lambda t: t[0].script)` of a non empty set (`table_structure.py` line 80). -/
def minCandidate (c : Table × Bool) (cs : List (Table × Bool)) : Table × Bool :=
  cs.foldl (fun m d => if d.1.script.lt m.1.script then d else m) c

/-- The candidates for the parent of `s` (`table_structure.py` lines 65-69). -/
def parentCandidates (defined : List Table) (s : Script) : Except Err (List (Table × Bool)) := do
  let r ← defined.mapM fun t => do
    let a ← t.accept s
    return (t, a)
  return (r.filter fun e => e.2.1).map fun e => (e.1, e.2.2)

/-- One round of the loop of `_define_root` (`table_structure.py` lines 61-86); a table is never equal to a script, so that the
first test never holds. -/
def defineOne (o : SetOrder) (defined : List Table) (s : Script) : Except Err (List Table) := do
  let cs ← parentCandidates defined s
  match o.candidates cs with
  | [] => return defined
  | c :: cs =>
    let (parent, regular) := minCandidate c cs
    let t ← mkSub s regular parent
    return defined ++ [t]

/-- `_define_root` (`table_structure.py` lines 47-88): the tables and the cells of a root. -/
def defineRoot (o : SetOrder) (root : Script) (paradigms : List Script) : Except Err (List Table × List Table) := do
  let rootTable ← mkRoot root
  let cells := (← singularSequences root).map fun q => Table.sub q .cell false rootTable
  let ps := o.scripts ((dedupBy str paradigms).filter fun s => !s.pyEq root)
  let ps := pySort (fun a b => decide (b.cardinal < a.cardinal)) ps
  let ts ← ps.foldlM (defineOne o) [rootTable]
  return (ts, cells)

/-- `TableStructure` (`table_structure.py` lines 8-21): the roots with their tables. -/
structure TableStructure where
  roots : List (Script × List Table)

namespace TableStructure

/-- All the tables, in the order of lines 113-115. -/
def all (x : TableStructure) : List Table := x.roots.flatMap (·.2)

/-- `tables[s]` (`table_structure.py` lines 113-115): the last table of a script wins. -/
def get? (x : TableStructure) (s : Script) : Option Table := x.all.reverse.find? fun t => t.script.pyEq s

end TableStructure

/-- `root_ss[q]` (`table_structure.py` lines 93-97). -/
def rootOfSeq (roots : List (Script × List Script)) (q : Script) : Option Script :=
  (roots.reverse.find? fun r => r.2.any fun x => x.pyEq q).map (·.1)

/-- The root of a paradigm (`table_structure.py` lines 100-106): `none` for the scripts of cardinal 1.  The message of line 104
adds a script and a text, which raises `InvalidScript`. -/
def assignRoot (roots : List (Script × List Script)) (s : Script) : Except Err (Option (Script × Script)) :=
  if s.cardinal = 1 then .ok none
  else do
    let q ← first (← singularSequences s)
    match rootOfSeq roots q with
    | none => throw .invalidScript
    | some r => return some (r, s)

/-- `_build_tables` (`table_structure.py` lines 91-117). -/
def buildTables (o : SetOrder) (roots scripts : List Script) : Except Err TableStructure := do
  let rs ← roots.mapM fun r => do return (r, ← singularSequences r)
  let assigned ← scripts.mapM (assignRoot rs)
  let tables ← roots.mapM fun r => do
    let (ts, cells) ← defineRoot o r ((assigned.filterMap id).filterMap fun e => if e.1.pyEq r then some e.2 else none)
    return (r, o.tables (ts ++ cells))
  return ⟨tables⟩

end Verif
