import Verif.Model.FromPaths
import Verif.Model.Partitions
import Verif.Model.UslOrder

/-
Model of `UslTable2D` (`ieml/usl/table.py` lines 14-191): the tables of a USL by the paths of its rows and columns.

`ord` is the order in which Python lists a set of values and `ordP` that of a set of paths: arbitrary rearrangements.
-/

namespace Verif
open Script

/-- `u.iter_structure_path_by_script_ss()` (`usl.py` lines 70-76, `script.py` lines 220-222), read to its end; `None` has no such method.
The values listed with the paths to morphemes are scripts. -/
def Node.scripts : Node → Except Err (List (Path × Script))
  | .none => .error .attributeError
  | .expr (.script s) => .ok [([.usl], s)]
  | .expr u => do
    let l ← u.paths
    (scriptPaths l).mapM fun e => match e.2 with
      | .expr (.script s) => .ok (e.1, s)
      | _ => .error .unmodelled

/-- `u.singular_sequences`. -/
def Node.sequences : Node → Except Err (List Node)
  | .none => .error .attributeError
  | .expr (.script s) => do return (← s.singularSequences).map fun x => .expr (.script x)
  | .expr (.pm p) => do return (← p.singularSequences).map fun x => .expr (.pm x)
  | .expr (.lexeme x) => do return (← x.singularSequences).map fun x => .expr (.lexeme x)
  | .expr (.word w) => do return (← w.singularSequences).map fun x => .expr (.word x)

/-- `usl(l)` for a list of paths and scripts (`usl.py` lines 134-149). -/
def uslOf (ord : List Expr → List Expr) (l : List (Path × Script)) : Except Err Expr :=
  if l.isEmpty then .ok (.pm (mkPM [] [])) else fromPaths ord (l.map fun e => (pathText e.1, e.2.str))

/-- `sorted(l, key=key)`: the keys are computed first.  A comparison that raises is not modelled. -/
def sortKeyed {α : Type} (key : α → Except Err Expr) (l : List α) : Except Err (List α) := do
  let ks ← l.mapM key
  let bad := fun a b : Expr => match a.lt b with | .error _ => true | .ok _ => false
  if ks.any fun a => ks.any fun b => bad a b then throw .unmodelled
  let lt := fun a b : Expr × α => match a.1.lt b.1 with | .ok r => r | .error _ => false
  return (pySort lt (ks.zip l)).map (·.2)

/-- `UslTable2D.__init__` (lines 15-18). -/
structure Table2D where
  usl : Expr
  columns : Path
  rows : Option Path

namespace Table2D

/-- `constant_paths` (lines 162-175). -/
def constantPaths (T : Table2D) : Except Err (List (Path × Script)) := do
  let l ← (Node.expr T.usl).scripts
  match T.rows with
  | some r => l.filterM fun e => do
    if ← hasPrefix e.1 r then return false
    return !(← hasPrefix e.1 T.columns)
  | none => l.filterM fun e => do
    if ← hasPrefix e.1 T.columns then return false
    return isConstantPath e.1

/-- `{ss_v: p for p, ss_v in l}`: the last path of a script. -/
def lastPath (l : List (Path × Script)) : List (Script × Path) := l.foldl (fun d e => dictSet str e.2 e.1 d) []

/-- `d[morph]`. -/
def pathOf (d : List (Script × Path)) (m : Script) : Except Err Path :=
  match dictGet str m d with
  | some p => .ok p
  | none => .error .keyError

/-- `column_paths_variation` (lines 47-61). -/
def columnVariation (ord : List Expr → List Expr) (T : Table2D) : Except Err (List (List (Path × Script))) := do
  let u ← deference T.columns (.expr T.usl)
  let d ← (← u.scripts).mapM fun e => do return (← withoutMorpheme e.1, e.2)
  let d := lastPath d
  let ss ← u.sequences
  let res ← ss.mapM fun x => do
    (← x.scripts).mapM fun e => do return (← concat false T.columns (← pathOf d e.2), e.2)
  sortKeyed (fun l => do
    let c ← T.constantPaths
    uslOf ord (l.map (fun e => (asConstant (some e.2) e.1, e.2)) ++ c)) res

/-- `column_paths_constant` (lines 63-66). -/
def columnConstant (ord : List Expr → List Expr) (T : Table2D) : Except Err (List (List (Path × Script))) := do
  return (← T.columnVariation ord).map fun l => l.map fun e => (asConstant (some e.2) e.1, e.2)

/-- `constant_dim` and `variations_dim` (lines 83-100): the sets of paths without and with variation. -/
def dimensions (T : Table2D) : Except Err (List Path × List Path) := do
  match T.rows with
  | some r =>
    let u ← deference r (.expr T.usl)
    (← u.scripts).foldlM (fun a e => do
      let p ← concat false r (← withoutMorpheme e.1)
      if (← (← deference p (.expr T.usl)).cardinal) ≠ 1 then return (a.1, setAdd pathText p a.2)
      else return (setAdd pathText p a.1, a.2)) ([], [])
  | none =>
    (← (Node.expr T.usl).scripts).foldlM (fun a e => do
      let p ← withoutMorpheme e.1
      if !(← hasPrefix p T.columns) then
        if (← (← deference p (.expr T.usl)).cardinal) ≠ 1 then return (a.1, setAdd pathText (← withoutMorpheme p) a.2)
      return a) ([], [])

/-- The loop of lines 104-110, whose result is not used. -/
def variationsRead (T : Table2D) (dims : List Path) : Except Err Unit :=
  dims.forM fun p => do
    (← (← deference p (.expr T.usl)).sequences).forM fun x => do
      (← x.scripts).forM fun _ => do
        let _ ← withoutMorpheme p

/-- `constants` (lines 112-115). -/
def dimConstants (T : Table2D) (dims : List Path) : Except Err (List (Path × Node)) := do
  let l ← dims.mapM fun p => do return (← (← deference p (.expr T.usl)).sequences).map fun x => (p, x)
  return l.flatten

/-- `isinstance(path_tail, PolymorphemePath)` or the flexion of a lexeme (lines 123-124). -/
def isPart : Path → Bool
  | .pm _ _ _ :: _ => true
  | .lexeme c :: _ => !c
  | _ => false

/-- `pm_bin` (lines 118-125): the variations of the same polymorpheme. -/
def bins (T : Table2D) (dims : List Path) : Except Err (List (Path × List (Path × Script))) :=
  dims.foldlM (fun d p => do
    let r ← splitTail p
    if isPart r.2 then
      let l ← (← deference p (.expr T.usl)).scripts
      return dictSet pathText r.1 ((dictGet pathText r.1 d).getD [] ++ l.map fun e => (r.2, e.2)) d
    else return d) []

/-- The body of the loop of lines 131-143. -/
def binVariations (ord : List Expr → List Expr) (b : Path × List (Path × Script)) : Except Err (List (List (Path × Script))) := do
  let d := lastPath b.2
  let u ← uslOf ord b.2
  (← (Node.expr u).sequences).mapM fun x => do
    (← x.scripts).mapM fun e => do return (← concat false b.1 (← pathOf d e.2), e.2)

/-- `res2` for one element of `res` (lines 156-158). -/
def asRow (l : List (Path × Node)) : Except Err (List (Path × Script)) := do
  let r ← l.mapM fun e => do
    (← e.2.scripts).mapM fun x => do return (asConstant (some x.2) (← concat false e.1 x.1), x.2)
  return r.flatten

/-- `row_paths_variation` (lines 76-160). -/
def rowVariation (ord : List Expr → List Expr) (ordP : List Path → List Path) (T : Table2D) : Except Err (List (List (Path × Script))) := do
  let dims ← T.dimensions
  T.variationsRead (ordP dims.2)
  let constants ← T.dimConstants (ordP dims.1)
  let bs ← T.bins (ordP dims.2)
  let vs ← bs.mapM (binVariations ord)
  let res := (prodL vs).map fun v => constants ++ v.flatten.map fun e => (e.1, Node.expr (.script e.2))
  let res2 ← res.mapM asRow
  sortKeyed (fun l => do
    let c ← T.constantPaths
    uslOf ord (l.map (fun e => (asConstant none e.1, e.2)) ++ c)) res2

/-- `row_paths_constant` (lines 68-75). -/
def rowConstant (ord : List Expr → List Expr) (ordP : List Path → List Path) (T : Table2D) : Except Err (List (List (Path × Script))) := do
  return (← T.rowVariation ord ordP).map fun l => l.map fun e => (asConstant (some e.2) e.1, e.2)

/-- `columns` (lines 22-34). -/
def columnUsls (ord : List Expr → List Expr) (ordP : List Path → List Path) (T : Table2D) : Except Err (List Expr) := do
  let rv ← T.rowVariation ord ordP
  (← T.columnConstant ord).mapM fun l => do uslOf ord ((← T.constantPaths) ++ l ++ rv.flatten)

/-- `rows` (lines 36-45). -/
def rowUsls (ord : List Expr → List Expr) (ordP : List Path → List Path) (T : Table2D) : Except Err (List Expr) := do
  let cv ← T.columnVariation ord
  (← T.rowConstant ord ordP).mapM fun l => do uslOf ord ((← T.constantPaths) ++ l ++ cv.flatten)

/-- `cells` (lines 177-191). -/
def cells (ord : List Expr → List Expr) (ordP : List Path → List Path) (T : Table2D) : Except Err (List (List Expr)) := do
  (← T.rowConstant ord ordP).mapM fun r => do
    (← T.columnConstant ord).mapM fun c => do uslOf ord ((← T.constantPaths) ++ c ++ r)

end Table2D

/-- The table of a polymorpheme. -/
def demoTable (cs : List Script) (gs : List Group) (rows : Option Path) (columns : Path) : Table2D := ⟨.pm (mkPM cs gs), columns, rows⟩

end Verif
