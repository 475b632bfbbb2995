import Verif.Model.Path

/-
Model of `enumerate_partitions` (`ieml/usl/table.py` lines 194-219): the paths of a USL whose values have several singular sequences
are put in a prefix tree, the leaves of which are counted; then all the choices of nodes, none above another, are listed.
-/

namespace Verif
open Script

/-- `x.cardinal` of the component reached by a path (`usl.py` lines 78-80; `script.py` line 279); `None` has none. -/
def Node.cardinal : Node → Except Err Nat
  | .none => .error .attributeError
  | .expr (.script m) => .ok m.cardinal
  | .expr (.pm p) => p.cardinal
  | .expr (.lexeme x) => do return (← x.singularSequences).length
  | .expr (.word w) => do return (← w.singularSequences).length

/-- A `defaultdict` of the prefix tree: the items in the order of insertion.  `cons s c r` is the item of key `s` and value `c`, then
the items `r`. -/
inductive PTree where
  | nil
  | cons (s : Step) (child rest : PTree)

/-- A branch without any other path. -/
def branch : Path → PTree
  | [] => .nil
  | s :: p => .cons s (branch p) .nil

/-- The loop of lines 202-204.  The keys are nodes without their children, compared by their texts (`path.py` lines 148-149, 163-164,
169-170). -/
def PTree.insert : PTree → Path → PTree
  | t, [] => t
  | .nil, s :: p => branch (s :: p)
  | .cons k c r, s :: p => if k.text = s.text then .cons k (c.insert p) r else .cons k c (r.insert (s :: p))

/-- The test of line 199. -/
def isVariable (u : Expr) (p : Path) : Except Err Bool := do
  let x ← deference p (.expr u)
  return (← x.cardinal) != 1

/-- The loop of lines 198-204. -/
def prefixTree (u : Expr) : Except Err PTree := do
  let l ← u.paths
  l.foldlM (fun t e => do return if ← isVariable u e.1 then t.insert e.1 else t) .nil

/-- `iter_prefix_tree` (lines 206-213), from the list `res` on: what is done for the items of the tree. -/
def iterFrom : PTree → List (List Path) → Except Err (List (List Path))
  | .nil, res => .ok res
  | .cons s c rest, res => do
    let sub ← iterFrom c [[]]
    let sub ← sub.mapM fun items => items.mapM fun pp => concat false [s] pp
    iterFrom rest (res.map (· ++ [[s]]) ++ res.flatMap fun r => sub.map (r ++ ·))

/-- `count_leaves` (lines 215-216). -/
def countLeaves : PTree → Nat
  | .nil => 0
  | .cons _ .nil rest => 1 + countLeaves rest
  | .cons _ (.cons s c r) rest => countLeaves (.cons s c r) + countLeaves rest

/-- `enumerate_partitions` (lines 194-219). -/
def enumeratePartitions (u : Expr) : Except Err (Nat × List (List Path)) := do
  let t ← prefixTree u
  return (countLeaves t, ← iterFrom t [[]])

end Verif
