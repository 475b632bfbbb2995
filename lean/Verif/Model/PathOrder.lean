import Verif.Model.Instance
import Verif.Model.Index

/-
Model of `<` on paths (`ieml/usl/decoration/path.py`) and on decorations (`ieml/usl/decoration/instance.py`).
-/

namespace Verif
open Script

/-- `USL_TYPE.syntactic_level` of the class of a node (`path.py` lines 29, 206, 362, 452, 573; `usl.py` line 9, `polymorpheme.py` line
152, `lexeme.py` line 21, `word.py` line 45). -/
def Step.level : Step → Nat
  | .usl => 0
  | .pm _ _ _ => 1
  | .flexion _ => 1
  | .lexeme _ => 2
  | .role _ _ => 3

/-- The value of a `GroupIndex`, plus 1 (`path.py` lines 198-202); `<` compares the values (`commons.py` lines 242-245). -/
def GIdx.rank : GIdx → Nat
  | .constant => 0
  | .g0 => 1
  | .g1 => 2
  | .g2 => 3

/-- The value of a `LexemeIndex` (`path.py` lines 446-448): `CONTENT` is the smaller one. -/
def halfRank (content : Bool) : Nat := if content then 0 else 1

/-- `<` of two values of the attribute `morpheme` that are different, or both `None`, as the second components of tuples: `None` has no
`<`, that of a script does not know `None` (`script.py` lines 91-93). -/
def ltMorpheme : Option Script → Option Script → Except Err Bool
  | none, none => .ok false
  | some x, some y => .ok (if x.str = y.str then false else x.lt y)
  | _, _ => .error .typeError

/-- `<` of two nodes, whatever their children: `__lt__` (lines 151-155) and the methods `_do_lt` (lines 160-161, 232-233, 387-388,
482-483, 606-607). -/
def Step.lt (s t : Step) : Except Err Bool :=
  match s, t with
  | .usl, .usl => .ok false
  | .pm g m _, .pm g' m' _ => if g = g' then ltMorpheme m m' else .ok (decide (g.rank < g'.rank))
  | .flexion m, .flexion m' => .ok (m.lt m')
  | .lexeme c, .lexeme c' => .ok (decide (halfRank c < halfRank c'))
  | .role r _, .role r' _ => .ok (addrLt r r')
  | s, t => .ok (decide (s.level < t.level))

/-- `self < other` for two paths: the children are not compared. -/
def pathLt : Path → Path → Except Err Bool
  | s :: _, t :: _ => s.lt t
  | _ :: _, [] => .error .attributeError
  | [], _ => .error .typeError

/-- `Decoration.__lt__` (`instance.py` lines 41-42): tuples of a path and a value; paths are equal when their texts are (`path.py` lines
148-149). -/
def decLt (d e : Path × Str) : Except Err Bool :=
  if pathText d.1 = pathText e.1 then .ok (if d.2 = e.2 then false else ltStr d.2 e.2) else pathLt d.1 e.1

/-- The result of a comparison; here an exception counts as false. -/
def truth : Except Err Bool → Bool
  | .ok b => b
  | .error _ => false

/-- `sorted(decorations)` (`instance.py` line 79), if no comparison raises an exception. -/
def decSorted (ds : List (Path × Str)) : List (Path × Str) := pySort (fun d e => truth (decLt d e)) ds

end Verif
