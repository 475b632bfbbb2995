import Verif.Model.Decoration
import Verif.Model.PathParser
import Verif.Model.Csv

/-
Model of the texts of `InstancedUSL` (`ieml/usl/decoration/instance.py` lines 38-39 and 85-86) and of their reading
(`ieml/usl/parser/parser.py` lines 42-78 and 199-212), with the construction of the instances.
-/

namespace Verif
open Script

/-- `__str__` of an `InstancedUSL` (`instance.py` lines 85-86): the USL and its attribute `decorations`. -/
def instText (u : Expr) (ds : List (Path × Str)) : Str := strip (u.text ++ c!" " ++ joinSpace (ds.map decorationText))

/-- `p[3][1:-1]` (`parser.py` line 212). -/
def unquote (v : Str) : Str := (v.drop 1).dropLast

/-- `decoration_list` (`parser.py` lines 199-212) up to the end of the text, possibly empty.  The path of a decoration is read when its
bracket is closed, before what follows. -/
def takeDecs : List UTok → Except Err (List (Path × Str))
  | [] => .ok []
  | .lbracket :: .path p :: .value v :: .rbracket :: ts => do
    let q ← pathRead p
    let r ← takeDecs ts
    return ((q, unquote v) :: r)
  | _ => .error .cannotParse

/-- `proposition` (lines 62-78), without the construction of the instance: the USL and the decorations. -/
def takeInst (ts : List UTok) : Except Err (Expr × List (Path × Str)) := do
  let u ← takeUsl ts
  let ds ← takeDecs u.2
  return (u.1, ds)

/-- The exceptions that leave `parse` (lines 53-58): a `ValueError` is turned into `CannotParse`. -/
def parseErr (e : Err) : Err := if e = .valueError then .cannotParse else e

/-- What `parse` returns: an expression without decorations (`none`), or the `InstancedUSL` of an expression and its attribute
`decorations`. -/
abbrev Instance := Expr × Option (List (Path × Str))

/-- `IEMLParser().parse(text)` (lines 42-58) in a world where the objects of the text have their literals (`World`): `uk` and `pk` are
the identities of the scripts of the USL and of the paths, `ord` what `sorted` does to the decorations (`listDecorations`). -/
def instRead (ord : List (Path × Str) → List (Path × Str)) (pk uk : Str → Str) (s : Str) (w : World Ref) :
    Except Err Instance × World Ref :=
  if s.isEmpty then (.ok (.script (.null 0), none), w)
  else match takeInst (uslLex s) with
    | .error e => (.error (parseErr e), w)
    | .ok (u, []) => (.ok (u, none), w)
    | .ok (u, d :: ds) =>
      match instanced ord (uslObjects pk uk u) ((d :: ds).map some) w with
      | (.error e, w) => (.error (parseErr e), w)
      | (.ok D, w) => (.ok (u, some D), w)

end Verif
