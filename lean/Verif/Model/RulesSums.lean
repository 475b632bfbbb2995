import Verif.Model.Rules

/-
Model of the rules of `scripts/dictionary_tools.py` that also accept sums: `translate_ocean`,
`translate_mouvements_et_milieux` and `translate_formes_visuelles`.
-/

namespace Verif
namespace Script

/-- `translate_mouvements_et_milieux` (`dictionary_tools.py` lines 299-309). -/
def removeFAdditive (s : Script) : Except Err Script := do
  let (subst, attr, mode) ← unpack s
  assertThat mode.isNull
  let subst ← if subst.isAdd then (do mkAdd (← subst.iter.mapM removeAttrF)) else removeAttrF subst
  mOp (some subst) (some attr)

/-- `translate_formes_visuelles` (`dictionary_tools.py` lines 348-358). -/
def visualForms (s : Script) : Except Err Script :=
  if s.isAdd then do mkAdd (← s.children.mapM formesVisuelles)
  else formesVisuelles s

/-- What `c.layer` or the comparison of layers raises for a child (`script.py` lines 252-255): `None` has no layer. -/
def childFault (l : Nat) : Option Script → Option Err
  | none => some .attributeError
  | some d => if d.layer ≠ l then some .incompatibleLayers else none

/-- `AdditiveScript(children=cs)` when some of the children may be `None` (`script.py` lines 248-255). -/
def mkAddOpt (cs : List (Option Script)) : Except Err Script :=
  match cs with
  | [] => .error .invalidScript
  | none :: _ => .error .attributeError
  | some c :: _ =>
    match cs.findSome? (childFault c.layer) with
    | some e => .error e
    | none => mkAdd (cs.filterMap id)

/-- `translate_ocean` of a script, `rest` being what the last branch does (`dictionary_tools.py` lines 216-221). -/
def oceanWith (s : Script) (rest : Except Err (Option Script)) : Except Err (Option Script) := do
  if ← contains (← parseScript (c!"M:.-'M:.-'n.-T:.A:.-',")) s then return some (← rotateSc s)
  else if ← contains (← parseScript (c!"s.-S:.U:.-'l.-S:.O:.-'n.-T:.A:.-',")) s then do
    let (subst, attr, mode) ← unpack s
    return some (← mOp (some subst) (some mode) (some attr))
  else rest

mutual
/-- `translate_ocean` (`dictionary_tools.py` lines 216-223).  There is no `else`: other scripts give `None`. -/
def ocean : Script → Except Err (Option Script)
  | add cs => oceanWith (add cs) (do return some (← mkAddOpt (← oceans cs)))
  | null l => oceanWith (null l) (.ok none)
  | prim p => oceanWith (prim p) (.ok none)
  | mult s a m => oceanWith (mult s a m) (.ok none)
/-- `[translate_ocean(c) for c in s]` (`dictionary_tools.py` line 223). -/
def oceans : List Script → Except Err (List (Option Script))
  | [] => .ok []
  | c :: cs => do
    let t ← ocean c
    let ts ← oceans cs
    return t :: ts
end

end Script
end Verif
