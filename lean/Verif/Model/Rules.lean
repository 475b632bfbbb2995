import Verif.Model.Parser

/-
Model of `m` (`ieml/dictionary/script/operator.py`) and of the rules of `scripts/dictionary_tools.py` that move the
scripts of a root paradigm to a new root.  The rules are modelled function by function; `translate_script`, which would
apply them to the terms of a version of the dictionary, is not: the module of versions does not exist any more.
-/

namespace Verif
namespace Script

/-- `m(substance, attribute, mode)` (`operator.py` lines 9-14), all arguments being scripts or `None`. -/
def mOp (s : Option Script) (a md : Option Script := none) : Except Err Script := mkMult [s, a, md]

/-- `subst, attr, mode = s`: the unpacking of `iter(s)`, which raises `ValueError` unless there are exactly three
children.  The children of a sum are its terms. -/
def unpack (s : Script) : Except Err (Script × Script × Script) :=
  match s.iter with
  | [x, y, z] => .ok (x, y, z)
  | _ => .error .valueError

/-- `assert b`. -/
def assertThat (b : Bool) : Except Err Unit := if b then .ok () else .error .assertionError

/-- `s.children[i]`. -/
def childAt (s : Script) (i : Nat) : Except Err Script :=
  match s.children[i]? with
  | some c => .ok c
  | none => .error .indexError

/-- `_rotate_sc` (`dictionary_tools.py` lines 47-49). -/
def rotateSc (s : Script) : Except Err Script := do
  let (subst, attr, mode) ← unpack s
  mOp (some mode) (some subst) (some attr)

/-- `_rotate_sc_additive` (`dictionary_tools.py` lines 52-60). -/
def rotateScAdditive (s : Script) : Except Err Script :=
  if s.isAdd then do mkAdd (← s.iter.mapM rotateSc)
  else rotateSc s

/-- `_double_rotate` (`dictionary_tools.py` lines 63-66). -/
def doubleRotate (s : Script) : Except Err Script := do
  let (subst, attr, mode) ← unpack s
  let mode ← rotateSc mode
  mOp (some mode) (some subst) (some attr)

/-- `_split_subst` (`dictionary_tools.py` lines 69-75). -/
def splitSubst (s : Script) : Except Err Script := do
  let (subst, attr, mode) ← unpack s
  assertThat mode.isNull
  let (subst0, subst1, mode) ← unpack subst
  assertThat mode.isNull
  mOp (some (← mOp (some subst0))) (some (← mOp (some subst1))) (some attr)

/-- `_promote_and_split` (`dictionary_tools.py` lines 77-86). -/
def promoteAndSplit (s : Script) : Except Err Script := do
  let (subst, attr, mode) ← unpack s
  let (subst0, subst1, mode') ← unpack subst
  assertThat mode'.isNull
  let x ← mOp (some (← mOp (some subst0)))
  let y ← mOp (some (← mOp (some subst1))) (some attr)
  let z ← mOp (some mode)
  mOp (some x) (some y) (some z)

/-- `_transfer_substance` (`dictionary_tools.py` lines 88-100). -/
def transferSubstance (s : Script) : Except Err Script := do
  let (subst, attr, mode) ← unpack s
  let (attr0, attr1, attr2) ← unpack attr
  assertThat (attr1.isNull && attr2.isNull)
  let (subst, subst1, subst2) ← unpack subst
  assertThat (subst1.isNull && subst2.isNull)
  let (subst0, subst1, subst2) ← unpack subst
  assertThat subst2.isNull
  let x ← mOp (some (← mOp (some subst0)))
  let y ← mOp (some (← mOp (some subst1))) (some attr0)
  mOp (some x) (some y) (some mode)

/-- `_add_mode_t` (`dictionary_tools.py` lines 105-111). -/
def addModeT (s : Script) : Except Err Script := do
  let (subst, attr, mode) ← unpack s
  assertThat mode.isNull
  mOp (some subst) (some attr) (some (← parseScript (c!"t.")))

/-- `_insert_attr_f` (`dictionary_tools.py` lines 113-117). -/
def insertAttrF (s : Script) : Except Err Script := do
  let (subst, attr, mode) ← unpack s
  assertThat mode.isNull
  mOp (some subst) (some (← parseScript (c!"f."))) (some attr)

/-- `_insert_f_additive` (`dictionary_tools.py` lines 119-129). -/
def insertFAdditive (s : Script) : Except Err Script := do
  let (subst, attr, mode) ← unpack s
  assertThat mode.isNull
  let subst ← if subst.isAdd then (do mkAdd (← subst.iter.mapM insertAttrF)) else insertAttrF subst
  mOp (some subst) (some attr)

/-- `_fix_typo` (`dictionary_tools.py` lines 131-134). -/
def fixTypo (s : Script) : Except Err Script := do
  let (subst, attr, _) ← unpack s
  mOp (some subst) (some attr) (some (← parseScript (c!"t.-x.-s.y.-'")))

/-- `translate_body_parts._level_3` (`dictionary_tools.py` lines 227-230). -/
def bodyLevel3 (s : Script) : Except Err Script := do
  let (s2, a2, m2) ← unpack s
  let (s1, a1, m1) ← unpack a2
  let x ← mOp (some (← childAt a1 0)) (some (← childAt m1 0))
  mOp (some s2) (some (← mOp (some s1) (some x))) (some m2)

/-- `translate_body_parts` (`dictionary_tools.py` lines 226-234). -/
def bodyParts (s : Script) : Except Err Script := do
  let (s4, a4, _) ← unpack s
  let (s3, a3, _) ← unpack a4
  mOp (some s4) (some (← mOp (some (← bodyLevel3 s3)) (some (← bodyLevel3 a3))))

/-- `_remove_attr_f` (`dictionary_tools.py` lines 293-296). -/
def removeAttrF (s : Script) : Except Err Script := do
  let (subst, _, mode) ← unpack s
  mOp (some subst) (some mode)

/-- `translate_competence_en_curr_data` (`dictionary_tools.py` lines 312-322). -/
def competence (s : Script) : Except Err Script := do
  let (subst, attr, mode) ← unpack s
  let (attrS, attrA, attrM) ← unpack attr
  assertThat attrM.isNull
  let (substS, substA, substM) ← unpack subst
  assertThat substM.isNull
  let firstM ← childAt (← childAt substS 0) 0
  let x ← mOp (some mode) (some (← mOp (some attrA)))
  let y ← mOp (some (← mOp (some (← mOp (some (← mOp (some firstM) (some (← childAt (← childAt attrS 0) 0))))))))
  let z ← mOp (some (← mOp (some substA)))
  mOp (some x) (some y) (some z)

/-- `translate_noetic` (`dictionary_tools.py` lines 334-339). -/
def noetic (s : Script) : Except Err Script := do
  let (subst, attr, _) ← unpack s
  let c ← parseScript (c!"s.")
  let y ← mOp (some (← childAt (← childAt subst 0) 0)) (some (← childAt (← childAt subst 1) 0))
  let z ← mOp (some (← childAt (← childAt attr 0) 0)) (some (← childAt (← childAt attr 1) 0))
  mOp (some c) (some y) (some z)

/-- `translate_tisse_intl_col` (`dictionary_tools.py` lines 342-345). -/
def tisse (s : Script) : Except Err Script := do
  let (subst, attr, _) ← unpack s
  let x ← mOp (some subst)
  let y ← mOp (some attr)
  mOp (some x) (some y) (some (← parseScript (c!"s.o.-k.o.-'")))

/-- `translate_formes_visuelles` for a script that is not a sum (`dictionary_tools.py` lines 348-358). -/
def formesVisuelles (s : Script) : Except Err Script := do
  let (_, attr, mode) ← unpack s
  mOp (some (← parseScript (c!"b.-S:.U:.-'"))) (some attr) (some mode)

/-- `translate_ecosystem_intl_col` (`dictionary_tools.py` lines 370-374). -/
def ecosystem (s : Script) : Except Err Script := do
  let (subst, attr, _) ← unpack s
  let c ← parseScript (c!"s.o.-k.o.-'")
  let x ← mOp (some (← childAt attr 0)) (some (← childAt subst 0))
  mOp (some c) (some (← mOp (some (← mOp (some x)))))

/-- `translate_ecosystem_intl_col_tern` (`dictionary_tools.py` lines 377-381). -/
def ecosystemTern (s : Script) : Except Err Script := do
  let (subst, attr, _) ← unpack s
  let x ← ecosystem subst
  mOp (some x) (some (← mOp (some (← mOp (some attr)))))

end Script
end Verif
