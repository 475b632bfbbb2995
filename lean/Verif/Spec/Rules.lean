import Verif.Model.Rules
import Verif.Spec.Layout

/-
What the rules that move the scripts of a root to a new root (`scripts/dictionary_tools.py`) are meant to do.
-/

namespace Verif
open Script Layout

/-- The script of a text; used for texts that can be read. -/
def fixedOf (t : Str) : Layout := .fixed ((parseScript t).toOption.getD (.null 0))

/-- The rules, by the name of the function. -/
inductive Rule where
  | rotate | doubleRotate | splitSubst | promoteAndSplit | transferSubstance | addModeT | insertAttrF | fixTypo
  | bodyParts | removeAttrF | competence | noetic | tisse | formesVisuelles | ecosystem | ecosystemTern

namespace Rule

/-- The function of a rule. -/
def run : Rule → Script → Except Err Script
  | rotate => rotateSc
  | doubleRotate => Script.doubleRotate
  | splitSubst => Script.splitSubst
  | promoteAndSplit => Script.promoteAndSplit
  | transferSubstance => Script.transferSubstance
  | addModeT => Script.addModeT
  | insertAttrF => Script.insertAttrF
  | fixTypo => Script.fixTypo
  | bodyParts => Script.bodyParts
  | removeAttrF => Script.removeAttrF
  | competence => Script.competence
  | noetic => Script.noetic
  | tisse => Script.tisse
  | formesVisuelles => Script.formesVisuelles
  | ecosystem => Script.ecosystem
  | ecosystemTern => Script.ecosystemTern

/-- Three parts in a row. -/
abbrev n3 := Layout.node
/-- A part followed by empty ones. -/
abbrev n1 (p : Layout) := Layout.node p .blank .blank
/-- Two parts followed by an empty one. -/
abbrev n2 (p q : Layout) := Layout.node p q .blank

/-- What a rule is meant to do, from the example in its comment. -/
def move : Rule → Move
  | rotate => ⟨n3 (part 0) (part 1) (part 2), n3 (part 2) (part 0) (part 1)⟩
  | doubleRotate => ⟨n3 (part 0) (part 1) (n3 (part 2) (part 3) (part 4)), n3 (n3 (part 4) (part 2) (part 3)) (part 0) (part 1)⟩
  -- E:O:.M:O:.-  => E:.O:.M:O:.-
  | splitSubst => ⟨n2 (n2 (part 0) (part 1)) (part 2), n3 (n1 (part 0)) (n1 (part 1)) (part 2)⟩
  -- E:F:.O:M:.t.- => E:.-F:.O:M:.-t.-'
  | promoteAndSplit => ⟨n3 (n2 (part 0) (part 1)) (part 2) (part 3),
      n3 (n1 (n1 (part 0))) (n2 (n1 (part 1)) (part 2)) (n1 (part 3))⟩
  -- E:O:.-M:O:.-t.o.-' => E:.-O:.M:O:.-t.o.-'
  | transferSubstance => ⟨n3 (n1 (n2 (part 0) (part 1))) (n1 (part 2)) (part 3),
      n3 (n1 (n1 (part 0))) (n2 (n1 (part 1)) (part 2)) (part 3)⟩
  -- O:O:.O:O:.-  => O:O:.O:O:.t.-
  | addModeT => ⟨n2 (part 0) (part 1), n3 (part 0) (part 1) (fixedOf (c!"t."))⟩
  -- O:O:.F:.- => O:O:.f.F:.-
  | insertAttrF => ⟨n2 (part 0) (part 1), n3 (part 0) (fixedOf (c!"f.")) (part 1)⟩
  -- M:.-O:.-'M:.-wa.e.-'t.x.-s.y.-',  => M:.-O:.-'M:.-wa.e.-'t.-x.-s.y.-',
  | fixTypo => ⟨n3 (part 0) (part 1) (fixedOf (c!"t.x.-s.y.-'")), n3 (part 0) (part 1) (fixedOf (c!"t.-x.-s.y.-'"))⟩
  -- f.o.-f.o.-'E:.-U:.n.-l.-',E:.-U:.M:.T:.-l.-'E:.-A:.M:.T:.-l.-',_ => f.o.-f.o.-'E:.-U:.n.-l.-',E:.-U:.M:T:.-l.-'E:.-A:.M:T:.-l.-',_
  | bodyParts => ⟨n2 (part 0) (n2 (n3 (part 1) (n3 (part 2) (n1 (part 3)) (n1 (part 4))) (part 5))
        (n3 (part 6) (n3 (part 7) (n1 (part 8)) (n1 (part 9))) (part 10))),
      n2 (part 0) (n2 (n3 (part 1) (n2 (part 2) (n2 (part 3) (part 4))) (part 5))
        (n3 (part 6) (n2 (part 7) (n2 (part 8) (part 9))) (part 10)))⟩
  -- O:O:.f.F:.- -> O:O:.F:.-
  | removeAttrF => ⟨n3 (part 0) (fixedOf (c!"f.")) (part 1), n2 (part 0) (part 1)⟩
  -- M:.-O:.-'M:.-wa.e.-'t.-x.-s.y.-',  => t.-x.-s.y.-' wa.e.-', M:M:.-',O:.-',_
  | competence => ⟨n3 (n2 (n1 (n1 (part 0))) (part 1)) (n2 (n1 (n1 (part 2))) (part 3)) (part 4),
      n3 (n2 (part 4) (n1 (part 3))) (n1 (n1 (n1 (n2 (part 0) (part 2))))) (n1 (n1 (part 1)))⟩
  -- M:.O:.-O:.O:.-B:.T:.n.-' => s.M:O:.O:O:.-
  | noetic => ⟨n3 (n2 (n1 (part 0)) (n1 (part 1))) (n2 (n1 (part 2)) (n1 (part 3))) (fixedOf (c!"B:.T:.n.-")),
      n3 (fixedOf (c!"s.")) (n2 (part 0) (part 1)) (n2 (part 2) (part 3))⟩
  -- O:M:.-O:M:.-we.h.-' => O:M:.-'O:M:.-'s.o.-k.o.-',
  | tisse => ⟨n3 (part 0) (part 1) (fixedOf (c!"we.h.-")), n3 (n1 (part 0)) (n1 (part 1)) (fixedOf (c!"s.o.-k.o.-'"))⟩
  -- s.u.-'O:M:.-'O:.-', => b.-S:.U:.-'O:M:.-'O:.-',
  | formesVisuelles => ⟨n3 (fixedOf (c!"s.u.-'")) (part 0) (part 1), n3 (fixedOf (c!"b.-S:.U:.-'")) (part 0) (part 1)⟩
  -- O:.M:.- => s.o.-k.o.-'M:O:.-',
  | ecosystem => ⟨n2 (n1 (part 0)) (n1 (part 1)), n2 (fixedOf (c!"s.o.-k.o.-'")) (n1 (n1 (n2 (part 1) (part 0))))⟩
  -- O:.M:.-M:.-' => s.o.-k.o.-'M:O:.-',M:.-',_
  | ecosystemTern => ⟨n2 (n2 (n1 (part 0)) (n1 (part 1))) (part 2),
      n2 (n2 (fixedOf (c!"s.o.-k.o.-'")) (n1 (n1 (n2 (part 1) (part 0))))) (n1 (n1 (part 2)))⟩

/-- The layer of the new script. -/
def layerOf : Rule → Nat → Nat
  | promoteAndSplit, l => l + 1
  | competence, l => l + 1
  | noetic, l => l - 1
  | tisse, l => l + 1
  | ecosystem, l => l + 2
  | ecosystemTern, l => l + 2
  | _, l => l

/-- The layers of the scripts for which the new script exists: all those below the highest one if nothing is written in
the new script, otherwise that of what is written. -/
def LayerOk : Rule → Nat → Prop
  | promoteAndSplit, l => l ≤ 5
  | competence, l => l ≤ 5
  | addModeT, l => l = 2
  | insertAttrF, l => l = 2
  | fixTypo, l => l = 4
  | noetic, l => l = 3
  | tisse, l => l = 3
  | formesVisuelles, l => l = 4
  | ecosystem, l => l = 2
  | ecosystemTern, l => l = 3
  | _, _ => True

end Rule

end Verif
