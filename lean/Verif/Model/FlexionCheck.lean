import Verif.Model.FromPaths
import Verif.Model.WordCheck

/-
Model of the checks of flexions (`ieml/usl/constants.py` lines 408-446, 461-487, 506-585).  `Lexeme.check` does not call them: the
call is commented out (`usl/lexeme.py` lines 13-14).  The messages sort the scripts before the condition is looked at; comparing
scripts raises nothing.
-/

namespace Verif
open Script

/-- `s in _set`: by text (`script.py` lines 81-89). -/
def inScripts (s : Script) (set : List Script) : Bool := set.any fun x => decide (x.str = s.str)

/-- `assert_all_in` (`constants.py` lines 408-418). -/
def assertAllIn (l set : List Script) : Except Err Unit :=
  if l.all fun s => inScripts s set || s.empty then .ok () else .error .valueError

/-- `assert_atmost_one_from` (lines 431-437). -/
def assertAtMostOne (l set : List Script) : Except Err Unit :=
  if (l.filter fun s => inScripts s set).length ≤ 1 then .ok () else .error .valueError

/-- `{script(t) for t in …}` of texts that are read. -/
def flexionScripts (ts : List Str) : List Script := ts.filterMap fun t => (parseScript t).toOption

/-- `ADDRESS_PROCESS_VOICES_SCRIPTS` (lines 22-27): `KeyError` for other keys. -/
def processVoices (valence : Str) : Except Err (List Script) :=
  if valence = c!"E:S:." then .ok (flexionScripts [c!"E:.-wa.-t.o.-'", c!"E:.-wo.-t.o.-'"])
  else if valence = c!"E:T:." ∨ valence = c!"E:B:." then .ok (familySequences (c!"E:.-O:O:.-t.o.-'"))
  else .error .keyError

/-- `ADDRESS_PROCESS_POLYMORPHEME_SCRIPTS` (lines 42-52). -/
def processFlexions : List Script :=
  familySequences (c!"E:.-O:O:.-t.o.-'") ++ familySequences (c!"E:F:.-t.o.-'") ++ familySequences (c!"E:M:.-O:.-t.o.-'") ++
  familySequences (c!"E:.-'O:O:.-M:.-'t.o.-',") ++ familySequences (c!"E:O:O:.") ++ familySequences (c!"E:M:O:.") ++
  familySequences (c!"E:.b.O:O:.-") ++ familySequences (c!"E:.b.O:M:.-")

/-- `ADDRESS_ACTANT_SCRIPTS` (lines 373-390). -/
def actantFlexions : List Script :=
  familySequences (c!"E:M:.-d.u.-'") ++ familySequences (c!"E:.-',b.-S:.U:.-'y.-'O:.-',_") ++ familySequences (c!"E:.-n.E:U:.+F:.-'") ++
  familySequences (c!"E:.O:O:.-") ++ familySequences (c!"E:I:.-t.u.-'") ++ familySequences (c!"E:O:O:.") ++ familySequences (c!"E:M:O:.") ++
  familySequences (c!"E:F:M:.") ++ familySequences (c!"E:.O:.M:O:.-") ++ familySequences (c!"E:M:.d.+M:O:.-") ++
  familySequences (c!"E:.-F:.M:M:.-l.-'") ++ familySequences (c!"E:S:.j.-'M:O:.-O:.-',") ++
  familySequences (c!"E:.+E:U:S:+T:.-M:M:.o.-'") ++ familySequences (c!"E:.O:O:.O:.-t.o.-'")

/-- `ADDRESS_QUALITY_SCRIPTS` (lines 394-405). -/
def qualityFlexions : List Script :=
  familySequences (c!"E:O:O:.") ++ familySequences (c!"E:M:O:.") ++ familySequences (c!"E:M:.-d.u.-'") ++ familySequences (c!"E:F:M:.") ++
  familySequences (c!"E:.O:.M:O:.-") ++ familySequences (c!"E:M:.d.+M:O:.-") ++ familySequences (c!"E:.-F:.M:M:.-l.-'") ++
  familySequences (c!"E:.+E:U:S:+T:.-M:M:.o.-'") ++ familySequences (c!"E:.O:O:.O:.-t.o.-'")

/-- `sfun.valence`: only processes have this attribute (`syntagmatic_function.py` line 429). -/
def valenceOf {α : Type} : Option (SFun α) → Except Err Str
  | some (.process _ v _) => .ok v
  | _ => .error .attributeError

/-- `check_flexion_process_scripts` (lines 461-487). -/
def checkFlexionProcess {α : Type} (l : List Script) (sfun : Option (SFun α)) : Except Err Unit := do
  assertAllIn l processFlexions
  assertAtMostOne l (← processVoices (← valenceOf sfun))
  assertAtMostOne l (familySequences (c!"E:.-'O:O:.-M:.-'t.o.-',"))
  assertAtMostOne l (familySequences (c!"E:F:.-t.o.-'"))
  assertAtMostOne l (familySequences (c!"E:M:.-O:.-t.o.-'"))
  assertAtMostOne l (familySequences (c!"E:O:O:."))
  assertAtMostOne l (familySequences (c!"E:M:O:."))
  assertAtMostOne l (familySequences (c!"E:.b.O:O:.-"))
  assertAtMostOne l (familySequences (c!"E:.b.O:M:.-"))

/-- `check_flexion_actant_scripts` (lines 506-542); its result is `sfun`, which nobody uses. -/
def checkFlexionActant (l : List Script) : Except Err Unit := do
  assertAllIn l actantFlexions
  assertAtMostOne l (familySequences (c!"E:M:.-d.u.-'"))
  assertAtMostOne l (familySequences (c!"E:.O:O:.-"))
  assertAtMostOne l (familySequences (c!"E:.-',b.-S:.U:.-'y.-'O:.-',_"))
  assertAtMostOne l (familySequences (c!"E:.-n.E:U:.+F:.-'"))
  assertAtMostOne l (familySequences (c!"E:I:.-t.u.-'"))
  assertAtMostOne l (familySequences (c!"E:.+E:U:S:+T:.-M:M:.o.-'"))
  assertAtMostOne l (familySequences (c!"E:F:M:."))
  assertAtMostOne l (familySequences (c!"E:.-F:.M:M:.-l.-'"))
  assertAtMostOne l (familySequences (c!"E:.O:O:.O:.-t.o.-'"))
  assertAtMostOne l (familySequences (c!"E:.O:.M:O:.-"))
  assertAtMostOne l (familySequences (c!"E:S:.j.-'M:O:.-O:.-',"))
  assertAtMostOne l (familySequences (c!"E:M:.d.+M:O:.-"))
  assertAtMostOne l (familySequences (c!"E:O:O:."))
  assertAtMostOne l (familySequences (c!"E:M:O:."))

/-- `check_flexion_quality` (lines 545-566). -/
def checkFlexionQuality (l : List Script) : Except Err Unit := do
  assertAllIn l qualityFlexions
  assertAtMostOne l (familySequences (c!"E:O:O:."))
  assertAtMostOne l (familySequences (c!"E:M:O:."))
  assertAtMostOne l (familySequences (c!"E:M:.-d.u.-'"))
  assertAtMostOne l (familySequences (c!"E:F:M:."))
  assertAtMostOne l (familySequences (c!"E:.O:.M:O:.-"))
  assertAtMostOne l (familySequences (c!"E:M:.d.+M:O:.-"))
  assertAtMostOne l (familySequences (c!"E:.-F:.M:M:.-l.-'"))
  assertAtMostOne l (familySequences (c!"E:.O:O:.O:.-t.o.-'"))
  assertAtMostOne l (familySequences (c!"E:.+E:U:S:+T:.-M:M:.o.-'"))

/-- `check_lexeme_scripts` (lines 569-585); the scripts of the content are not looked at. -/
def checkLexemeScripts {α : Type} (pf _pc : List Script) (sfun : Option (SFun α)) : Except Err Unit :=
  match sfun with
  | some (.process a v acts) => checkFlexionProcess pf (some (.process a v acts))
  | some (.quality (.dep _ _ _)) => checkFlexionActant pf
  | some (.quality (.indep _)) => checkFlexionQuality pf
  | some (.quality (.junction _ _)) => .error .valueError
  | none => .ok ()

end Verif
