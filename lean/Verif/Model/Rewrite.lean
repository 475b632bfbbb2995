import Verif.Model.WordCheck

/-
Model of `rewrite_word` (`scripts/database_management/rewrite_words.py` lines 19-44), which removes the flexions taken by default and
the empty roles of the words of the database.
-/

namespace Verif
open Script

/-- `TO_REMOVE.get(sfun.__class__, [])` (`rewrite_words.py` lines 19-25, 37). -/
def flexionsToRemove : FunClass → List Str
  | .process => [c!"E:.-'we.-S:.-'t.o.-',", c!"E:.-'wu.-S:.-'t.o.-',", c!"E:.-wa.-t.o.-'"]
  | .dependant => [c!"E:.wo.-", c!"E:S:.-d.u.-'"]
  | .independant => []
  | .junction => []

/-- The functions of the loop of `rewrite_word` that are not left out (`rewrite_words.py` lines 32-35), with their classes; the condition is
that of `simplify_word`. -/
def keptFuns (role : Addr) : SFun Lexeme → List (FunClass × RoleEntry Lexeme)
  | .quality f => (f.actors.filter fun e => !(blank (e.2.actors.map fun x => x.2.actor) && !onRole role e.1)).map fun e => (e.2.cls, e.1, e.2.actor)
  | .process a v acts =>
    (if blank (SFun.process a v acts).actorList && !onRole role [v] then [] else [(.process, [v], a)]) ++
    ((processActors acts).filter fun e => !(blank (e.2.actors.map fun x => x.2.actor) && !onRole role e.1)).map fun e => (e.2.cls, e.1, e.2.actor)

/-- `Lexeme(PolyMorpheme(constant=actor_flexion), sfun.actor.pm_content)` (`rewrite_words.py` lines 37-39). -/
def rewriteLexeme (c : FunClass) (x : Lexeme) : Lexeme :=
  mkLexeme (mkPM (x.flexion.constant.filter fun s => !decide (str s ∈ flexionsToRemove c)) []) x.content

/-- The element appended to `res` (`rewrite_words.py` lines 37-39): `None` has no `pm_flexion`, `AttributeError`. -/
def rewriteEntry (e : FunClass × RoleEntry Lexeme) : Except Err (RoleEntry Lexeme) :=
  match e.2.2 with
  | none => .error .attributeError
  | some x => .ok (e.2.1, some (rewriteLexeme e.1 x))

/-- `word_role` (`rewrite_words.py` lines 29-30). -/
def wordRole (w : WordUsl) : Addr :=
  match w.sfun.cls with
  | .dependant | .independant => w.role.drop 1
  | _ => w.role

/-- `rewrite_word` (`rewrite_words.py` lines 27-44).  As in `simplifyWord`, a process without its own entry is refused by the constructor of
`SyntagmaticRole`, and the second argument of `JunctionSyntagmaticFunction._from_list` is missing. -/
def rewriteWord (w : WordUsl) : Except Err WordUsl := do
  let res ← (keptFuns (wordRole w) w.sfun).mapM rewriteEntry
  match w.sfun with
  | .process _ v _ => do
    let f ← processFrom (depthOf res) res
    if !(res.any fun e => decide (e.1 = [v])) then throw .valueError
    mkWord f w.role .process
  | .quality (.dep _ _ _) => do
    let f ← fromD (depthOf res) res
    mkWord (.quality f) w.role .dependant
  | .quality (.indep _) => do
    let f ← fromI (depthOf res) res
    mkWord (.quality f) w.role .independant
  | .quality (.junction _ _) => .error .typeError

end Verif
