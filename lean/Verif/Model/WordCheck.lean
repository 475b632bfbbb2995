import Verif.Model.Usl

/-
Model of the checks of words (`ieml/usl/word.py` lines 12-23, `usl/lexeme.py` lines 5-11, `usl/constants.py` lines 408-504 and
the methods `check` of `usl/syntagmatic_function.py`), of `simplify_word` (`word.py` lines 26-42) and of the properties
`morphemes` and `empty` of lexemes and words.
-/

namespace Verif
open Script

/-- The class of a syntagmatic function, passed as `sfun_type` (`word.py` lines 17, 23). -/
inductive FunClass where
  | junction | process | dependant | independant
deriving DecidableEq

/-- `f.__class__`. -/
def SF.cls {α : Type} : SF α → FunClass
  | .junction _ _ => .junction
  | .indep _ => .independant
  | .dep _ _ _ => .dependant

/-- `f.__class__`. -/
def SFun.cls {α : Type} : SFun α → FunClass
  | .quality f => f.cls
  | .process _ _ _ => .process

/-- `sum(1 if s in _set else 0 for s in l)` (`usl/constants.py` lines 422, 433, 441). -/
def countIn (l : Addr) (set : List Str) : Nat := (l.filter fun s => decide (s ∈ set)).length

/-- `check_address_script` (`usl/constants.py` lines 490-504); `true` when it raises nothing, otherwise it raises `ValueError`.
The empty scripts accepted by `assert_all_in` (line 415) are not considered: a `SyntagmaticRole` has none
(`syntagmatic_function.py` lines 24-26). -/
def checkAddress (k : FunClass) (l : Addr) : Bool :=
  l.all (fun s => decide (s ∈ addressScripts)) &&
  (!(l.any fun s => decide (s ∈ valenceScripts ++ actantScripts)) || countIn l (valenceScripts ++ actantScripts) == 1) &&
  decide (countIn l [independantQuality] ≤ 1) &&
  (match k with
   | .dependant => countIn l (valenceScripts ++ actantScripts) == 0
   | .independant => countIn l (valenceScripts ++ actantScripts ++ [dependantQuality]) == 0
   | _ => true)

/-- `isinstance(self.actor, X)` and `check_X(self.actor)` (`syntagmatic_function.py` lines 220-224); the actors are of the class
`X` or `None`. -/
def checkActor {α : Type} (chk : α → Bool) : Option α → Bool
  | none => false
  | some x => chk x

mutual

/-- `check` of the functions below a process (lines 218-231, 297-301, 390-405): no exception is raised, otherwise `ValueError`.  The
tests on the classes of `dependant` and `independant` (lines 394, 401) hold for the functions read from lists. -/
def SF.check {α : Type} (chk : α → Bool) (k : FunClass) : SF α → Bool
  | .junction link cs => (SF.junction link cs).actors.all (fun e => checkAddress k e.1) && checkL chk k cs
  | .indep a => checkActor chk a && (SF.indep a).actors.all (fun e => checkAddress k e.1)
  | .dep a d i => checkActor chk a && (SF.dep a d i).actors.all (fun e => checkAddress k e.1) && checkO chk k i && checkO chk k d

/-- The loop over the children of a junction (lines 300-301). -/
def checkL {α : Type} (chk : α → Bool) (k : FunClass) : List (SF α) → Bool
  | [] => true
  | f :: fs => f.check chk k && checkL chk k fs

/-- `if f is not None: f.check(…)` (lines 393-405). -/
def checkO {α : Type} (chk : α → Bool) (k : FunClass) : Option (SF α) → Bool
  | none => true
  | some f => f.check chk k

end

/-- The order in which `ProcessSyntagmaticFunction.check` visits the actants (lines 472-479). -/
def checkedActants : List Str :=
  [c!"E:.n.-", c!"E:.d.-", c!"E:.k.-", c!"E:.t.-", c!"E:.l.-", c!"E:.m.-", c!"E:.s.-", c!"E:.f.-"]

/-- `check` of a function (lines 218-231, 297-301, 390-405, 469-486). -/
def SFun.check {α : Type} (chk : α → Bool) (k : FunClass) : SFun α → Bool
  | .quality f => f.check chk k
  | .process a v acts =>
    checkActor chk a && checkAddress k [v] && (processActors acts).all (fun e => checkAddress k e.1) &&
    checkedActants.all fun r =>
      match acts.find? fun g => g.1 = r with
      | none => true
      | some g => g.2.check chk k

/-- `check_lexeme` (`lexeme.py` lines 5-11). -/
def Lexeme.check (x : Lexeme) : Bool := x.flexion.check && x.content.check

/-- `check_word` (`word.py` lines 12-23), `Word.check` (lines 89-90). -/
def WordUsl.check (w : WordUsl) : Bool := checkAddress w.sfun.cls w.role && w.sfun.check Lexeme.check w.sfun.cls

/-- `Lexeme.morphemes` (`lexeme.py` lines 88-90). -/
def Lexeme.morphemes (x : Lexeme) : List Script := pySort Script.lt (dedupBy str (x.flexion.morphemes ++ x.content.morphemes))

/-- The actors of all the items of `actors`, in the order of insertion; the actor of a junction is `None`. -/
def SFun.actorList {α : Type} : SFun α → List (Option α)
  | .quality f => f.actors.map fun e => e.2.actor
  | .process a _ acts => a :: (processActors acts).map fun e => e.2.actor

/-- `e.actor.morphemes` (`word.py` line 86): `AttributeError` for `None`. -/
def actorMorphemes : Option Lexeme → Except Err (List Script)
  | none => .error .attributeError
  | some x => .ok x.morphemes

/-- `Word.morphemes` (`word.py` lines 84-87). -/
def WordUsl.morphemes (w : WordUsl) : Except Err (List Script) := do
  let ms ← w.sfun.actorList.mapM actorMorphemes
  return pySort Script.lt (dedupBy str ms.flatten)

/-- The attribute `actor` of a function. -/
def SFun.actor {α : Type} : SFun α → Option α
  | .quality f => f.actor
  | .process a _ _ => a

/-- `Word.empty` (`word.py` lines 75-77, `syntagmatic_function.py` lines 79-81). -/
def WordUsl.empty (w : WordUsl) : Except Err Bool :=
  match w.sfun.actor with
  | none => .error .attributeError
  | some x => .ok (x.empty && w.sfun.actorList.length == 0)

/-- `all(l.actor.empty for l in sfun.actors.values() if l.actor is not None)` (`word.py` line 34). -/
def blank (l : List (Option Lexeme)) : Bool :=
  l.all fun a => match a with
    | none => true
    | some x => x.empty

/-- `not (len(word_role) < len(r.constant) or any(rw != rn for rw, rn in zip(word_role, r.constant)))` (`word.py` line 35). -/
def onRole (role r : Addr) : Bool := !(decide (role.length < r.length) || (role.zip r).any fun x => x.1 != x.2)

/-- The list `res` of `simplify_word` (`word.py` lines 33-38). -/
def keptEntries (role : Addr) : SFun Lexeme → List (RoleEntry Lexeme)
  | .quality f => (f.actors.filter fun e => !(blank (e.2.actors.map fun x => x.2.actor) && !onRole role e.1)).map fun e => (e.1, e.2.actor)
  | .process a v acts =>
    (if blank (SFun.process a v acts).actorList && !onRole role [v] then [] else [([v], a)]) ++
    ((processActors acts).filter fun e => !(blank (e.2.actors.map fun x => x.2.actor) && !onRole role e.1)).map fun e => (e.1, e.2.actor)

/-- `simplify_word` (`word.py` lines 26-42).  `JunctionSyntagmaticFunction._from_list` has a second argument, which is missing here:
`TypeError`.  A process without its own entry gets the valence `None`, which the constructor of `SyntagmaticRole` refuses
(`syntagmatic_function.py` lines 24-26, 55, 432). -/
def simplifyWord (w : WordUsl) : Except Err WordUsl :=
  match w.sfun with
  | .process a v acts => do
    let res := keptEntries w.role (.process a v acts)
    let f ← processFrom (depthOf res) res
    if !(res.any fun e => decide (e.1 = [v])) then throw .valueError
    mkWord f w.role .process
  | .quality (.dep a d i) => do
    let res := keptEntries (w.role.drop 1) (.quality (.dep a d i))
    let f ← fromD (depthOf res) res
    mkWord (.quality f) w.role .dependant
  | .quality (.indep a) => do
    let res := keptEntries (w.role.drop 1) (.quality (.indep a))
    let f ← fromI (depthOf res) res
    mkWord (.quality f) w.role .independant
  | .quality (.junction _ _) => .error .typeError

end Verif
