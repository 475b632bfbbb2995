import Verif.Model.Py

/-
Model of `ieml/usl/syntagmatic_function.py`: syntagmatic functions, their list form and its reading.

The scripts of an address are compared and hashed by their text (`script.py` lines 81-89), so an address is modelled by the
list of the texts of its scripts.  The actors are arbitrary objects of which the code only asks whether they are `None`.
-/

namespace Verif

/-- An address, the `constant` of a `SyntagmaticRole` (`syntagmatic_function.py` lines 17-25). -/
abbrev Addr := List Str

/-- An element of the lists read by `from_list`: an address and an actor. -/
abbrev RoleEntry (α : Type) := Addr × Option α

/-- `ADDRESS_PROCESS_VALENCE_SCRIPTS` (`usl/constants.py` lines 14-17). -/
def valenceScripts : List Str := [c!"E:S:.", c!"E:T:.", c!"E:B:."]

/-- `ACTANTS_SCRIPTS` (`usl/constants.py` lines 85-99). -/
def actantScripts : List Str :=
  [c!"E:.n.-", c!"E:.d.-", c!"E:.k.-", c!"E:.t.-", c!"E:.l.-", c!"E:.m.-", c!"E:.f.-", c!"E:.s.-"]

/-- `JUNCTION_INDEX` (`usl/constants.py` lines 103-116). -/
def junctionIndex : List Str :=
  [c!"j.-U:.-'d.o.-l.o.-',", c!"j.-A:.-'d.o.-l.o.-',", c!"g.-U:.-'d.o.-l.o.-',", c!"g.-A:.-'d.o.-l.o.-',",
   c!"h.-U:.-'d.o.-l.o.-',", c!"h.-A:.-'d.o.-l.o.-',", c!"c.-U:.-'d.o.-l.o.-',", c!"c.-A:.-'d.o.-l.o.-',",
   c!"p.-U:.-'d.o.-l.o.-',", c!"p.-A:.-'d.o.-l.o.-',", c!"x.-U:.-'d.o.-l.o.-',", c!"x.-A:.-'d.o.-l.o.-',"]

/-- `JUNCTION_SCRIPTS` (`usl/constants.py` lines 119-221). -/
def junctionScripts : List Str :=
  [c!"E:S:.-k.u.-'", c!"E:T:.-k.u.-'", c!"E:B:.-k.u.-'",
   c!"E:.-s.a.-k.u.-'", c!"E:.-b.a.-k.u.-'", c!"E:.-t.a.-k.u.-'",
   c!"E:.-k.a.-k.u.-'", c!"E:.-m.a.-k.u.-'", c!"E:.-n.a.-k.u.-'",
   c!"E:.-d.a.-k.u.-'", c!"E:.-f.a.-k.u.-'", c!"E:.-l.a.-k.u.-'",
   c!"E:.-y.-k.u.-'", c!"E:.-o.-k.u.-'", c!"E:.-e.-k.u.-'",
   c!"E:.-u.-k.u.-'", c!"E:.-a.-k.u.-'", c!"E:.-i.-k.u.-'",
   c!"E:.-wo.-k.u.-'", c!"E:.-wa.-k.u.-'", c!"E:.-we.-k.u.-'", c!"E:.-wu.-k.u.-'",
   c!"E:.-s.u.-k.u.-'", c!"E:.-b.u.-k.u.-'", c!"E:.-t.u.-k.u.-'",
   c!"E:.-k.u.-k.u.-'", c!"E:.-m.u.-k.u.-'", c!"E:.-n.u.-k.u.-'",
   c!"E:.-d.u.-k.u.-'", c!"E:.-f.u.-k.u.-'", c!"E:.-l.u.-k.u.-'"]

/-- `INDEPENDANT_QUALITY` (`usl/constants.py` line 224). -/
def independantQuality : Str := c!"E:U:."

/-- `DEPENDANT_QUALITY` (`usl/constants.py` line 225). -/
def dependantQuality : Str := c!"E:A:."

/-- `ADDRESS_SCRIPTS` (`usl/constants.py` lines 226-227). -/
def addressScripts : List Str :=
  valenceScripts ++ actantScripts ++ [dependantQuality, independantQuality] ++ junctionScripts ++ junctionIndex

/-- The syntagmatic functions below a process: `JunctionSyntagmaticFunction`, `IndependantQualitySyntagmaticFunction` and
`DependantQualitySyntagmaticFunction` (`syntagmatic_function.py` lines 245-347), with the attributes given to their
constructors.  The attribute `actors` is computed by `actors`. -/
inductive SF (α : Type) where
  | junction (link : Str) (children : List (SF α))
  | indep (actor : Option α)
  | dep (actor : Option α) (dependant independant : Option (SF α))

/-- The syntagmatic functions: those above, and `ProcessSyntagmaticFunction` (lines 408-434), which never occurs inside another
function.  The dictionary `actants` is the list of its items in the order of insertion. -/
inductive SFun (α : Type) where
  | quality (f : SF α)
  | process (actor : Option α) (valence : Str) (actants : List (Str × SF α))

/-- The classes returned by `from_list`. -/
inductive SType where
  | process | dependant | independant
deriving DecidableEq

/-- `isinstance(f, JunctionSyntagmaticFunction)`. -/
def SF.isJunction {α : Type} : SF α → Bool
  | .junction _ _ => true
  | _ => false

/-- The attribute `actor` (lines 54, 260, 306, 347). -/
def SF.actor {α : Type} : SF α → Option α
  | .junction _ _ => none
  | .indep a => a
  | .dep a _ _ => a

/-- The address `(link, JUNCTION_INDEX[i])` put before those of the child `i` of a junction (line 256).  The default value is
not used, a junction read from a list has twelve children at most. -/
def childPrefix (link : Str) (i : Nat) : Addr := [link, junctionIndex.getD i []]

mutual

/-- The attribute `actors` (lines 55, 254-260, 306, 341-347) as the list of its items in the order of insertion.  The keys are
different and all their scripts are in `ADDRESS_SCRIPTS`, so that no item replaces another and the constructor of
`SyntagmaticRole` raises nothing (lines 23-25). -/
def SF.actors {α : Type} : SF α → List (Addr × SF α)
  | .junction link cs => ([], .junction link cs) :: actorsL link 0 cs
  | .indep a => [([], .indep a)]
  | .dep a d i => ([], .dep a d i) :: (actorsO independantQuality i ++ actorsO dependantQuality d)

/-- The items of `actors` given by the children of a junction from the index `n` on (lines 256-257). -/
def actorsL {α : Type} (link : Str) : Nat → List (SF α) → List (Addr × SF α)
  | _, [] => []
  | n, f :: fs => f.actors.map (fun e => (childPrefix link n ++ e.1, e.2)) ++ actorsL link (n + 1) fs

/-- The items of `actors` given by `dependant` or `independant` (lines 343-344). -/
def actorsO {α : Type} (role : Str) : Option (SF α) → List (Addr × SF α)
  | none => []
  | some f => f.actors.map fun e => (role :: e.1, e.2)

end

/-- The attribute `actors` of a process (lines 431-434), for the items which are not the process itself. -/
def processActors {α : Type} (actants : List (Str × SF α)) : List (Addr × SF α) :=
  actants.flatMap fun e => e.2.actors.map fun x => (e.1 :: x.1, x.2)

/-- The list comprehension of `as_list` on items of `actors` (lines 183-184). -/
def listed {α : Type} (pre : Addr) (items : List (Addr × SF α)) : List (RoleEntry α) :=
  (items.filter fun e => !e.2.isJunction).map fun e => (pre ++ e.1, e.2.actor)

/-- `get_context_role_prefix` (lines 128-136) on the classes returned by `from_list`. -/
def SType.pre : SType → Addr
  | .process => []
  | .dependant => [dependantQuality]
  | .independant => [independantQuality]

/-- `SyntagmaticFunction.as_list` (lines 177-184). -/
def SFun.asList {α : Type} (t : SType) : SFun α → List (RoleEntry α)
  | .quality f => listed t.pre f.actors
  | .process a v acts => (t.pre ++ [v], a) :: listed t.pre (processActors acts)

/-- `address[0]` (lines 193, 265): `IndexError` on an empty address. -/
def headOf {α : Type} (e : RoleEntry α) : Except Err Str :=
  match e.1 with
  | [] => .error .indexError
  | r :: _ => .ok r

/-- `JUNCTION_INDEX.index(address[1])` and `address[2:]` (lines 285-287): `IndexError` if the address is too short,
`ValueError` if the script is not an index. -/
def splitIndex {α : Type} (e : RoleEntry α) : Except Err (Nat × RoleEntry α) :=
  match e.1 with
  | _ :: i :: rest => if i ∈ junctionIndex then .ok (junctionIndex.idxOf i, (rest, e.2)) else .error .valueError
  | _ => .error .indexError

/-- The loop filling `groups` (lines 289-293) over the keys of `_groups`. -/
def checkGroups (n : Nat) : List Nat → Except Err Unit
  | [] => .ok ()
  | i :: is => if i > n then .error .valueError else if i = n then .error .indexError else checkGroups n is

/-- `JunctionSyntagmaticFunction._from_list` (lines 263-295); `rec` is `context._from_list`. -/
def junctionFrom {α : Type} (rec : List (RoleEntry α) → Except Err (SF α)) (l : List (RoleEntry α)) : Except Err (SF α) := do
  let heads ← l.mapM headOf
  match dedupBy id (heads.filter fun h => decide (h ∈ junctionScripts)) with
  | [link] =>
    let es ← l.mapM splitIndex
    let keys := dedupBy id (es.map fun e => e.1)
    checkGroups keys.length keys
    let children ← (List.range keys.length).mapM fun i => rec ((es.filter fun e => e.1 = i).map fun e => e.2)
    return .junction link children
  | _ => throw .valueError

/-- `IndependantQualitySyntagmaticFunction._from_list` (lines 309-328); `rec` is the function itself, called on shorter
addresses. -/
def indepFrom {α : Type} (rec : List (RoleEntry α) → Except Err (SF α)) (l : List (RoleEntry α)) : Except Err (SF α) :=
  match l with
  | [([], x)] => .ok (.indep x)
  | _ => junctionFrom rec l

/-- The variables of the loop of `DependantQualitySyntagmaticFunction._from_list` (lines 351-355). -/
structure DepState (α : Type) where
  actor : Option α
  dependant : List (RoleEntry α)
  independant : List (RoleEntry α)
  junction : Bool

/-- An iteration of that loop (lines 357-375). -/
def depStep {α : Type} (st : DepState α) (e : RoleEntry α) : Except Err (DepState α) :=
  match e.1 with
  | [] => match st.actor with
    | some _ => .error .valueError
    | none => .ok { st with actor := e.2 }
  | role :: rest =>
    if role ∈ junctionScripts then .ok { st with junction := true }
    else if st.junction then .error .valueError
    else if role = independantQuality then .ok { st with independant := st.independant ++ [(rest, e.2)] }
    else if role = dependantQuality then .ok { st with dependant := st.dependant ++ [(rest, e.2)] }
    else .error .valueError

/-- `if l: f(l)` else `None` (lines 380-386). -/
def optFrom {α : Type} (rec : List (RoleEntry α) → Except Err (SF α)) (l : List (RoleEntry α)) : Except Err (Option (SF α)) :=
  match l with
  | [] => .ok none
  | _ => (rec l).map some

/-- `DependantQualitySyntagmaticFunction._from_list` (lines 350-388); `recD` and `recI` are the functions of both classes, called
on shorter addresses. -/
def depFrom {α : Type} (recD recI : List (RoleEntry α) → Except Err (SF α)) (l : List (RoleEntry α)) : Except Err (SF α) := do
  let st ← l.foldlM depStep ⟨none, [], [], false⟩
  if st.junction then junctionFrom recD l
  else
    let d ← optFrom recD st.dependant
    let i ← optFrom recI st.independant
    return .dep st.actor d i

/-- `IndependantQualitySyntagmaticFunction._from_list` with `n` nested calls at most; `RecursionError`, here
`assertionError`, beyond that (never reached with the fuel of `fromList`, see `C50`). -/
def fromI {α : Type} : Nat → List (RoleEntry α) → Except Err (SF α)
  | 0, _ => .error .assertionError
  | n + 1, l => indepFrom (fromI n) l

/-- `DependantQualitySyntagmaticFunction._from_list` with `n` nested calls at most. -/
def fromD {α : Type} : Nat → List (RoleEntry α) → Except Err (SF α)
  | 0, _ => .error .assertionError
  | n + 1, l => depFrom (fromD n) (fromI n) l

/-- The variables of the loop of `ProcessSyntagmaticFunction._from_list` (lines 438-440). -/
structure ProcState (α : Type) where
  actor : Option α
  valence : Str
  actants : List (Str × List (RoleEntry α))

/-- `_actants[role].append(e)` of a `defaultdict(list)` (line 454). -/
def addActant {α : Type} (role : Str) (e : RoleEntry α) : List (Str × List (RoleEntry α)) → List (Str × List (RoleEntry α))
  | [] => [(role, [e])]
  | g :: gs => if g.1 = role then (g.1, g.2 ++ [e]) :: gs else g :: addActant role e gs

/-- An iteration of that loop (lines 442-458); the addresses are not empty, `from_list` has read their first scripts. -/
def procStep {α : Type} (st : ProcState α) (e : RoleEntry α) : Except Err (ProcState α) :=
  match e.1 with
  | [] => .error .indexError
  | role :: rest =>
    if role ∈ valenceScripts then
      if rest ≠ [] ∨ st.actor.isSome then .error .valueError else .ok { st with actor := e.2, valence := role }
    else if role ∈ actantScripts then
      if ((role :: rest).filter fun a => decide (a ∈ actantScripts)).length = 1 then
        .ok { st with actants := addActant role (rest, e.2) st.actants }
      else .error .valueError
    else .error .valueError

/-- `ProcessSyntagmaticFunction._from_list` (lines 437-467). -/
def processFrom {α : Type} (n : Nat) (l : List (RoleEntry α)) : Except Err (SFun α) := do
  let st ← l.foldlM procStep ⟨none, [], []⟩
  let acts ← st.actants.mapM fun g => do return (g.1, ← fromD n g.2)
  return .process st.actor st.valence acts

/-- A number of nested calls that is enough for the list `l`. -/
def depthOf {α : Type} (l : List (RoleEntry α)) : Nat := (l.map fun e => e.1.length).foldl max 0 + 1

/-- `SyntagmaticFunction.from_list` (lines 187-216). -/
def fromList {α : Type} (l : List (RoleEntry α)) : Except Err (SType × SFun α) := do
  if l.isEmpty then throw .valueError
  let roles ← l.mapM headOf
  let children := l.map fun e => (e.1.drop 1, e.2)
  let count := (roles.filter fun r => decide (r ∈ valenceScripts)).length
  if count = 1 then return (.process, ← processFrom (depthOf l) l)
  else if count > 1 then throw .valueError
  else match dedupBy id roles with
    | [role] =>
      if role = dependantQuality then return (.dependant, .quality (← fromD (depthOf l) children))
      else if role = independantQuality then return (.independant, .quality (← fromI (depthOf l) children))
      else throw .valueError
    | _ => throw .valueError

end Verif
