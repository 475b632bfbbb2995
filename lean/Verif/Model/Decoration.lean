import Verif.Model.Path

/-
Model of `ieml/usl/decoration/instance.py` and of the class `DecoratedComponent` (`ieml/commons.py` lines 211-227): the literals
attached to the components of a USL, the global `LiteralContext` and the construction of `InstancedUSL`.

Literals are attributes of objects, so that identities matter.  A `World` is the state of the process: the literal of every object
and the stack of the global `LiteralContext`.  The first part is written for any type of objects, any deference and any listing;
the second part gives the objects reached and listed for USLs.

An exception leaves the world as it was when it was raised: the functions return their outcome and the world.
-/

namespace Verif
open Script

/-- The attributes `_literal` of all the objects and `literal_context().stack` (the last pushed object is the first one). -/
structure World (ρ : Type) where
  lit : ρ → Option Str
  stack : List ρ

variable {ρ : Type} [DecidableEq ρ]

/-- `LiteralContext.__enter__` (`instance.py` lines 13-14). -/
def World.enter (w : World ρ) : World ρ := { w with stack := [] }

/-- `clear_literal` (`commons.py` lines 217-218). -/
def World.clear (w : World ρ) (r : ρ) : World ρ := { w with lit := fun x => if x = r then none else w.lit x }

/-- `LiteralContext.__exit__` (`instance.py` lines 16-19), called for all the ways out of the `with`. -/
def World.exit (w : World ρ) : World ρ := { w.stack.foldl World.clear w with stack := [] }

/-- `set_literal` (`commons.py` lines 220-224). -/
def World.set (w : World ρ) (r : ρ) (v : Str) : World ρ :=
  { lit := fun x => if x = r then some v else w.lit x, stack := r :: w.stack }

/-- What the construction of an `InstancedUSL` uses of its USL: the object reached by a path (`deference`), or `none` for `None`;
the paths and objects of `iter_structure_path(flexion)`. -/
structure Objects (ρ : Type) where
  reach : Path → Except Err (Option ρ)
  listing : Bool → Except Err (List (Path × ρ))

/-- An argument of the constructor: a `Decoration` (its path and its value) or `none` for anything else. -/
abbrev DecArg := Option (Path × Str)

/-- `Decoration.apply` (`instance.py` lines 34-36): `None` has no attribute `set_literal`. -/
def applyDecoration (o : Objects ρ) (d : Path × Str) (w : World ρ) : Except Err Unit × World ρ :=
  match o.reach d.1 with
  | .error e => (.error e, w)
  | .ok none => (.error .attributeError, w)
  | .ok (some r) => (.ok (), w.set r d.2)

/-- `isinstance(decoration.path, FlexionPath)` (line 65). -/
def isFlexionPath : Path → Bool
  | .flexion _ :: _ => true
  | _ => false

/-- The loop of the constructor (lines 60-67); returns `self.flexion`. -/
def applyAll (o : Objects ρ) : List DecArg → Bool → World ρ → Except Err Bool × World ρ
  | [], flexion, w => (.ok flexion, w)
  | none :: _, _, w => (.error .valueError, w)
  | some d :: ds, flexion, w =>
    match applyDecoration o d w with
    | (.error e, w) => (.error e, w)
    | (.ok (), w) => applyAll o ds (isFlexionPath d.1 || flexion) w

/-- `list_decorations` (lines 71-79).  `ord` is what `sorted` does to the list; the comparison of decorations (lines 41-42,
`path.py` lines 151-161) and the sorted list are in `Model/PathOrder` (`decLt`, `decSorted`). -/
def listDecorations (ord : List (Path × Str) → List (Path × Str)) (o : Objects ρ) (flexion : Bool) (w : World ρ) :
    Except Err (List (Path × Str)) :=
  (o.listing flexion).map fun l => ord (l.filterMap fun e => (w.lit e.2).map fun v => (e.1, v))

/-- `InstancedUSL.__init__` (lines 51-69); returns the attribute `decorations`. -/
def instanced (ord : List (Path × Str) → List (Path × Str)) (o : Objects ρ) (ds : List DecArg) (w : World ρ) :
    Except Err (List (Path × Str)) × World ρ :=
  match applyAll o ds false w.enter with
  | (.error e, w) => (.error e, w.exit)
  | (.ok flexion, w) => (listDecorations ord o flexion w, w.exit)

/-- `InstancedUSL.from_usl` (lines 81-83). -/
def instancedFrom (ord : List (Path × Str) → List (Path × Str)) (o : Objects ρ) (w : World ρ) :
    Except Err (List (Path × Str)) × World ρ :=
  match listDecorations ord o false w with
  | .error e => (.error e, w)
  | .ok ds => instanced ord o (ds.map some) w

/-- `contained` (`path.py` lines 123-128): `DeferenceError`, a `KeyError`, means no; other exceptions leave it. -/
def containedIn (o : Objects ρ) (p : Path) : Except Err Bool :=
  match o.reach p with
  | .ok _ => .ok true
  | .error .keyError => .ok false
  | .error e => .error e

/-- An iteration of the loop of `InstancedUSL._compute_singular_sequences` (lines 107-118) for the objects of a singular sequence:
the decorations of the instance, `none` if there is none. -/
def instancedOne (ord : List (Path × Str) → List (Path × Str)) (ds : List (Path × Str)) (o : Objects ρ) (w : World ρ) :
    Except Err (Option (List (Path × Str))) × World ρ :=
  match ds.filterM fun d => containedIn o d.1 with
  | .error e => (.error e, w.enter.exit)
  | .ok [] => (.ok none, w.enter.exit)
  | .ok (d :: dec) => match instanced ord o ((d :: dec).map some) w.enter with
    | (r, w) => (r.map some, w.exit)

/-- `InstancedUSL._compute_singular_sequences` (lines 105-120) for the objects of the singular sequences. -/
def instancedSequences (ord : List (Path × Str) → List (Path × Str)) (ds : List (Path × Str)) :
    List (Objects ρ) → World ρ → Except Err (List (Option (List (Path × Str)))) × World ρ
  | [], w => (.ok [], w)
  | o :: os, w => match instancedOne ord ds o w with
    | (.error e, w) => (.error e, w)
    | (.ok x, w) => match instancedSequences ord ds os w with
      | (r, w) => (r.map (x :: ·), w)

/-- `__str__` of a `Decoration` (lines 38-39). -/
def decorationText (d : Path × Str) : Str :=
  c!"[" ++ pathText d.1 ++ c!" \"" ++ d.2.flatMap (fun c => if c = '"' then c!"\\\"" else [c]) ++ c!"\"]"

/-! ### The objects of a USL -/

/-- The objects of a USL: the USL itself, the lexeme of a role (the key of the dictionary `actors`), the flexion (`false`) and the
content of a lexeme, scripts, and the polymorphemes that are built each time a path without morpheme is followed or listed.

Scripts are shared: `t_parse` keeps what it read (`dictionary/script/parser/parser.py` lines 32-38), so that the scripts read from
the same text are the same object.  The key of a script stands for its identity; it is a function of the text of the script, one for
the scripts of the USL and one for those of the paths.  The lexemes of a word and their polymorphemes are
different objects, as in the words read from texts. -/
inductive Ref where
  | root
  | actor (a : Addr)
  | half (r : Ref) (content : Bool)
  | script (key : Str)
  | temp (listed : Bool) (path : Str)
  deriving DecidableEq, Repr

/-- The key of `self.actors` found by `get` (`syntagmatic_function.py` lines 83-98). -/
def SFun.slot {α : Type} (f : SFun α) (role : Addr) : Except Err Addr := do
  let role ← match role with
    | [] => throw .indexError
    | r :: rest => pure (if r ∈ rolesInProcess then r :: rest else rest)
  match role with
    | [] => pure []
    | r :: rest =>
      if r ∈ valenceScripts then
        match valenceScripts.find? fun v => (f.at [v]).isSome with
        | some v => pure (v :: rest)
        | none => throw .keyError
      else pure (r :: rest)

/-- The key of the lexeme a role leads to in a USL; not used unless `deference` succeeds. -/
def slotOf (u : Expr) (role : Addr) : Addr :=
  match u with
  | .word w => match w.sfun.slot role with
    | .ok a => a
    | .error _ => []
  | _ => []

/-- The object a path leads to from the object `r` (`path.py` lines 38-39, 241-259, 390-397, 485-489, 609-613), when `deference`
succeeds.  A morpheme is the object of the path, not that of the USL (lines 247, 256, 397): `pk` is its identity. -/
def refAt (pk : Str → Str) (u : Expr) : Ref → Path → Ref
  | r, [] => r
  | r, .usl :: p => refAt pk u r p
  | _, .pm _ (some m) _ :: p => refAt pk u (.script (pk m.str)) p
  | _, .pm g none k :: p => refAt pk u (.temp false (pathText [.pm g none k])) p
  | _, .flexion m :: p => refAt pk u (.script (pk m.str)) p
  | r, .lexeme c :: p => refAt pk u (.half r c) p
  | _, .role a _ :: p => refAt pk u (.actor (slotOf u a)) p

/-- `path.deference(u)`, as an object. -/
def reachRef (pk : Str → Str) (u : Expr) (p : Path) : Except Err (Option Ref) := do
  match ← deference p (.expr u) with
  | .none => return none
  | .expr _ => return some (refAt pk u .root p)

/-- The objects listed for a group (`polymorpheme.py` lines 195-205). -/
def groupObjs (uk : Str → Str) (i : GIdx) (g : Group) : List (Path × Ref) :=
  ([.pm i none (some g.2)], .temp true (pathText [.pm i none (some g.2)])) ::
  g.1.map fun m => ([.pm i (some m) (some g.2)], .script (uk m.str))

/-- The objects listed by `PolyMorpheme.iter_structure_path()` (`polymorpheme.py` lines 187-205); `uk` is the identity of the
morphemes of the USL. -/
def PM.objs (uk : Str → Str) (p : PM) : List (Path × Ref) :=
  ([.pm .constant none none], .temp true (pathText [.pm .constant none none])) ::
  p.constant.map (fun m => ([.pm .constant (some m) none], .script (uk m.str))) ++
  (match p.groups with
    | [] => []
    | [a] => groupObjs uk .g0 a
    | [a, b] => groupObjs uk .g0 a ++ groupObjs uk .g1 b
    | a :: b :: c :: _ => groupObjs uk .g0 a ++ groupObjs uk .g1 b ++ groupObjs uk .g2 c)

/-- The objects listed by `Lexeme.iter_structure_path()` (`lexeme.py` lines 52-63) for the lexeme `r`. -/
def Lexeme.objs (uk : Str → Str) (r : Ref) (x : Lexeme) : List (Path × Ref) :=
  ([.lexeme false], .half r false) ::
  (x.flexion.objs uk).map (fun e => (.lexeme false :: flexionChild e.1, e.2)) ++
  ([.lexeme true], .half r true) ::
  (x.content.objs uk).map fun e => (.lexeme true :: e.1, e.2)

/-- The objects listed for a role (`syntagmatic_function.py` lines 114-119); `pre` is the prefix put by `as_list`. -/
def roleObjs (uk : Str → Str) (pre : Addr) (focus : Addr) (e : RoleEntry Lexeme) : Except Err (List (Path × Ref)) :=
  let f := decide (roleText e.1 = roleText focus)
  let r := Ref.actor (e.1.drop pre.length)
  match e.2 with
  | none => .error .attributeError
  | some x => .ok (([.role e.1 f], r) :: (x.objs uk r).map fun y => (.role e.1 f :: y.1, y.2))

/-- The objects listed by `Word.iter_structure_path()` (`word.py` lines 70-74). -/
def WordUsl.objs (uk : Str → Str) (w : WordUsl) : Except Err (List (Path × Ref)) := do
  let l ← (w.sfun.asList w.context).mapM (roleObjs uk w.context.pre w.role)
  return ([.usl], .root) :: l.flatten

/-- `u.iter_structure_path(flexion)`: the constructor of `FlexionPath` does not accept `None`, the first path of a polymorpheme
when `flexion` is true (`polymorpheme.py` lines 190-193, `path.py` line 368); lexemes and words do not use `flexion`. -/
def objsOf (uk : Str → Str) (u : Expr) (flexion : Bool) : Except Err (List (Path × Ref)) :=
  match u with
  | .script _ => .error .attributeError
  | .pm p => if flexion then .error .assertionError else .ok (p.objs uk)
  | .lexeme x => .ok (x.objs uk .root)
  | .word w => w.objs uk

/-- A USL for `InstancedUSL`. -/
def uslObjects (pk uk : Str → Str) (u : Expr) : Objects Ref where
  reach := reachRef pk u
  listing := objsOf uk u

end Verif
