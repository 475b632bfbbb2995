import Verif.Model.UslParser

/-
Model of `ieml/usl/decoration/path.py`: paths into USLs, their prefixes, their composition and what they reach, and of the
paths listed by `iter_structure_path` (`polymorpheme.py`, `lexeme.py`, `word.py`, `syntagmatic_function.py`).

A path object is a chain of nodes, the attribute `child` of each being the next one: it is modelled by the list of its nodes,
the empty list is `None`.
-/

namespace Verif
open Script

/-- `GroupIndex` (`path.py` lines 198-202). -/
inductive GIdx where
  | constant | g0 | g1 | g2
  deriving DecidableEq, Repr

/-- The value of a `GroupIndex` other than `CONSTANT`. -/
def GIdx.index : GIdx → Option Nat
  | .constant => none
  | .g0 => some 0
  | .g1 => some 1
  | .g2 => some 2

/-- The nodes of paths, without their children: `UslPath` (lines 28-195), `PolymorphemePath` (lines 205-212), `FlexionPath` (lines
361-369), `LexemePath` (lines 451-465) and `RolePath` (lines 572-588).  The role is modelled by the texts of its scripts. -/
inductive Step where
  | usl
  | pm (g : GIdx) (m : Option Script) (mult : Option Nat)
  | flexion (m : Script)
  /-- `LexemeIndex.CONTENT` if `true`, `LexemeIndex.FLEXION` otherwise -/
  | lexeme (content : Bool)
  | role (r : Addr) (focus : Bool)

/-- Paths; `[]` is `None`. -/
abbrev Path := List Step

/-- The class of a node. -/
inductive PClass where
  | usl | pm | flexion | lexeme | role
  deriving DecidableEq, Repr

/-- `self.__class__`. -/
def Step.cls : Step → PClass
  | .usl => .usl
  | .pm _ _ _ => .pm
  | .flexion _ => .flexion
  | .lexeme _ => .lexeme
  | .role _ _ => .role

/-- `self._do_eq(other)` for two nodes of the same class (lines 157-158, 218-220, 384-385, 479-480, 603-604); scripts are
compared by their texts (`script.py` lines 81-85, `None` is different from all of them), roles too (`syntagmatic_function.py`
lines 39-40). -/
def Step.doEq : Step → Step → Bool
  | .usl, .usl => true
  | .pm g m k, .pm g' m' k' => decide (g = g') && decide (m.map str = m'.map str) && decide (k = k')
  | .flexion m, .flexion m' => decide (m.str = m'.str)
  | .lexeme c, .lexeme c' => c == c'
  | .role r f, .role r' f' => decide (roleText r = roleText r') && f == f'
  | _, _ => false

/-- `self._has_prefix(other)` (lines 53-54, 222-223): the attributes of a `PolymorphemePath` are missing in the others. -/
def Step.basePrefix : Step → Step → Except Err Bool
  | .pm g _ k, .pm g' _ k' => .ok (decide (g = g') && decide (k = k'))
  | .pm _ _ _, _ => .error .attributeError
  | _, _ => .ok false

/-- `has_prefix` (lines 41-51). -/
def hasPrefix : Path → Path → Except Err Bool
  | _, [] => .ok true
  | [], _ :: _ => .error .attributeError
  | s :: p, t :: q =>
    if s.cls ≠ t.cls ∨ s.doEq t = false then s.basePrefix t
    else match p with
      | [] => .ok q.isEmpty
      | _ :: _ => hasPrefix p q

/-- The class of the first node of a path that is not `None`. -/
def headCls : Path → Option PClass
  | [] => none
  | s :: _ => some s.cls

/-- The constructors (lines 31-36, 208-212, 364-369, 454-465, 575-588): the checks on the class of the child.  `DeferenceError`
is a `KeyError`. -/
def construct (s : Step) (child : Path) : Except Err Path :=
  match s, headCls child with
  | .lexeme true, some .flexion | .lexeme true, some .lexeme | .lexeme true, some .role => .error .assertionError
  | .lexeme false, some .pm | .lexeme false, some .lexeme | .lexeme false, some .role => .error .assertionError
  | .role _ _, some .pm | .role _ _, some .flexion | .role _ _, some .role => .error .keyError
  | s, _ => .ok (s :: child)

/-- The conversion of the child by `LexemePath.clone` (lines 519-531). -/
def castChild (content : Bool) (child : Path) : Except Err Path :=
  match child with
  | [] => .ok []
  | .pm g m k :: rest =>
    if content then .ok (.pm g m k :: rest)
    else match m with
      | some m => .ok [.flexion m]
      | none => .ok []
  | .flexion m :: rest => if content then .error .valueError else .ok (.flexion m :: rest)
  | _ => .error .valueError

/-- `clone(use_child=True, child=child)` (lines 166-167, 314-316, 413-414, 519-533, 643-646). -/
def cloneWith (s : Step) (child : Path) : Except Err Path :=
  match s with
  | .lexeme c => do construct s (← castChild c child)
  | s => construct s child

/-- `concat` (lines 62-81).  `clone()` without argument copies the path. -/
def concat (force : Bool) : Path → Path → Except Err Path
  | [], _ => .error .attributeError
  | s :: p, q =>
    if s.cls = .usl then .ok q
    else match q with
      | [] => .error .valueError
      | t :: q =>
        if t.cls = .usl then .ok (s :: p)
        else if s.cls ≠ t.cls then
          match p with
          | [] => cloneWith s (t :: q)
          | _ :: _ => do cloneWith s (← concat force p (t :: q))
        else do
          if !(← hasPrefix (t :: q) (s :: p)) && !force then return s :: p
          return t :: q

/-- `remove_prefix` (lines 83-96); `none` is `None`. -/
def removePrefix : Path → Path → Except Err Path
  | p, [] => .ok p
  | [], _ :: _ => .error .attributeError
  | s :: p, t :: q => do
    if !(← hasPrefix (s :: p) (t :: q)) then return []
    if s.cls ≠ t.cls ∨ s.doEq t = false then return []
    match p with
    | [] => return []
    | _ :: _ => removePrefix p q

/-- `tail` (lines 98-103). -/
def pathTail (p : Path) : Option Step := p.getLast?

/-- `split_tail` (lines 187-194). -/
def splitTail : Path → Except Err (Path × Path)
  | [] => .error .attributeError
  | [s] => .ok ([.usl], [s])
  | [s, t] => do return (← cloneWith s [], [t])
  | s :: t :: u :: p => do
    let r ← splitTail (t :: u :: p)
    return (← cloneWith s r.1, r.2)

/-- `without_morpheme` (lines 59-60, 235-239, 379-382, 471-473, 594-597). -/
def withoutMorpheme : Path → Except Err Path
  | [] => .ok []
  | .usl :: p => do return .usl :: (← withoutMorpheme p)
  | .pm g _ k :: p => do return .pm g none k :: (← withoutMorpheme p)
  | .flexion _ :: _ => .error .valueError
  | .lexeme true :: p => do construct (.lexeme true) (← withoutMorpheme p)
  | .lexeme false :: _ => .ok [.lexeme false]
  | .role r f :: p => do construct (.role r f) (← withoutMorpheme p)

/-- `as_constant(u)` (lines 56-57, 225-229, 375-377, 467-469, 590-593); `u` is a script or `None`. -/
def asConstant (u : Option Script) : Path → Path
  | [] => []
  | .pm _ m _ :: p => .pm .constant (m.orElse fun _ => u) none :: asConstant u p
  | s :: p => s :: asConstant u p

/-- `_is_constant_path` (lines 183-185, 214-216, 371-373, 475-477, 599-601). -/
def Step.isConstant : Step → Bool
  | .usl => false
  | .pm g _ _ => decide (g = .constant)
  | _ => true

/-- `is_constant_path` (lines 176-181); the path is not `None`. -/
def isConstantPath (p : Path) : Bool := p.all Step.isConstant

/-! ### Texts -/

/-- `'group_{}'` and the multiplicity (lines 268-274). -/
def groupName (i : Nat) (k : Option Nat) : Str :=
  c!"group_" ++ decimal i ++ (match k with | some k => ' ' :: decimal k | none => [])

/-- `_to_str` (lines 130-131, 261-274, 399-400, 491-495, 615-616). -/
def Step.text : Step → Str
  | .usl => []
  | .pm g m k =>
    (match g.index with | none => c!"constant" | some i => groupName i k) ++
    (match m with | some m => '>' :: m.str | none => [])
  | .flexion m => m.str
  | .lexeme c => if c then c!"content" else c!"flexion"
  | .role r f => c!"role>" ++ (if f then c!"! " else []) ++ roleText r

/-- `__str__` (lines 133-134). -/
def pathText (p : Path) : Str := p.flatMap fun s => '>' :: s.text

/-! ### What a path reaches -/

/-- What a path can be applied to and what it reaches: `None`, a script or a USL. -/
inductive Node where
  | none
  | expr (e : Expr)

/-- `str(x)`. -/
def Node.text : Node → Str
  | .none => c!"None"
  | .expr e => e.text

/-- `ADDRESS_ROLE_IN_PROCESS` (`usl/constants.py` line 98). -/
def rolesInProcess : List Str := valenceScripts ++ actantScripts

/-- `self.actors[role].actor`, all the items of `actors` (`syntagmatic_function.py` line 99): `none` is a `KeyError`. -/
def SFun.at {α : Type} (f : SFun α) (role : Addr) : Option (Option α) :=
  match f with
  | .quality g => (g.actors.find? fun e => e.1 = role).map fun e => e.2.actor
  | .process a v acts =>
    if role = [v] then some a else ((processActors acts).find? fun e => e.1 = role).map fun e => e.2.actor

/-- `get(role, ignore_prefix=True, ignore_process_valence=True)` (`syntagmatic_function.py` lines 83-99).  A valence, which is a
script, is found in `actors` when a role has its text; `role.constant[0]` raises `IndexError` for an empty role. -/
def SFun.get {α : Type} (f : SFun α) (role : Addr) : Except Err (Option α) := do
  let role ← match role with
    | [] => throw .indexError
    | r :: rest => pure (if r ∈ rolesInProcess then r :: rest else rest)
  let role ← match role with
    | [] => pure []
    | r :: rest =>
      if r ∈ valenceScripts then
        match valenceScripts.find? fun v => (f.at [v]).isSome with
        | some v => pure (v :: rest)
        | none => throw .keyError
      else pure (r :: rest)
  match f.at role with
  | some a => return a
  | none => throw .keyError

/-- `m in group`, a tuple of scripts. -/
def inGroup (m : Script) (g : List Script) : Bool := g.any fun x => x.pyEq m

/-- `isinstance(usl, self.USL_TYPE)` and `self._deference(usl)` (lines 38-39, 241-259, 390-397, 485-489, 609-613 and 111-116).
`DeferenceError` is a `KeyError`; an `IndexError` is not caught. -/
def Step.reach (s : Step) (x : Node) : Except Err Node :=
  match s, x with
  | .usl, .expr (.script _) => .error .keyError
  | .usl, .none => .error .keyError
  | .usl, x => .ok x
  | .pm g m _, .expr (.pm p) =>
    match g.index with
    | none => match m with
      | some m => if !m.empty && !inGroup m p.constant then .error .keyError else .ok (.expr (.script m))
      | none => .ok (.expr (.pm (mkPM p.constant [])))
    | some i => match p.groups[i]? with
      | none => .error .keyError
      | some grp => match m with
        | some m => if !m.empty && !inGroup m grp.1 then .error .keyError else .ok (.expr (.script m))
        | none => .ok (.expr (.pm (mkPM [] [grp])))
  | .flexion m, .expr (.pm p) =>
    if inGroup m (p.constant ++ p.groups.flatMap fun g => filterEmpty g.1) then .ok (.expr (.script m)) else .error .keyError
  | .lexeme c, .expr (.lexeme x) => .ok (.expr (.pm (if c then x.content else x.flexion)))
  | .role r _, .expr (.word w) =>
    match w.sfun.get r with
    | .ok (some x) => .ok (.expr (.lexeme x))
    | .ok none => .ok .none
    | .error e => .error e
  | _, _ => .error .keyError

/-- `deference` (lines 105-121); the path is not `None`. -/
def deference : Path → Node → Except Err Node
  | [], x => .ok x
  | s :: p, x => do deference p (← s.reach x)

/-! ### The paths of a USL -/

/-- The entries of `PolyMorpheme.iter_structure_path` for one group (`polymorpheme.py` lines 195-205). -/
def groupPaths (i : GIdx) (g : Group) : List (Path × Node) :=
  ([.pm i none (some g.2)], .expr (.pm (mkPM [] [g]))) ::
  g.1.map fun m => ([.pm i (some m) (some g.2)], .expr (.script m))

/-- `PolyMorpheme.iter_structure_path()` (`polymorpheme.py` lines 187-205). -/
def PM.paths (p : PM) : List (Path × Node) :=
  ([.pm .constant none none], .expr (.pm (mkPM p.constant []))) ::
  p.constant.map (fun m => ([.pm .constant (some m) none], .expr (.script m))) ++
  (match p.groups with
    | [] => []
    | [a] => groupPaths .g0 a
    | [a, b] => groupPaths .g0 a ++ groupPaths .g1 b
    | a :: b :: c :: _ => groupPaths .g0 a ++ groupPaths .g1 b ++ groupPaths .g2 c)

/-- The child given to the `LexemePath` of the flexion (`lexeme.py` line 58). -/
def flexionChild : Path → Path
  | .pm _ (some m) _ :: _ => [.flexion m]
  | _ => []

/-- `Lexeme.iter_structure_path()` (`lexeme.py` lines 52-63). -/
def Lexeme.paths (x : Lexeme) : List (Path × Node) :=
  ([.lexeme false], .expr (.pm x.flexion)) ::
  x.flexion.paths.map (fun e => (.lexeme false :: flexionChild e.1, e.2)) ++
  ([.lexeme true], .expr (.pm x.content)) ::
  x.content.paths.map fun e => (.lexeme true :: e.1, e.2)

/-- An iteration of the loop of `SyntagmaticFunction.iter_structure_path` (`syntagmatic_function.py` lines 114-119):
`None.iter_structure_path` raises `AttributeError`. -/
def rolePaths (focus : Addr) (e : RoleEntry Lexeme) : Except Err (List (Path × Node)) :=
  let f := decide (roleText e.1 = roleText focus)
  match e.2 with
  | none => .error .attributeError
  | some x => .ok (([.role e.1 f], .expr (.lexeme x)) :: x.paths.map fun y => (.role e.1 f :: y.1, y.2))

/-- `Word.iter_structure_path()` (`word.py` lines 70-74), read to its end. -/
def WordUsl.paths (w : WordUsl) : Except Err (List (Path × Node)) := do
  let l ← (w.sfun.asList w.context).mapM (rolePaths w.role)
  return ([.usl], .expr (.word w)) :: l.flatten

/-- `u.iter_structure_path()` of a USL. -/
def Expr.paths : Expr → Except Err (List (Path × Node))
  | .script _ => .error .attributeError
  | .pm p => .ok p.paths
  | .lexeme x => .ok x.paths
  | .word w => w.paths

end Verif
