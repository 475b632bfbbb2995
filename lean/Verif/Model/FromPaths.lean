import Verif.Model.PathParser

/-
Model of `usl_from_path_values` (`ieml/usl/decoration/path.py` lines 688-738) and of the functions `build_usl_from_path_to_node` of
the classes of paths, which assemble a USL from paths and values.

`ord` is the order in which Python lists a set of values: an arbitrary rearrangement of it.

A value that is neither a script nor a USL built below it, given where the code expects another kind of value, ends in
`Err.unmodelled` where the code would go on with ill-typed objects.
-/

namespace Verif
open Script

/-- `d.get(k)` of a dictionary; the keys are compared by `key`. -/
def dictGet {α β κ : Type} [DecidableEq κ] (key : α → κ) (k : α) : List (α × β) → Option β
  | [] => none
  | e :: l => if key e.1 = key k then some e.2 else dictGet key k l

/-- `d[k] = v`: the first key is kept. -/
def dictSet {α β κ : Type} [DecidableEq κ] (key : α → κ) (k : α) (v : β) : List (α × β) → List (α × β)
  | [] => [(k, v)]
  | e :: l => if key e.1 = key k then (e.1, v) :: l else e :: dictSet key k v l

/-- `s.add(x)` of a set, whose elements are compared by `key`. -/
def setAdd {α κ : Type} [DecidableEq κ] (key : α → κ) (x : α) (s : List α) : List α :=
  if s.any fun y => decide (key y = key x) then s else s ++ [x]

/-- `usl_parser.parse(v)` (`usl/parser/parser.py` lines 42-58); the instances are not modelled. -/
def readValue (v : Str) : Except Err Expr := do
  let r ← uslRead v
  if r.2.isEmpty then return r.1 else throw .unmodelled

/-- `path_to_value` (lines 695-697): the paths are all read before the values; paths and values are compared by their texts. -/
def pathToValue (l : List (Str × Str)) : Except Err (List (Path × List Expr)) := do
  let ps ← l.mapM fun e => pathRead e.1
  let vs ← l.mapM fun e => readValue e.2
  let d := ps.foldl (fun d p => dictSet pathText p [] d) []
  return (ps.zip vs).foldl (fun d e => dictSet pathText e.1 (setAdd Expr.text e.2 ((dictGet pathText e.1 d).getD [])) d) d

/-- The trees of `usl_from_path_values` (line 699): the keys `'type'` and `'node'`, and the items whose keys are paths without
children. -/
inductive Bin where
  | mk (type : Option PClass) (node : Option (List Expr)) (kids : List (Step × Bin))

/-- A new `Tree()`. -/
def Bin.empty : Bin := .mk none none []

/-- `bin['node'] = values`. -/
def Bin.setNode (values : List Expr) : Bin → Bin
  | .mk t _ kids => .mk t (some values) kids

/-- `isinstance(path, cls)`: the classes of paths are all subclasses of `UslPath`. -/
def Step.isInstance (s : Step) (c : PClass) : Bool := decide (c = .usl) || decide (s.cls = c)

/-- `recursive_group_by` (lines 702-714). -/
def Bin.group : Bin → Path → List Expr → Except Err Bin
  | _, [], _ => .error .attributeError
  | .mk t n kids, s :: p, values => do
    let t ← match t with
      | some c => if s.isInstance c then pure c else throw .valueError
      | none => pure s.cls
    let child := (dictGet Step.text s kids).getD Bin.empty
    let child ← match p with
      | [] => pure (child.setNode values)
      | _ :: _ => child.group p values
    return .mk (some t) n (dictSet Step.text s child kids)

/-- What a bin is built into: the list of its values, or a USL. -/
inductive Built' where
  | values (l : List Expr)
  | usl (e : Expr)

/-! ### Polymorphemes -/

/-- `expend_values` (line 327). -/
def expandValue : Expr → Except Err (List Script)
  | .script s => .ok [s]
  | .pm p => .ok p.constant
  | _ => .error .attributeError

/-- One iteration of the loop of `PolymorphemePath.build_usl_from_path_to_node` (lines 332-355) on a group: its morphemes and its
multiplicity. -/
def groupStep (g : List Script × Option Nat) (xs : List Script) (k : Option Nat) : Except Err (List Script × Option Nat) :=
  match k with
  | some (k + 1) =>
    if g.2.isSome && g.2 ≠ some (k + 1) then .error .valueError else .ok (g.1 ++ xs, some (k + 1))
  | _ => .ok (g.1 ++ xs, some 1)

/-- The constants and the three groups. -/
structure PMParts where
  constant : List Script
  g0 : List Script × Option Nat
  g1 : List Script × Option Nat
  g2 : List Script × Option Nat

/-- One iteration of the loop (lines 332-355). -/
def pmStep (a : PMParts) (s : Step) (v : Built') : Except Err PMParts :=
  match s, v with
  | .pm g _ k, .values l => do
    let xs ← l.mapM expandValue
    let xs := xs.flatten
    match g with
    | .constant => return { a with constant := a.constant ++ xs }
    | .g0 => return { a with g0 := ← groupStep a.g0 xs k }
    | .g1 => return { a with g1 := ← groupStep a.g1 xs k }
    | .g2 => return { a with g2 := ← groupStep a.g2 xs k }
  | .pm _ _ _, .usl _ => .error .unmodelled
  | _, _ => .error .valueError

/-- `PolymorphemePath.build_usl_from_path_to_node` (lines 318-358). -/
def buildPM (items : List (Step × Built')) : Except Err PM := do
  let a ← items.foldlM (fun a e => pmStep a e.1 e.2) ⟨[], ([], none), ([], none), ([], none)⟩
  let gs := [a.g0, a.g1, a.g2].filter fun g => !g.1.isEmpty
  return mkPM a.constant (gs.map fun g => (g.1, g.2.getD 1))

/-! ### Flexions -/

/-- The texts of `FLEXION_SCRIPTS` (`usl/constants.py` lines 54-80). -/
def flexionFamilies : List Str :=
  [c!"E:M:.-d.u.-'", c!"E:.-n.E:U:.+F:.-'", c!"E:O:O:.", c!"E:M:O:.", c!"E:.+E:U:S:+T:.-M:M:.o.-'", c!"E:.b.O:M:.-", c!"E:.b.O:O:.-",
   c!"E:S:.j.-'M:O:.-O:.-',", c!"E:.-',b.-S:.U:.-'y.-'O:.-',_", c!"E:.O:O:.-", c!"E:I:.-t.u.-'", c!"E:F:.-t.o.-'",
   c!"E:.-'O:O:.-M:.-'t.o.-',", c!"E:.-O:O:.-t.o.-'", c!"E:.-F:.M:M:.-l.-'", c!"E:.O:O:.O:.-t.o.-'", c!"E:M:.-O:.-t.o.-'",
   c!"E:M:.d.+M:O:.-", c!"E:F:M:.", c!"E:.O:.M:O:.-"]

/-- `r.singular_sequences_set` of the script of a family. -/
def familySequences (r : Str) : List Script :=
  match parseScript r >>= singularSequences with
  | .ok l => l
  | .error _ => []

/-- `m in r.singular_sequences_set` (line 430): scripts and USLs are compared by their texts. -/
def inFamily (r : Str) (m : Str) : Bool := (familySequences r).any fun x => decide (x.str = m)

/-- One iteration of the loop that fills `root_flexion_groups` (lines 428-431). -/
def familyStep (d : List (Str × List Expr)) (m : Expr) (r : Str) : List (Str × List Expr) :=
  if inFamily r m.text then dictSet id r (setAdd Expr.text m ((dictGet id r d).getD [])) d else d

/-- `root_flexion_groups` (lines 426-431). -/
def flexionGroups (ms : List Expr) : List (Str × List Expr) :=
  ms.foldl (fun d m => flexionFamilies.foldl (fun d r => familyStep d m r) d) []

/-- A value that must be a script, here. -/
def asScript : Expr → Except Err Script
  | .script s => .ok s
  | _ => .error .unmodelled

/-- One iteration of the loop of lines 436-442. -/
def flexionPart (ord : List Expr → List Expr) (a : List Script × List Group) (v : List Expr) : Except Err (List Script × List Group) := do
  let ss ← (ord v).mapM asScript
  match ss with
  | [] => return a
  | [s] => return (a.1 ++ [s], a.2)
  | ss => return (a.1, a.2 ++ [(ss, 1)])

/-- `FlexionPath.build_usl_from_path_to_node` from the values on (lines 426-445). -/
def flexionOf (ord : List Expr → List Expr) (ms : List Expr) : Except Err PM := do
  let a ← (flexionGroups ms).foldlM (fun a e => flexionPart ord a e.2) ([], [])
  return mkPM a.1 a.2

/-- The values of an item (lines 419-424). -/
def flexionValues : Step × Built' → Except Err (List Expr)
  | (.flexion _, .values l) => .ok l
  | (.flexion _, .usl _) => .error .unmodelled
  | _ => .error .valueError

/-- `FlexionPath.build_usl_from_path_to_node` (lines 416-445). -/
def buildFlexion (ord : List Expr → List Expr) (items : List (Step × Built')) : Except Err PM := do
  let ms ← items.mapM flexionValues
  flexionOf ord ms.flatten

/-! ### Lexemes -/

/-- The content from its value (lines 549-552). -/
def contentOf : Built' → Except Err PM
  | .usl (.pm p) => .ok p
  | .usl _ => .error .unmodelled
  | .values l => do return mkPM (← l.mapM asScript) []

/-- The flexion from its value (lines 558-561): a `FlexionPath` asserts that its morpheme is a script. -/
def flexionFrom (ord : List Expr → List Expr) : Built' → Except Err PM
  | .usl (.pm p) => .ok p
  | .usl _ => .error .unmodelled
  | .values l => do
    let _ ← l.mapM fun e => match e with | .script s => Except.ok s | _ => .error .assertionError
    flexionOf ord l

/-- One iteration of the loop of `LexemePath.build_usl_from_path_to_node` (lines 540-561): content and flexion. -/
def lexemeStep (ord : List Expr → List Expr) (a : Option PM × Option PM) (e : Step × Built') : Except Err (Option PM × Option PM) :=
  match e.1 with
  | .lexeme true => match a.1 with
    | some _ => .error .valueError
    | none => do return (some (← contentOf e.2), a.2)
  | .lexeme false => match a.2 with
    | some _ => .error .valueError
    | none => do return (a.1, some (← flexionFrom ord e.2))
  | _ => .error .valueError

/-- `LexemePath.build_usl_from_path_to_node` (lines 535-570). -/
def buildLexeme (ord : List Expr → List Expr) (items : List (Step × Built')) : Except Err Lexeme := do
  let a ← items.foldlM (lexemeStep ord) (none, none)
  return mkLexeme (a.2.getD (mkPM [] [])) (a.1.getD (mkPM [] []))

/-! ### Words -/

/-- One iteration of the loop that looks for the focus (lines 652-659): a second path with a focus is compared, as a path, with a role, and is
always different. -/
def focusStep (a : Option Addr) (e : Step × Built') : Except Err (Option Addr) :=
  match e.1 with
  | .role r f =>
    if f then
      match a with
      | some _ => .error .valueError
      | none => .ok (some r)
    else .ok a
  | _ => .error .valueError

/-- One iteration of the loop that groups the items (lines 664-670), under the role and the focus of their paths. -/
def roleGroup (focus : Addr) (d : List ((Addr × Bool) × List Built')) (e : Step × Built') : List ((Addr × Bool) × List Built') :=
  match e.1 with
  | .role r f =>
    let k := if decide (roleText focus = roleText r) && !f then (focus, true) else (r, f)
    let key := fun k : Addr × Bool => (Step.role k.1 k.2).text
    dictSet key k ((dictGet key k d).getD [] ++ [e.2]) d
  | _ => d

/-- The only lexeme of a role (lines 672-678). -/
def roleLexeme (e : (Addr × Bool) × List Built') : Except Err (RoleEntry Lexeme) :=
  match e.2 with
  | [.usl (.lexeme x)] => .ok (e.1.1, some x)
  | [_] => .error .unmodelled
  | _ => .error .valueError

/-- `RolePath.build_usl_from_path_to_node` (lines 649-685). -/
def buildWord (items : List (Step × Built')) : Except Err WordUsl := do
  match ← items.foldlM focusStep none with
  | none => throw .valueError
  | some focus =>
    let l ← (items.foldl (roleGroup focus) []).mapM roleLexeme
    let r ← fromList l
    mkWord r.2 focus r.1

/-! ### All together -/

/-- `bin['type'].build_usl_from_path_to_node(path_to_node)` (lines 172-174, 318-358, 416-445, 535-570, 649-685). -/
def buildUsl (ord : List Expr → List Expr) (t : Option PClass) (items : List (Step × Built')) : Except Err Expr :=
  match t with
  | none => .error .assertionError
  | some .usl => .error .notImplemented
  | some .pm => do return .pm (← buildPM items)
  | some .flexion => do return .pm (← buildFlexion ord items)
  | some .lexeme => do return .lexeme (← buildLexeme ord items)
  | some .role => do return .word (← buildWord items)

mutual

/-- `build_nodes` (lines 716-730). -/
def Bin.build (ord : List Expr → List Expr) : Bin → Except Err Built'
  | .mk _ (some values) _ => .ok (.values values)
  | .mk t none kids => do
    let items ← buildKids ord kids
    return .usl (← buildUsl ord t items)

/-- The loop of lines 718-721. -/
def buildKids (ord : List Expr → List Expr) : List (Step × Bin) → Except Err (List (Step × Built'))
  | [] => .ok []
  | (s, b) :: kids => do
    let v ← b.build ord
    let r ← buildKids ord kids
    return (s, v) :: r

end

/-- `usl_from_path_values(paths_values)` (lines 688-738), on the texts of the paths and values.  Without any path, `bins` is empty and the
assertion of line 725 fails. -/
def fromPaths (ord : List Expr → List Expr) (l : List (Str × Str)) : Except Err Expr := do
  let d ← pathToValue l
  let b ← d.foldlM (fun b e => b.group e.1 (ord e.2)) Bin.empty
  match ← b.build ord with
  | .usl e => return e
  | .values _ => throw .unmodelled

/-- `iter_structure_path_by_script_ss` (`usl.py` lines 70-76): the listed paths that end with a morpheme. -/
def scriptPaths (l : List (Path × Node)) : List (Path × Node) :=
  l.filter fun e => match pathTail e.1 with
    | some (.flexion _) => true
    | some (.pm _ (some _) _) => true
    | _ => false

/-- `usl(list(u.iter_structure_path_by_script_ss()))` (`usl.py` lines 125-146) for a list that is not empty: taking apart and assembling. -/
def takeApart (u : Expr) : Except Err (List (Str × Str)) := do
  return (scriptPaths (← u.paths)).map fun e => (pathText e.1, e.2.text)

end Verif
