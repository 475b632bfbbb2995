import Verif.Model.PolyMorpheme
import Verif.Model.SFun

/-
Model of `ieml/usl/lexeme.py` and `ieml/usl/word.py`: lexemes and words, their texts and their singular sequences.
-/

namespace Verif

/-! ### Lexemes -/

/-- `Lexeme` objects (`lexeme.py` lines 18-41): `pm_flexion`, `pm_content` and `_str`. -/
structure Lexeme where
  flexion : PM
  content : PM
  text : Str

/-- The text computed by `Lexeme.__init__` (lines 33-41). -/
def lexemeText (flexion content : PM) : Str :=
  let par (p : PM) : Str := c!"(" ++ p.text ++ c!")"
  if content.empty then if flexion.empty then c!"()" else par flexion
  else par flexion ++ par content

/-- `Lexeme.__init__` on polymorphemes (lines 23-41). -/
def mkLexeme (flexion content : PM) : Lexeme := ⟨flexion, content, lexemeText flexion content⟩

/-- `Lexeme.empty` (lines 66-68). -/
def Lexeme.empty (x : Lexeme) : Bool := x.content.empty && x.flexion.empty

/-- `Lexeme.do_lt` (lines 71-73); both operands are lexemes, and `<` of polymorphemes is `do_lt`. -/
def Lexeme.lt (x y : Lexeme) : Bool := x.flexion.lt y.flexion || (x.flexion.eq y.flexion && x.content.lt y.content)

/-- `Lexeme._compute_singular_sequences` (lines 76-85); `is_singular` is `cardinal == 1` (`usl.py` lines 99-101). -/
def Lexeme.singularSequences (x : Lexeme) : Except Err (List Lexeme) := do
  let a ← x.flexion.singularSequences
  if a.length = 1 then
    let b ← x.content.singularSequences
    if b.length = 1 then return [x]
    else return a.flatMap fun f => b.map fun c => mkLexeme f c
  else
    let b ← x.content.singularSequences
    return a.flatMap fun f => b.map fun c => mkLexeme f c

/-! ### Roles -/

/-- `str(role)` of a `SyntagmaticRole` (`syntagmatic_function.py` line 22). -/
def roleText (a : Addr) : Str := joinSpace a

/-- `<` of lists of integers. -/
def ltNats : List Nat → List Nat → Bool
  | _, [] => false
  | [], _ :: _ => true
  | x :: xs, y :: ys => if x = y then ltNats xs ys else decide (x < y)

/-- `<` of roles made of scripts of addresses (`syntagmatic_function.py` lines 31-37); the others are refused by the
constructor. -/
def addrLt (a b : Addr) : Bool := ltNats (a.map addressScripts.idxOf) (b.map addressScripts.idxOf)

mutual

/-- `_expand_junction(role)` where `node` is the item at the role (`syntagmatic_function.py` lines 163-171).  The items at the
addresses of the children of a junction are these children, see `SF.actors`. -/
def SF.expand {α : Type} (role : Addr) : SF α → List Addr
  | .junction link cs => expandL role link 0 cs
  | .indep _ => [role]
  | .dep _ _ _ => [role]

/-- The expansions of the children of a junction from the index `n` on (lines 170-171). -/
def expandL {α : Type} (role : Addr) (link : Str) : Nat → List (SF α) → List Addr
  | _, [] => []
  | n, f :: fs => f.expand (role ++ childPrefix link n) ++ expandL role link (n + 1) fs

end

/-- `self.actors[role]` followed by the expansion; `node` is unbound, that is `UnboundLocalError`, a `NameError`, when the role
is missing (lines 164-168). -/
def expandAt {α : Type} (items : List (Addr × SF α)) (role : Addr) : Except Err (List Addr) :=
  match items.find? fun e => e.1 = role with
  | none => .error .nameError
  | some e => .ok (e.2.expand role)

/-- `get_role_expansion` (lines 161-175), without the final sort: the result is only used for membership. -/
def SFun.expansion {α : Type} (role : Addr) : SFun α → Except Err (List Addr)
  | .quality f => expandAt f.actors role
  | .process _ v acts => if role = [v] then .ok [role] else expandAt (processActors acts) role

/-- The items of `actors` that are not junctions: addresses without the prefix, and actors. -/
def SFun.items {α : Type} : SFun α → List (RoleEntry α)
  | .quality f => listed [] f.actors
  | .process a v acts => ([v], a) :: listed [] (processActors acts)

/-- `str(actor)`. -/
def actorText {α : Type} (text : α → Str) : Option α → Str
  | none => c!"None"
  | some x => text x

/-- `" > ".join(l)`. -/
def joinChevron : List Str → Str
  | [] => []
  | [s] => s
  | s :: t :: ts => s ++ c!" > " ++ joinChevron (t :: ts)

/-- An element of the list joined by `render_with_context` (lines 153-156). -/
def itemText {α : Type} (text : α → Str) (main : List Addr) (pre : Addr) (e : RoleEntry α) : Str :=
  (if e.1 ∈ main then c!"! " else []) ++
  (match pre with | [] => [] | p :: _ => p ++ c!" ") ++
  roleText e.1 ++ c!" " ++ actorText text e.2

/-- `render_with_context` (lines 138-159). -/
def SFun.render {α : Type} (text : α → Str) (f : SFun α) (role : Addr) (t : SType) : Except Err Str := do
  let main ← f.expansion (role.drop t.pre.length)
  return c!"[" ++ joinChevron ((pySort (fun a b => addrLt a.1 b.1) f.items).map (itemText text main t.pre)) ++ c!"]"

/-- `x.singular_sequences` on the actor of an entry (line 238): `AttributeError` for `None`. -/
def actorSequences {α : Type} (seq : α → Except Err (List α)) (e : RoleEntry α) : Except Err (List α) :=
  match e.2 with
  | none => .error .attributeError
  | some x => seq x

/-- `SyntagmaticFunction.singular_sequences` (lines 233-242); the unpacking of `zip(*[])`
raises `ValueError`. -/
def SFun.sequences {α : Type} (seq : α → Except Err (List α)) (f : SFun α) (t : SType) : Except Err (List (SFun α)) := do
  let l := f.asList t
  if l.isEmpty then throw .valueError
  let xss ← l.mapM (actorSequences seq)
  (prodL xss).mapM fun xs => do
    let r ← fromList ((l.zip xs).map fun e => (e.1.1, some e.2))
    return r.2

/-! ### Words -/

/-- The scripts returned by `class_from_address` (`usl/constants.py` lines 449-457). -/
def classFromAddress (a : Addr) : Except Err Str :=
  if a.any fun s => decide (s ∈ valenceScripts) then .ok (c!"E:.b.E:S:.-")
  else if a.any fun s => decide (s = independantQuality) then .ok (c!"E:.b.E:T:.-")
  else if a.any fun s => decide (s ∈ actantScripts ∨ s = dependantQuality) then .ok (c!"E:.b.E:B:.-")
  else .error .valueError

/-- `Word` objects (`word.py` lines 47-58): `syntagmatic_fun`, `role`, `context_type`, `_str` and `grammatical_class`. -/
structure WordUsl where
  sfun : SFun Lexeme
  role : Addr
  context : SType
  text : Str
  gramClass : Str

/-- `Word.__init__` (`word.py` lines 47-58). -/
def mkWord (f : SFun Lexeme) (role : Addr) (t : SType) : Except Err WordUsl := do
  let text ← f.render Lexeme.text role t
  let c ← classFromAddress role
  return ⟨f, role, t, text, c⟩

/-- `Word._compute_singular_sequences` (`word.py` lines 60-65). -/
def WordUsl.singularSequences (w : WordUsl) : Except Err (List WordUsl) := do
  let ss ← w.sfun.sequences Lexeme.singularSequences w.context
  if ss.length = 1 then return [w]
  else ss.mapM fun f => mkWord f w.role w.context

end Verif
