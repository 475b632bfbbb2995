import Verif.Model.Path
import Verif.Model.UslOrder
import Verif.Model.WordCheck

/-
Model of the lookups of roles in syntagmatic functions (`ieml/usl/syntagmatic_function.py` lines 46-49, 71-77, 83-103, 121-125).
-/

namespace Verif

/-- `role.constant[:k]`: a negative `k` counts from the end. -/
def sliceTo (l : Addr) (k : Int) : Addr := if k < 0 then l.take (l.length - k.natAbs) else l.take k.toNat

/-- `is_junction_prefix` (lines 46-49). -/
def isJunctionPrefix (self role : Addr) : Bool :=
  self == sliceTo role ((self.length : Int) - 3) && role.length == self.length + 2

/-- All the items of `actors` (lines 55, 254-260, 341-347, 431-434). -/
def SFun.all {α : Type} : SFun α → List (Addr × SFun α)
  | .quality f => f.actors.map fun e => (e.1, .quality e.2)
  | .process a v acts => ([v], .process a v acts) :: (processActors acts).map fun e => (e.1, .quality e.2)

/-- `self.actors[role]`: `none` is a `KeyError`. -/
def SFun.node {α : Type} (f : SFun α) (role : Addr) : Option (SFun α) := (f.all.find? fun e => e.1 = role).map (·.2)

/-- `f == g` of functions (lines 57-60). -/
def SFun.same (f g : SFun Lexeme) : Bool := eqEntries f.sorted g.sorted

/-- `role_in` (lines 71-77). -/
def SFun.roleIn (f tgt : SFun Lexeme) : Except Err Addr :=
  match f.all.find? fun e => e.2.same tgt with
  | some e => .ok e.1
  | none => .error .keyError

/-- `get` (lines 83-99). -/
def SFun.getWith {α : Type} (f : SFun α) (ignorePrefix ignoreValence : Bool) (role : Addr) : Except Err (Option α) := do
  let role ←
    if ignorePrefix then
      match role with
      | [] => throw .indexError
      | r :: rest => pure (if r ∈ rolesInProcess then r :: rest else rest)
    else pure role
  let role ←
    if ignoreValence then
      match role with
      | [] => pure []
      | r :: rest =>
        if r ∈ valenceScripts then
          match valenceScripts.find? fun v => (f.node [v]).isSome with
          | some v => pure (v :: rest)
          | none => throw .keyError
        else pure (r :: rest)
    else pure role
  match f.node role with
  | some g => return g.actor
  | none => throw .keyError

/-- `get_paradigm` (lines 101-103): the scripts of the role are looked up as roles, by their texts. -/
def SFun.getParadigm {α : Type} (f : SFun α) (role : Addr) : List (SFun α) := role.filterMap fun r => f.node [r]

/-- `role_is_junction` (lines 121-125). -/
def SFun.roleIsJunction {α : Type} (f : SFun α) (role : Addr) : Bool :=
  match f.node role with
  | some (.quality g) => g.isJunction
  | _ => false

end Verif
