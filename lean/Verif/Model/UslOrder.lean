import Verif.Model.UslParser

/-
Model of the comparison of USLs: `USL.__lt__` (`ieml/usl/usl.py` lines 32-44), the `do_lt` of the classes of USLs, and
`SyntagmaticFunction.__lt__` and `__eq__` (`ieml/usl/syntagmatic_function.py` lines 57-65).
-/

namespace Verif

/-- `[(p, a.actor) for p, a in self.actors.items()]` (`syntagmatic_function.py` lines 58, 63); the actor of a junction is
`None`. -/
def SFun.entries {α : Type} : SFun α → List (RoleEntry α)
  | .quality f => f.actors.map fun e => (e.1, e.2.actor)
  | .process a v acts => ([v], a) :: (processActors acts).map fun e => (e.1, e.2.actor)

/-- The list sorted by roles (lines 58-59, 63-64). -/
def SFun.sorted {α : Type} (f : SFun α) : List (RoleEntry α) := pySort (fun a b => addrLt a.1 b.1) f.entries

/-- `==` of actors: lexemes are compared by texts, and no lexeme is `None` (`usl.py` lines 46-47). -/
def eqActor : Option Lexeme → Option Lexeme → Bool
  | none, none => true
  | some x, some y => x.text == y.text
  | _, _ => false

/-- `==` of pairs of a role (`syntagmatic_function.py` lines 39-40) and an actor. -/
def eqEntry (e f : RoleEntry Lexeme) : Bool := roleText e.1 == roleText f.1 && eqActor e.2 f.2

/-- `<` of actors that differ: `None < lexeme` raises `TypeError`, `lexeme < None` reads `None.syntactic_level`
(`usl.py` line 41). -/
def ltActor : Option Lexeme → Option Lexeme → Except Err Bool
  | some x, some y => .ok (x.lt y)
  | some _, none => .error .attributeError
  | none, _ => .error .typeError

/-- `<` of pairs that differ. -/
def ltEntry (e f : RoleEntry Lexeme) : Except Err Bool :=
  if roleText e.1 == roleText f.1 then ltActor e.2 f.2 else .ok (addrLt e.1 f.1)

/-- `<` of lists: the first elements that differ decide. -/
def ltEntries : List (RoleEntry Lexeme) → List (RoleEntry Lexeme) → Except Err Bool
  | _, [] => .ok false
  | [], _ :: _ => .ok true
  | e :: l, f :: m => if eqEntry e f then ltEntries l m else ltEntry e f

/-- `==` of lists. -/
def eqEntries : List (RoleEntry Lexeme) → List (RoleEntry Lexeme) → Bool
  | [], [] => true
  | e :: l, f :: m => eqEntry e f && eqEntries l m
  | _, _ => false

/-- `Word.do_lt` (`word.py` lines 80-82). -/
def WordUsl.lt (w v : WordUsl) : Except Err Bool := do
  if ← ltEntries w.sfun.sorted v.sfun.sorted then return true
  return eqEntries w.sfun.sorted v.sfun.sorted && addrLt w.role v.role

/-- `syntactic_level` of the classes (`polymorpheme.py` line 152, `lexeme.py` line 21, `word.py` line 45; scripts have none). -/
def Expr.level : Expr → Nat
  | .script _ => 0
  | .pm _ => 1
  | .lexeme _ => 2
  | .word _ => 3

/-- `a < b` of scripts and USLs (`usl.py` lines 32-41, `script.py` lines 91-93): a USL is never smaller than a script; the
comparison of a script with a USL is implemented by none of the classes, so `TypeError` is raised. -/
def Expr.lt : Expr → Expr → Except Err Bool
  | .script a, .script b => .ok (a.lt b)
  | .script _, _ => .error .typeError
  | _, .script _ => .ok false
  | .pm p, .pm q => .ok (p.lt q)
  | .lexeme x, .lexeme y => .ok (x.lt y)
  | .word w, .word v => w.lt v
  | a, b => .ok (decide (a.level < b.level))

/-- What can be compared: a script or USL, or an instance of a USL (`decoration/instance.py`) with its text. -/
inductive Item where
  | plain (e : Expr)
  | instanced (e : Expr) (text : Str)

/-- `str(x)`. -/
def Item.text : Item → Str
  | .plain e => e.text
  | .instanced _ t => t

/-- `a < b` (`usl.py` lines 32-41): on the right an instance is replaced by its USL; on the left its level is 10
(`instance.py` line 49), which no level exceeds or equals. -/
def Item.lt : Item → Item → Except Err Bool
  | .plain a, .plain b => a.lt b
  | .plain a, .instanced b _ => a.lt b
  | .instanced _ _, _ => .ok false

end Verif
