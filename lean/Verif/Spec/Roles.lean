import Verif.Model.SFun
import Mathlib.Data.List.Forall2

/-
Vocabulary of the properties of lists of roles.
-/

namespace Verif
variable {α : Type}

/-- The entries with an actor. -/
def solid (l : List (RoleEntry α)) : List (RoleEntry α) := l.filter fun e => e.2.isSome

/-- The address `q` is `p` in which some scripts followed by an index of junction have been replaced by a junction script. -/
inductive Rewritten : Addr → Addr → Prop where
  | nil : Rewritten [] []
  | same {a : Str} {p q : Addr} : Rewritten p q → Rewritten (a :: p) (a :: q)
  | link {a b i : Str} {p q : Addr} : a ∉ junctionScripts → b ∈ junctionScripts → p.head? = some i → i ∈ junctionIndex →
      Rewritten p q → Rewritten (a :: p) (b :: q)

/-- The same actor at an address in which some scripts may have been replaced. -/
def Moved (e e' : RoleEntry α) : Prop := e'.2 = e.2 ∧ Rewritten e.1 e'.1

/-- In the address every index of junction is preceded by a junction script. -/
def Indexed : Addr → Prop
  | a :: i :: rest => (i ∈ junctionIndex → a ∈ junctionScripts) ∧ Indexed (i :: rest)
  | _ => True

/-- No address ending with the independant quality is a prefix of the address of another entry. -/
def Separate (l : List (RoleEntry α)) : Prop :=
  l.Pairwise fun e e' => (∀ p, e.1 = p ++ [independantQuality] → ¬ e.1 <+: e'.1) ∧ ∀ p, e'.1 = p ++ [independantQuality] → ¬ e'.1 <+: e.1

end Verif
