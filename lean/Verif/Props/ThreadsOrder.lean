import Verif.Props.Threads

/-
C98: which calls the order of the parsers allows.
-/

namespace Verif

/-- **C98, calls.** The programs meant by the claim are those in which the parser of USLs calls those of paths and of scripts, the parser of
paths calls that of scripts, and there is no other call: these are exactly the calls of the code. -/
theorem C98_calls (p q : PKind) : p.rank < q.rank ↔ (p = .usl ∧ q = .path) ∨ (p = .usl ∧ q = .script) ∨ (p = .path ∧ q = .script) := by
  cases p <;> cases q <;> simp [PKind.rank]

example : PKind.rank .usl < PKind.rank .script ∧ ¬ PKind.rank .script < PKind.rank .path := by decide

end Verif
