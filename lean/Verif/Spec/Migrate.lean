import Verif.Model.Migrate
import Verif.Spec.Rules

/-
What the rules of `scripts/migrate_script.py` are meant to do.
-/

namespace Verif
open Script Layout

/-- No part that the layout takes apart is a sum. -/
def Layout.Apart : Layout → Script → Prop
  | node p q r, s => s.isAdd = false ∧ ∀ x y z, s = .mult x y z → p.Apart x ∧ q.Apart y ∧ r.Apart z
  | _, _ => True

/-- The rules, by the name of the function. -/
inductive Migration where
  | sOOF | EMOto | EOOMt0 | EOETI | temps | tidi

namespace Migration

/-- The function of a rule. -/
def run : Migration → Script → Except Err Script
  | sOOF => migrateSOOF
  | EMOto => migrateEMOto
  | EOOMt0 => migrateEOOMt0
  | EOETI => migrateEOETI
  | temps => translateTemps
  | tidi => migrateTidi

/-- The root the rule is for. -/
def root : Migration → Str
  | sOOF => c!"s.O:O:.-F:.-'"
  | EMOto => c!"E:M:O:.t.o.-"
  | EOOMt0 => c!"E:.-'O:O:.-M:.t.o.-',"
  | EOETI => c!"E:.O:.E:T:.+I:.-"
  | temps => c!"t.o.-n.o.-M:O:.-'"
  | tidi => c!"t.i.-d.i.-t.+M:O:.-'"

/-- The new root, from the comment of the function, except for `migrate_EOETI`: there from the assertion that was made
(line 231). -/
def newRoot : Migration → Str
  | sOOF => c!"s.o.-O:O:.-'F:.-',"
  | EMOto => c!"E:M:.-O:.-t.o.-'"
  | EOOMt0 => c!"E:.-'O:O:.-M:.-'t.o.-',"
  | EOETI => c!"S:.O:.E:T:.+I:.-"
  | temps => c!"t.o.-n.o.-'M:O:.-',"
  | tidi => c!"t.i.-d.i.-'t.+M:O:.-',"

/-- The move shown by the two roots. -/
def move : Migration → Move
  | sOOF => ⟨Rule.n2 (Rule.n2 (part 0) (part 1)) (part 2), Rule.n2 (Rule.n2 (Rule.n2 (part 0) (fixedOf (c!"o."))) (Rule.n1 (part 1))) (Rule.n1 (part 2))⟩
  | EMOto => ⟨.node (.node .blank (part 0) (part 1)) (part 2) (part 3),
      .node (Rule.n1 (Rule.n2 .blank (part 0))) (Rule.n1 (Rule.n1 (part 1))) (Rule.n2 (part 2) (part 3))⟩
  | EOOMt0 => ⟨.node .blank (Rule.n2 (part 0) (.node (part 1) (part 2) (part 3))) .blank,
      .node .blank (Rule.n2 (part 0) (Rule.n1 (part 1))) (Rule.n1 (Rule.n2 (part 2) (part 3)))⟩
  | EOETI => ⟨.node .blank (part 0) (part 1), .node (fixedOf (c!"S:.")) (part 0) (part 1)⟩
  | temps => ⟨.node (part 0) (part 1) (part 2), Rule.n2 (Rule.n2 (part 0) (part 1)) (Rule.n1 (part 2))⟩
  | tidi => ⟨.node (part 0) (part 1) (part 2), Rule.n2 (Rule.n2 (part 0) (part 1)) (Rule.n1 (part 2))⟩

/-- Every word of the script is a word of the root of the rule. -/
def Within (r : Migration) (s : Script) : Prop := ∃ R, parseScript r.root = .ok R ∧ s.layer = R.layer ∧ ∀ w, Den s w → Den R w

end Migration

end Verif
