import Verif.Model.Threads

/-
Specification of what a program gives when no other thread runs and nothing is remembered.
-/

namespace Verif
variable {β : Type}

/-- The program gives `r`; a parser has its lexer for itself, `none` is the program of a thread, which has no lexer. -/
inductive Eval (P : Parsers β) : Option LexState → Job β → β → Prop where
  | done (l : Option LexState) (r : β) : Eval P l (.done r) r
  | charNone {k : Option Char → Job β} {r : β} : Eval P none (k none) r → Eval P none (.char k) r
  | char {l : LexState} {k : Option Char → Job β} {r : β} : Eval P (some l.next) (k l.text[l.pos]?) r → Eval P (some l) (.char k) r
  | flagNone {k : Bool → Job β} {r : β} : Eval P none (k false) r → Eval P none (.flag k) r
  | flag {l : LexState} {k : Bool → Job β} {r : β} : Eval P (some l) (k l.factorize) r → Eval P (some l) (.flag k) r
  | call {l : Option LexState} {p : PKind} {f : Bool} {s : Str} {k : β → Job β} {v r : β} : Eval P (some (.start p f s)) (P.body p s) v →
      Eval P l (k v) r → Eval P l (.call p f s k) r

/-- What a call of a parser gives. -/
def CallGives (P : Parsers β) (p : PKind) (f : Bool) (s : Str) (v : β) : Prop := Eval P (some (.start p f s)) (P.body p s) v

/-- The program calls only parsers that come after `o` in the order of the locks. -/
def Job.Above (o : Option PKind) : Job β → Prop
  | .done _ => True
  | .char k => ∀ c, (k c).Above o
  | .flag k => ∀ b, (k b).Above o
  | .call p _ _ k => (∀ q, o = some q → q.rank < p.rank) ∧ ∀ r, (k r).Above o

/-- Every parser calls only parsers that come after it. -/
def Parsers.Ordered (P : Parsers β) : Prop := ∀ p s, (P.body p s).Above (some p)

/-- The thread is in a call of the parser `p`, after it got the lock: it runs the program of `p`, or this program waits for the result of a call. -/
def Thread.Inside (p : PKind) : Thread β → Prop
  | .run o _ st => (∃ s, o = some (p, s)) ∨ ∃ e ∈ st, ∃ s, e.1 = some (p, s)
  | .look _ st => ∃ e ∈ st, ∃ s, e.1 = some (p, s)
  | .wait _ _ _ st => ∃ e ∈ st, ∃ s, e.1 = some (p, s)
  | .input q _ _ st => q = p ∨ ∃ e ∈ st, ∃ s, e.1 = some (p, s)
  | .store _ _ st => ∃ e ∈ st, ∃ s, e.1 = some (p, s)
  | .fin _ => False

/-- Any number of steps. -/
inductive Parsers.Steps (P : Parsers β) : Pool β → Pool β → Prop where
  | refl (x : Pool β) : Steps P x x
  | tail {x y z : Pool β} : Steps P x y → P.Step y z → Steps P x z

/-- Reading the text of the lexer to its end, then going on with the text that was read. -/
def readAll (k : Str → Job β) : Nat → Str → Job β
  | 0, acc => k acc.reverse
  | n + 1, acc => .char fun
    | none => k acc.reverse
    | some c => readAll k n (c :: acc)

/-- Any number of steps of constructions. -/
inductive Makings.Steps {ρ : Type} [DecidableEq ρ] (ord : List (Path × Str) → List (Path × Str)) : Makings ρ → Makings ρ → Prop where
  | refl (x : Makings ρ) : Steps ord x x
  | tail {x y z : Makings ρ} : Steps ord x y → Makings.Step ord y z → Steps ord x z

/-- Any number of steps of constructions without lock. -/
inductive Making.Steps {ρ : Type} [DecidableEq ρ] (ord : List (Path × Str) → List (Path × Str)) :
    World ρ × List (Making ρ) → World ρ × List (Making ρ) → Prop where
  | refl (x : World ρ × List (Making ρ)) : Steps ord x x
  | tail {x y z : World ρ × List (Making ρ)} : Steps ord x y → Making.Step ord y z → Steps ord x z

end Verif
