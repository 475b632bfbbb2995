import Verif.Model.Decoration

/-
Model of the use of the parsers by several threads: the three locks (`ieml/usl/parser/parser.py` lines 29, 47-59;
`ieml/usl/decoration/parser/parser.py` lines 18, 30-42; `ieml/dictionary/script/parser/parser.py` lines 19-38), the lexers and the attribute
`factorize_script` that the threads share, the memo of the script parser (`lru_cache`), and constructions of `InstancedUSL` that overlap.

What a parser does with its text is any finite program that reads its lexer, its attribute, and calls other parsers; `β` is the type
of what a call gives, a value or an exception.  Each instruction is done at once, any other thread may run between two instructions.  All threads use the
same object of each parser, which is the worst case: `IEMLParser` objects made separately have lexers of their own, and share the lock.
-/

namespace Verif

/-- The parsers: `IEMLParser`, `PathParser`, `ScriptParser`. -/
inductive PKind where
  | usl | path | script
  deriving DecidableEq, Repr

/-- The order in which the locks are taken: `p_decoration` calls the parser of paths (`usl/parser/parser.py` line 211), `p_morpheme` and the rules of paths
call `script` (line 84; `decoration/parser/parser.py` lines 63, 71, 108, 123, 127). -/
def PKind.rank : PKind → Nat
  | .usl => 0
  | .path => 1
  | .script => 2

variable {β : Type}

/-- A program: it ends, asks the lexer for the next character, reads `self.factorize_script`, or calls a parser. -/
inductive Job (β : Type) where
  | done (r : β)
  | char (k : Option Char → Job β)
  | flag (k : Bool → Job β)
  | call (p : PKind) (factorize : Bool) (s : Str) (k : β → Job β)

/-- The state of a lexer, with the attribute `factorize_script`. -/
structure LexState where
  text : Str
  pos : Nat
  factorize : Bool
  deriving DecidableEq, Repr

/-- `lexer.input(s)`, after `self.factorize_script = ..`, which only `IEMLParser` has. -/
def LexState.start (p : PKind) (factorize : Bool) (s : Str) : LexState := ⟨s, 0, if p = .usl then factorize else false⟩

/-- The next character. -/
def LexState.next (l : LexState) : LexState := { l with pos := l.pos + 1 }

/-- What the threads share: the locks, with the thread that holds it, the lexers, and the memo of the script parser, least recently used first. -/
structure Shared (β : Type) where
  lock : PKind → Option Nat
  lex : PKind → LexState
  memo : List (Str × β)

/-- A program that waits for the result of a call: the parser that runs it with its text, none for the program of the thread itself. -/
abbrev Frame (β : Type) := Option (PKind × Str) × (β → Job β)

/-- Where a thread is. -/
inductive Thread (β : Type) where
  /-- running a program -/
  | run (o : Option (PKind × Str)) (j : Job β) (st : List (Frame β))
  /-- before the look into the memo -/
  | look (s : Str) (st : List (Frame β))
  /-- before the lock -/
  | wait (p : PKind) (factorize : Bool) (s : Str) (st : List (Frame β))
  /-- with the lock, before `lexer.input` -/
  | input (p : PKind) (factorize : Bool) (s : Str) (st : List (Frame β))
  /-- after the lock of the script parser, before the result is put into the memo -/
  | store (s : Str) (r : β) (st : List (Frame β))
  /-- finished -/
  | fin (r : β)

/-- A call returns. -/
def Thread.resume (r : β) : List (Frame β) → Thread β
  | [] => .fin r
  | (o, k) :: st => .run o (k r) st

/-- A call of a parser begins: only `ScriptParser` has a memo. -/
def Thread.begin (p : PKind) (factorize : Bool) (s : Str) (st : List (Frame β)) : Thread β :=
  if p = .script then .look s st else .wait p factorize s st

/-- Changing the value at one place. -/
def setAt {α : Type} (f : PKind → α) (p : PKind) (x : α) : PKind → α := fun q => if q = p then x else f q

/-- The parsers, and which results are values: `lru_cache` does not keep exceptions; `size` is `maxsize`. -/
structure Parsers (β : Type) where
  body : PKind → Str → Job β
  keeps : β → Bool
  size : Nat

/-- `lru_cache` after a miss: nothing if another thread stored the text meanwhile, else the least recently used text goes away if the memo is full. -/
def Parsers.remember (P : Parsers β) (memo : List (Str × β)) (s : Str) (r : β) : List (Str × β) :=
  if !P.keeps r then memo
  else if (memo.find? fun e => e.1 = s).isSome then memo
  else (if memo.length < P.size then memo else memo.drop 1) ++ [(s, r)]

/-- One instruction of the thread `i`; none if it is finished or waits for a lock. -/
def Parsers.step (P : Parsers β) (i : Nat) (g : Shared β) : Thread β → Option (Shared β × Thread β)
  | .fin _ => none
  | .look s st => match g.memo.find? fun e => e.1 = s with
    | some e => some ({ g with memo := (g.memo.filter fun x => x.1 ≠ s) ++ [e] }, .resume e.2 st)
    | none => some (g, .wait .script false s st)
  | .wait p f s st => match g.lock p with
    | some _ => none
    | none => some ({ g with lock := setAt g.lock p (some i) }, .input p f s st)
  | .input p f s st => some ({ g with lex := setAt g.lex p (.start p f s) }, .run (some (p, s)) (P.body p s) st)
  | .store s r st => some ({ g with memo := P.remember g.memo s r }, .resume r st)
  | .run o (.call p f s k) st => some (g, .begin p f s ((o, k) :: st))
  | .run none (.char k) st => some (g, .run none (k none) st)
  | .run none (.flag k) st => some (g, .run none (k false) st)
  | .run none (.done r) st => some (g, .resume r st)
  | .run (some (p, s)) (.char k) st =>
    some ({ g with lex := setAt g.lex p (g.lex p).next }, .run (some (p, s)) (k (g.lex p).text[(g.lex p).pos]?) st)
  | .run (some (p, s)) (.flag k) st => some (g, .run (some (p, s)) (k (g.lex p).factorize) st)
  | .run (some (p, s)) (.done r) st =>
    some ({ g with lock := setAt g.lock p none }, if p = .script then .store s r st else .resume r st)

/-- All the threads. -/
structure Pool (β : Type) where
  shared : Shared β
  threads : List (Thread β)

/-- One of the threads does an instruction. -/
inductive Parsers.Step (P : Parsers β) : Pool β → Pool β → Prop where
  | mk {g g' : Shared β} {a b : List (Thread β)} {t t' : Thread β} : P.step a.length g t = some (g', t') →
      Step P ⟨g, a ++ t :: b⟩ ⟨g', a ++ t' :: b⟩

/-- The threads before they begin, each with its program; nothing is locked and nothing is known. -/
def Pool.initial (lex : PKind → LexState) (js : List (Job β)) : Pool β := ⟨⟨fun _ => none, lex, []⟩, js.map fun j => .run none j []⟩

/-! ### Constructions of `InstancedUSL` that overlap -/

variable {ρ : Type} [DecidableEq ρ]

/-- Where a construction is (`instance.py` lines 51-69): before the `with`, in the loop, before the listing, before the end of the `with`, after. -/
inductive Making (ρ : Type) where
  | enter (o : Objects ρ) (ds : List DecArg)
  | apply (o : Objects ρ) (ds : List DecArg) (flexion : Bool)
  | exit (r : Except Err (List (Path × Str)))
  | made (r : Except Err (List (Path × Str)))

/-- One instruction of a construction.  The listing is done at once. -/
def Making.step (ord : List (Path × Str) → List (Path × Str)) (w : World ρ) : Making ρ → Option (World ρ × Making ρ)
  | .enter o ds => some (w.enter, .apply o ds false)
  | .apply o [] f => some (w, .exit (listDecorations ord o f w))
  | .apply _ (none :: _) _ => some (w, .exit (.error .valueError))
  | .apply o (some d :: ds) f => match applyDecoration o d w with
    | (.error e, w) => some (w, .exit (.error e))
    | (.ok (), w) => some (w, .apply o ds (isFlexionPath d.1 || f))
  | .exit r => some (w.exit, .made r)
  | .made _ => none

/-- One instruction of one of the constructions, without any lock: two threads that call `InstancedUSL(..)`. -/
inductive Making.Step (ord : List (Path × Str) → List (Path × Str)) : World ρ × List (Making ρ) → World ρ × List (Making ρ) → Prop where
  | mk {w w' : World ρ} {a b : List (Making ρ)} {t t' : Making ρ} : t.step ord w = some (w', t') → Step ord (w, a ++ t :: b) (w', a ++ t' :: b)

/-- A construction by the rule `p_instanced_usl` (`usl/parser/parser.py` lines 75-78), with the lock of `IEMLParser`: before the lock, with it, after it. -/
inductive LockedMaking (ρ : Type) where
  | before (m : Making ρ)
  | held (m : Making ρ)
  | after (r : Except Err (List (Path × Str)))

/-- The lock, the literals and the constructions. -/
structure Makings (ρ : Type) where
  lock : Option Nat
  world : World ρ
  threads : List (LockedMaking ρ)

/-- One instruction of one of these constructions. -/
inductive Makings.Step (ord : List (Path × Str) → List (Path × Str)) : Makings ρ → Makings ρ → Prop where
  | acquire {w : World ρ} {a b : List (LockedMaking ρ)} {m : Making ρ} :
      Step ord ⟨none, w, a ++ .before m :: b⟩ ⟨some a.length, w, a ++ .held m :: b⟩
  | work {l : Option Nat} {w w' : World ρ} {a b : List (LockedMaking ρ)} {m m' : Making ρ} : m.step ord w = some (w', m') →
      Step ord ⟨l, w, a ++ .held m :: b⟩ ⟨l, w', a ++ .held m' :: b⟩
  | release {l : Option Nat} {w : World ρ} {a b : List (LockedMaking ρ)} {r : Except Err (List (Path × Str))} :
      Step ord ⟨l, w, a ++ .held (.made r) :: b⟩ ⟨none, w, a ++ .after r :: b⟩

end Verif
