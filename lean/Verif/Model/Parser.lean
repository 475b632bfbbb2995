import Verif.Model.ScriptBuild

/-
Model of the script lexer and parser (`ieml/dictionary/script/parser/lexer.py`, `parser.py`).

PLY builds an LALR(1) automaton from the grammar.  We model the automaton by a stack machine whose stack holds the
completed sums (`sum_lvl_k`) of the roles being read; the construction of a product happens when its layer mark is
shifted, because the only action of PLY in that state is the reduction (PLY reduces without looking at the next token in
such states).  A token is refused as soon as the tokens read so far with it are not the beginning of a sentence, which is
what an LALR(1) automaton does before shifting.
-/

namespace Verif

/-- Tokens (`lexer.py` lines 6-21). -/
inductive Tok where
  | plus
  | mark (k : Nat)
  /-- `PRIMITIVE`; `none` is `E` -/
  | prim (p : Option Prim)
  | radd (k : RemAdd)
  | rmul (ch : Str)
  deriving DecidableEq, Repr

/-- Tokens of one character (`lexer.py` lines 25-35).  The layer 3 mark has two forms. -/
def tok1 (c : Char) : Option Tok :=
  if c = '+' then some .plus
  else if c = '’' then some (.mark 3)
  else match layerMarks.idxOf? c with
    | some k => some (.mark k)
    | none =>
      if c = 'E' then some (.prim none)
      else match Script.primOfChar? c with
        | some p => some (.prim (some p))
        | none =>
          match Script.remAddOfChar? c with
          | some k => some (.radd k)
          | none => if [c] ∈ remMulTable.map Prod.snd then some (.rmul [c]) else none

/-- The lexer (`lexer.py` lines 24-44).  Blanks, tabulations and newlines are ignored; any other character that starts no
token is logged and skipped (`t_error`, lines 40-42).  A `w` starts a token only when followed by `o`, `a`, `u` or `e`. -/
def lex : Str → List Tok
  | [] => []
  | [c] => (tok1 c).toList
  | c :: d :: cs =>
    if c = 'w' ∧ (d = 'o' ∨ d = 'a' ∨ d = 'u' ∨ d = 'e') then .rmul [c, d] :: lex cs
    else (tok1 c).toList ++ lex (d :: cs)

/-- A sum being read: its layer, its terms (last one first, as built by `p[3].append(p[1])`, `parser.py` lines 91-98), and
whether a `+` has been read after the last term. -/
structure PItem where
  level : Nat
  terms : List Script
  pending : Bool

/-- Stack of the parser (top first), and the letter read before its layer mark, if any. -/
structure PState where
  stack : List PItem
  half : Option Tok

namespace PState

/-- Number of completed sums of layer `k` on top of the stack. -/
def topCount (k : Nat) (st : List PItem) : Nat := (st.takeWhile fun i => i.level = k && !i.pending).length

/-- Whether a new script may start here with a token that makes a script of layer `k` (0, or 1 for an abbreviated
product): after a `+`, or as a further role (at most three) of a product. -/
def mayStart (k : Nat) : List PItem → Bool
  | [] => true
  | i :: st =>
    if i.pending then k ≤ i.level
    else k ≤ i.level && i.level < 6 && topCount i.level (i :: st) < 3

/-- Put a completed script on the stack: it is the next term of a sum waiting after its `+`, or starts a new sum. -/
def push (k : Nat) (s : Script) : List PItem → List PItem
  | i :: st => if i.pending && i.level = k then ⟨k, s :: i.terms, false⟩ :: st else ⟨k, [s], false⟩ :: i :: st
  | [] => [⟨k, [s], false⟩]

/-- The script of one letter (`parser.py` lines 70-79). -/
def letterScript : Tok → Except Err Script
  | .prim none => .ok (.null 0)
  | .prim (some p) => Script.mkMultChar [p.char]
  | .radd k => Script.mkAddChar [k.char]
  | _ => .error .invalidScript

/-- Product of the sums of the roles, in reading order (`parser.py` lines 100-117 for layer 1, lines 133-150 for the
other layers; at layer 1 the sums have been built slightly earlier, when `additive_script_lvl_0` was reduced). -/
def reduceProduct (roles : List PItem) : Except Err Script := do
  let cs ← roles.mapM fun i => Script.mkAdd i.terms
  Script.mkMult (cs.map some)

/-- One token. -/
def step (st : PState) (t : Tok) : Except Err PState :=
  match st.half, t with
  | some (.rmul ch), .mark 1 => do
    let s ← Script.mkMultChar ch
    .ok ⟨push 1 s st.stack, none⟩
  | some (.rmul _), _ => .error .invalidScript
  | some h, .mark 0 => do
    let s ← letterScript h
    .ok ⟨push 0 s st.stack, none⟩
  | some _, _ => .error .invalidScript
  | none, .prim p => if mayStart 0 st.stack then .ok ⟨st.stack, some (.prim p)⟩ else .error .invalidScript
  | none, .radd k => if mayStart 0 st.stack then .ok ⟨st.stack, some (.radd k)⟩ else .error .invalidScript
  | none, .rmul ch => if mayStart 1 st.stack then .ok ⟨st.stack, some (.rmul ch)⟩ else .error .invalidScript
  | none, .plus =>
    match st.stack with
    | i :: is => if i.pending then .error .invalidScript else .ok ⟨⟨i.level, i.terms, true⟩ :: is, none⟩
    | [] => .error .invalidScript
  | none, .mark 0 => .error .invalidScript
  | none, .mark (k + 1) =>
    let n := topCount k st.stack
    if n = 0 then .error .invalidScript
    else do
      let s ← reduceProduct (st.stack.take n).reverse
      .ok ⟨push (k + 1) s (st.stack.drop n), none⟩

/-- End of the text: a single script is returned as it is, several ones are summed (`parser.py` lines 51-66, 82-84,
119-121, 130-131; the reduce/reduce conflict between `term : script_lvl_k` and `sum_lvl_k : script_lvl_k` is resolved by
PLY in favour of the rule that comes first in the file). -/
def finish (st : PState) : Except Err Script :=
  match st.half, st.stack with
  | none, [⟨_, [s], false⟩] => .ok s
  | none, [⟨_, ts, false⟩] => Script.mkAdd ts
  | _, _ => .error .invalidScript

/-- All the tokens. -/
def run : List Tok → PState → Except Err PState
  | [], st => .ok st
  | t :: ts, st => do run ts (← step st t)

end PState

/-- `ScriptParser().parse(text)` (`parser.py` lines 34-48): an `InvalidScript` is turned into `CannotParse`. -/
def parseScript (text : Str) : Except Err Script :=
  match (PState.run (lex text) ⟨[], none⟩) >>= PState.finish with
  | .ok s => .ok s
  | .error e => if e.isInvalidScript then .error .cannotParse else .error e

end Verif
