import Verif.Model.Parser
import Verif.Model.Usl

/-
Model of the lexer and the parser of USLs (`ieml/usl/parser/lexer.py`, `ieml/usl/parser/parser.py`).

PLY tries the regular expressions of the tokens in the order of their lengths, the longest first: `USL_PATH`, `MORPHEME`,
`OLD_MORPHEME_GRAMMATICAL_CLASS`, `LITERAL`, `DECORATION_VALUE`, `GROUP_MULTIPLICITY`, then the single characters.  The grammar
has one conflict, between `proposition : morpheme` and `morpheme_sum : morpheme` at the end of the text, resolved in favour of the
first rule of the file; apart from it one token of lookahead decides, and the automaton is modelled by a recursive descent
that runs the actions in the same order, from left to right.

The parser has no dictionary and does not factorise, as in `usl(text)` (`usl/usl.py` lines 122-124).
-/

namespace Verif

/-! ### Lexer -/

/-- Tokens (`lexer.py` lines 10-36). -/
inductive UTok where
  | morpheme (s : Str)
  | oldClass (s : Str)
  | lparen | rparen | rchevron | lbracket | rbracket | exclamation
  /-- `GROUP_MULTIPLICITY`, without its `m` -/
  | mult (digits : Str)
  | literal (s : Str)
  | path (s : Str)
  /-- `DECORATION_VALUE`, with its quotes -/
  | value (s : Str)
  deriving DecidableEq, Repr

/-- The first characters of `TERM_REGEX` (`ieml/constants.py` line 117). -/
def termFirst (c : Char) : Bool := (c!"EUASBTOMFIacbedgfihkjmlonpsutwyx").contains c

/-- The following characters of `TERM_REGEX`. -/
def termRest (c : Char) : Bool := termFirst c || (c!".-;:,'’_+").contains c

/-- The negative lookahead of `TERM_REGEX`: `E:\.b\.E:.:\.-` matches; its `.` matches everything but a newline. -/
def oldPrefix : Str → Bool
  | 'E' :: ':' :: '.' :: 'b' :: '.' :: 'E' :: ':' :: c :: ':' :: '.' :: '-' :: _ => c != '\n'
  | _ => false

/-- `TERM_REGEX` at the beginning of a text: the text matched. -/
def matchTerm (s : Str) : Option Str :=
  if oldPrefix s then none
  else match s with
    | c :: d :: cs => if termFirst c && termRest d then some (c :: d :: cs.takeWhile termRest) else none
    | _ => none

/-- `OLD_MORPHEME_GRAMMATICAL_CLASS` (`lexer.py` line 40). -/
def matchOld (s : Str) : Option Str :=
  if oldPrefix s && (match s.getD 7 ' ' with | 'S' | 'B' | 'T' => true | _ => false) then some (s.take 11) else none

/-- A text that starts with `p`: what follows. -/
def afterPrefix (p s : Str) : Option Str := if p.isPrefixOf s then some (s.drop p.length) else none

/-- `\d`; the decimal digits other than the ASCII ones are not modelled. -/
def isDigit (c : Char) : Bool := (c!"0123456789").contains c

/-- `\s` among the ASCII characters (the others are not modelled). -/
def isBlank (c : Char) : Bool := c == ' ' || c == '\t' || c == '\n' || c == '\r' || c == '\x0b' || c == '\x0c' ||
  (decide (0x1c ≤ c.toNat) && decide (c.toNat ≤ 0x1f))

/-- `{role_regex}(\s{role_regex})*>` (`lexer.py` line 58): what follows.  The scripts of `ROLE_REGEX` (`usl/constants.py` line
315) contain neither blanks nor `>`, so that the text matched by each of them ends at the next one of these
characters.  `n` bounds the number of scripts. -/
def afterRoles : Nat → Str → Option Str
  | 0, _ => none
  | n + 1, s =>
    if s.takeWhile (fun c => !isBlank c && c != '>') ∈ addressScripts then
      match s.dropWhile (fun c => !isBlank c && c != '>') with
      | [] => none
      | c :: r => if c = '>' then some r else afterRoles n r
    else none

/-- `((group_\d|constant)>)`: what follows. -/
def afterGroup (s : Str) : Option Str :=
  match afterPrefix (c!"group_") s with
  | some (d :: '>' :: r) => if isDigit d then some r else none
  | some _ => none
  | none => afterPrefix (c!"constant>") s

/-- `USL_PATH` after its `>` (`lexer.py` line 58): what follows the longest path.  Every part is optional, so that a part that matches
is never given up; only `(group_\d|constant)>` is given up when no term follows. -/
def afterPath (s : Str) : Str :=
  let s := ((afterPrefix (c!"role>") s).bind (fun r => afterRoles (r.length + 1) r)).getD s
  let s := ((afterPrefix (c!"flexion>") s).orElse fun _ => afterPrefix (c!"content>") s).getD s
  match (afterGroup s).bind fun r => (matchTerm r).map fun t => r.drop t.length with
  | some r => r
  | none => s.drop ((matchTerm s).getD []).length

/-- `(\\q|[^q])*q` after an opening character: the text up to and including the closing one.  The alternatives are tried in
this order, a backslash followed by `q` is skipped; if this finds no end, the last such `q` ends the text. -/
def closeAt (q : Char) : Str → Option Str
  | [] => none
  | '\\' :: c :: s =>
    if c = q then (match closeAt q s with | some t => some ('\\' :: c :: t) | none => some ['\\', c])
    else (closeAt q (c :: s)).map ('\\' :: ·)
  | c :: s => if c = q then some [c] else (closeAt q s).map (c :: ·)

/-- The token at the beginning of a non-empty text and the number of its characters; `prev` is the character before it. -/
def tokenAt (prev : Option Char) (s : Str) : Option (UTok × Nat) :=
  match s with
  | [] => none
  | c :: cs =>
    if prev = some '[' ∧ c = '>' then
      let t := s.take (s.length - (afterPath cs).length)
      some (.path t, t.length)
    else match matchTerm s with
    | some t => some (.morpheme t, t.length)
    | none => match matchOld s with
      | some t => some (.oldClass t, t.length)
      | none =>
        if c = '#' then
          match closeAt '#' cs with
          | some t => if t.length ≥ 2 then some (.literal (c :: t), t.length + 1) else none
          | none => none
        else if c = '"' then (closeAt '"' cs).map fun t => (.value (c :: t), t.length + 1)
        else if c = 'm' then
          match cs.takeWhile isDigit with
          | [] => none
          | ds => some (.mult ds, ds.length + 1)
        else if c = '(' then some (.lparen, 1)
        else if c = ')' then some (.rparen, 1)
        else if c = '>' then some (.rchevron, 1)
        else if c = '[' then some (.lbracket, 1)
        else if c = ']' then some (.rbracket, 1)
        else if c = '!' then some (.exclamation, 1)
        else none

/-- The lexer (`lexer.py` lines 39-70): `skip` characters of the current token remain.  The characters of `t_ignore` are skipped
before a token, and those that start no token are logged and skipped (`t_error`). -/
def uslLexFrom : Nat → Option Char → Str → List UTok
  | _, _, [] => []
  | n + 1, _, c :: cs => uslLexFrom n (some c) cs
  | 0, prev, c :: cs =>
    if (c!"{} \t\n").contains c then uslLexFrom 0 (some c) cs
    else match tokenAt prev (c :: cs) with
      | some (t, n) => t :: uslLexFrom (n - 1) (some c) cs
      | none => uslLexFrom 0 (some c) cs

/-- All the tokens of a text. -/
def uslLex (s : Str) : List UTok := uslLexFrom 0 none s

/-! ### Parser -/

/-- `int(digits)`. -/
def natOf (ds : Str) : Nat := ds.foldl (fun n c => 10 * n + (c.toNat - 48)) 0

/-- `morpheme : MORPHEME` and `morpheme_sum` (`parser.py` lines 81-98), possibly empty. -/
def takeMorphemes : List UTok → Except Err (List Script × List UTok)
  | .morpheme s :: ts => do
    let m ← parseScript s
    let r ← takeMorphemes ts
    return (m :: r.1, r.2)
  | ts => .ok ([], ts)

/-- `group` (lines 100-102) after its `GROUP_MULTIPLICITY`. -/
def takeGroup (digits : Str) : List UTok → Except Err (Group × List UTok)
  | .lparen :: ts => do
    let r ← takeMorphemes ts
    match r with
    | (m :: ms, .rparen :: ts) => return ((m :: ms, natOf digits), ts)
    | _ => throw .cannotParse
  | _ => .error .cannotParse

/-- `group_list` (lines 104-110), possibly empty; `n` bounds the number of groups. -/
def takeGroups : Nat → List UTok → Except Err (List Group × List UTok)
  | n + 1, .mult ds :: ts => do
    let g ← takeGroup ds ts
    let r ← takeGroups n g.2
    return (g.1 :: r.1, r.2)
  | _, ts => .ok ([], ts)

/-- `poly_morpheme` (lines 112-121): its morphemes and groups, and what follows. -/
def takePMParts (ts : List UTok) : Except Err ((List Script × List Group) × List UTok) := do
  let a ← takeMorphemes ts
  let b ← takeGroups a.2.length a.2
  if a.1.isEmpty && b.1.isEmpty then throw .cannotParse
  return ((a.1, b.1), b.2)

/-- `LPAREN poly_morpheme RPAREN` or `LPAREN RPAREN`, after `LPAREN`. -/
def takeParen : List UTok → Except Err (Option PM × List UTok)
  | .rparen :: ts => .ok (none, ts)
  | ts => do
    let r ← takePMParts ts
    match r.2 with
    | .rparen :: ts => return (some (mkPM r.1.1 r.1.2), ts)
    | _ => throw .cannotParse

/-- The last parenthesis of the long forms of lexemes, after `LPAREN`: it is not empty. -/
def takeLast (ts : List UTok) : Except Err (PM × List UTok) := do
  let r ← takeParen ts
  match r.1 with
  | some p => return (p, r.2)
  | none => throw .cannotParse

/-- `lexeme` (lines 124-147) after its first `LPAREN`. -/
def takeLexeme (ts : List UTok) : Except Err (Lexeme × List UTok) := do
  let a ← takeParen ts
  match a.2 with
  | .lparen :: ts => do
    let b ← takeParen ts
    match a.1, b.1, b.2 with
    | some p, some q, .lparen :: ts => do
      let r ← takeLast ts
      return (mkLexeme (mkPM (p.constant ++ r.1.constant) (p.groups ++ r.1.groups)) q, r.2)
    | none, some q, .lparen :: ts => do
      let r ← takeLast ts
      return (mkLexeme r.1 q, r.2)
    | none, none, .lparen :: ts => do
      let r ← takeLast ts
      return (mkLexeme r.1 (mkPM [] []), r.2)
    | some p, some q, ts => return (mkLexeme p q, ts)
    | none, some q, ts => return (mkLexeme (mkPM [] []) q, ts)
    | _, none, _ => throw .cannotParse
  | ts => return (mkLexeme (a.1.getD (mkPM [] [])) (mkPM [] []), ts)

/-- `positioned_lexeme` (lines 149-155).  The address is modelled by the texts of its scripts. -/
def takePositioned (ts : List UTok) : Except Err (RoleEntry Lexeme × List UTok) := do
  let a ← takeMorphemes ts
  match a.2 with
  | .lparen :: ts => do
    let x ← takeLexeme ts
    return ((a.1.map Script.str, some x.1), x.2)
  | _ => throw .cannotParse

/-- An element of `lexeme_list` (lines 157-173): a mark if there is one, and a positioned lexeme. -/
def takeMarked : List UTok → Except Err ((Bool × RoleEntry Lexeme) × List UTok)
  | .exclamation :: ts => do
    let e ← takePositioned ts
    return ((true, e.1), e.2)
  | ts => do
    let e ← takePositioned ts
    return ((false, e.1), e.2)

/-- The rest of `lexeme_list`: `n` bounds the number of its elements. -/
def takeMore : Nat → List UTok → Except Err (List (Bool × RoleEntry Lexeme) × List UTok)
  | n + 1, .rchevron :: ts => do
    let e ← takeMarked ts
    let r ← takeMore n e.2
    return (e.1 :: r.1, r.2)
  | _, ts => .ok ([], ts)

/-- The role of a list of lexemes: the address of the last one that is marked (lines 162-173). -/
def markedRole (l : List (Bool × RoleEntry Lexeme)) : Option Addr :=
  l.foldl (fun r e => if e.1 then some e.2.1 else r) none

/-- `word` (lines 175-194), after its `RBRACKET`.  The constructor of `SyntagmaticRole` refuses the scripts that are not in
`ADDRESS_SCRIPTS`. -/
def wordOf (l : List (Bool × RoleEntry Lexeme)) : Except Err WordUsl :=
  match markedRole l with
  | none => .error .valueError
  | some [] => .error .valueError
  | some role => do
    let f ← fromList (l.map (·.2))
    if role.any fun a => decide (a ∉ addressScripts) then throw .valueError
    mkWord f.2 role f.1

/-- `word` after its `LBRACKET`. -/
def takeWord (ts : List UTok) : Except Err (WordUsl × List UTok) := do
  let ts := match ts with
    | .oldClass _ :: ts => ts
    | ts => ts
  let a ← takeMarked ts
  let r ← takeMore a.2.length a.2
  match r.2 with
  | .rbracket :: ts => do
    let w ← wordOf (a.1 :: r.1)
    return (w, ts)
  | _ => throw .cannotParse

/-- What a text reads as: a script or a USL. -/
inductive Expr where
  | script (s : Script)
  | pm (p : PM)
  | lexeme (x : Lexeme)
  | word (w : WordUsl)

/-- `str(u)`. -/
def Expr.text : Expr → Str
  | .script s => s.str
  | .pm p => p.text
  | .lexeme x => x.text
  | .word w => w.text

/-- `decoration_list` (lines 199-212) up to the end of the text, possibly empty: the texts of the paths and values. -/
def takeDecorations : List UTok → Except Err (List (Str × Str))
  | [] => .ok []
  | .lbracket :: .path p :: .value v :: .rbracket :: ts => do
    let r ← takeDecorations ts
    return ((p, v) :: r)
  | _ => .error .cannotParse

/-- `usl` (lines 69-74). -/
def takeUsl : List UTok → Except Err (Expr × List UTok)
  | .lparen :: ts => do
    let x ← takeLexeme ts
    return (.lexeme x.1, x.2)
  | .lbracket :: ts => do
    let w ← takeWord ts
    return (.word w.1, w.2)
  | ts => do
    let r ← takePMParts ts
    match r with
    | (([m], []), []) => return (.script m, [])
    | _ => return (.pm (mkPM r.1.1 r.1.2), r.2)

/-- `proposition` (lines 62-78): the USL and its decorations, of which there is none for a USL alone. -/
def takeProposition (ts : List UTok) : Except Err (Expr × List (Str × Str)) := do
  let u ← takeUsl ts
  let ds ← takeDecorations u.2
  return (u.1, ds)

/-- `IEMLParser().parse(text)` (lines 42-58) without the construction of the instances: a `ValueError` is turned into
`CannotParse`. -/
def uslRead (s : Str) : Except Err (Expr × List (Str × Str)) :=
  if s.isEmpty then .ok (.script (.null 0), [])
  else match takeProposition (uslLex s) with
    | .ok r => .ok r
    | .error e => if e = .valueError then .error .cannotParse else .error e

end Verif
