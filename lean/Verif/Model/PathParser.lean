import Verif.Model.Path

/-
Model of `ieml/usl/decoration/parser/lexer.py` and `parser.py`: reading the texts of paths.

PLY tries the rules given by texts in the order of decreasing lengths of their regular expressions: MORPHEME, ROLE_NAME,
POLYMORPHEME_POSITION, LEXEME_POSITION, ROLE_TOKEN, then the one-character tokens, which exclude each other.
-/

namespace Verif
open Script

/-- `ROLE_NAMES_TO_SCRIPT` (`usl/constants.py` lines 237-313), in the order of the dictionary. -/
def roleNames : List (Str × Str) :=
  [(c!"process_1", c!"E:S:."), (c!"process_2", c!"E:T:."), (c!"process_3", c!"E:B:."),
   (c!"initiator", c!"E:.n.-"), (c!"interactant", c!"E:.d.-"), (c!"recipient", c!"E:.k.-"),
   (c!"time", c!"E:.t.-"), (c!"location", c!"E:.l.-"), (c!"manner", c!"E:.f.-"), (c!"intention", c!"E:.m.-"), (c!"cause", c!"E:.s.-"),
   (c!"independant", c!"E:U:."), (c!"dependant", c!"E:A:."),
   (c!"and", c!"E:S:.-k.u.-'"), (c!"or (inclusive)", c!"E:B:.-k.u.-'"), (c!"or (exclusive)", c!"E:T:.-k.u.-'"),
   (c!"is the same as the precedent", c!"E:.-s.a.-k.u.-'"), (c!"is similar to the precedent", c!"E:.-b.a.-k.u.-'"),
   (c!"is distinct from the precedent", c!"E:.-t.a.-k.u.-'"),
   (c!"is worse than the precedent", c!"E:.-k.a.-k.u.-'"), (c!"is as good as the precedent", c!"E:.-m.a.-k.u.-'"),
   (c!"is better than the precedent", c!"E:.-n.a.-k.u.-'"),
   (c!"is less than the precedent", c!"E:.-d.a.-k.u.-'"), (c!"is as much as the precedent", c!"E:.-f.a.-k.u.-'"),
   (c!"is more than the precedent", c!"E:.-l.a.-k.u.-'"),
   (c!"is the worst of the precedent", c!"E:.-y.-k.u.-'"), (c!"is the qualitative average of the precedent", c!"E:.-o.-k.u.-'"),
   (c!"is the best of the precedent", c!"E:.-e.-k.u.-'"),
   (c!"is the minimum of the precedent", c!"E:.-u.-k.u.-'"), (c!"is the quantitative average of the precedent", c!"E:.-a.-k.u.-'"),
   (c!"is the maximum of the precedent", c!"E:.-i.-k.u.-'"),
   (c!"explains the precedent", c!"E:.-s.u.-k.u.-'"), (c!"has nothing to do with the precedent", c!"E:.-b.u.-k.u.-'"),
   (c!"contradicts the precedent", c!"E:.-t.u.-k.u.-'"),
   (c!"unfortunately opposes the precedent", c!"E:.-k.u.-k.u.-'"), (c!"balances the precedent (neutral)", c!"E:.-m.u.-k.u.-'"),
   (c!"is fortunately opposed to the precedent", c!"E:.-n.u.-k.u.-'"),
   (c!"has the opposite effect of the precedent", c!"E:.-d.u.-k.u.-'"), (c!"reduces the effect of the previous one", c!"E:.-f.u.-k.u.-'"),
   (c!"increases the effect of the previous one", c!"E:.-l.u.-k.u.-'"),
   (c!"is the effect of the precedent (therefore)", c!"E:.-wo.-k.u.-'"), (c!"is the cause of the precedent (because)", c!"E:.-wa.-k.u.-'"),
   (c!"is an analogy of the precedent cause to effect relationship (a fortiori, a contrario, etc.)", c!"E:.-we.-k.u.-'"),
   (c!"is an analogy of the precedent effect to cause relationship", c!"E:.-wu.-k.u.-'"),
   (c!"*1", c!"j.-U:.-'d.o.-l.o.-',"), (c!"*2", c!"j.-A:.-'d.o.-l.o.-',"), (c!"*3", c!"g.-U:.-'d.o.-l.o.-',"),
   (c!"*4", c!"g.-A:.-'d.o.-l.o.-',"), (c!"*5", c!"h.-U:.-'d.o.-l.o.-',"), (c!"*6", c!"h.-A:.-'d.o.-l.o.-',"),
   (c!"*7", c!"c.-U:.-'d.o.-l.o.-',"), (c!"*8", c!"c.-A:.-'d.o.-l.o.-',"), (c!"*9", c!"p.-U:.-'d.o.-l.o.-',"),
   (c!"*10", c!"p.-A:.-'d.o.-l.o.-',"), (c!"*11", c!"x.-U:.-'d.o.-l.o.-',"), (c!"*12", c!"x.-A:.-'d.o.-l.o.-',"),
   (c!"process", c!"E:B:.")]

/-- The tokens of `lexer.py` (lines 15-25); `ROLE_MORPHEME` has no rule. -/
inductive PTok where
  | sep | roleTok | excl
  | roleName (s : Str)
  /-- `content` if `true`, `flexion` otherwise -/
  | lexPos (content : Bool)
  /-- `group_d`, or `constant` -/
  | pmPos (d : Option Char)
  | morpheme (s : Str)
  | mult (d : Char)
  deriving DecidableEq, Repr

/-- The optional marks of `TERM_REGEX` (`lexer.py` line 28), in their order. -/
def pathMarks : List Char := c!":.-',’_;+"

/-- The longest text matched by `TERM_REGEX` (`lexer.py` line 28): letters, each followed by some of the marks in their order; `ms`
are the marks that can follow here.  Every mark is optional, so that the first choice is always the one kept. -/
def takeTerm : List Char → Str → Str
  | _, [] => []
  | ms, c :: cs =>
    if termFirst c then c :: takeTerm pathMarks cs
    else match ms.dropWhile (· != c) with
      | _ :: ms => c :: takeTerm ms cs
      | [] => []

/-- `group_\d`: the digit.  The decimal digits other than the ASCII ones are not modelled. -/
def groupAt (s : Str) : Option Char :=
  match afterPrefix (c!"group_") s with
  | some (d :: _) => if isDigit d then some d else none
  | _ => none

/-- The negative lookahead of MORPHEME (line 47). -/
def reserved (s : Str) : Bool :=
  (c!"flexion").isPrefixOf s || (c!"content").isPrefixOf s || (groupAt s).isSome || (c!"constant").isPrefixOf s ||
  (c!"role").isPrefixOf s || roleNames.any fun e => e.1.isPrefixOf s

/-- The token at the beginning of a text and the number of its characters (lines 35-48). -/
def pTokenAt (s : Str) : Option (PTok × Nat) :=
  let t := takeTerm [] s
  if !reserved s && !t.isEmpty then some (.morpheme t, t.length)
  else match roleNames.find? fun e => e.1.isPrefixOf s with
    | some e => some (.roleName e.1, e.1.length)
    | none => match groupAt s with
      | some d => some (.pmPos (some d), 7)
      | none =>
        if (c!"constant").isPrefixOf s then some (.pmPos none, 8)
        else if (c!"flexion").isPrefixOf s then some (.lexPos false, 7)
        else if (c!"content").isPrefixOf s then some (.lexPos true, 7)
        else if (c!"role").isPrefixOf s then some (.roleTok, 4)
        else match s with
          | [] => none
          | c :: _ =>
            if c = '>' then some (.sep, 1)
            else if isDigit c then some (.mult c, 1)
            else if c = '!' then some (.excl, 1)
            else none

/-- The lexer (lines 34-58): `skip` characters of the current token remain.  Blanks are ignored (line 48), and the characters that start
no token are logged and skipped (lines 51-53). -/
def pathLexFrom : Nat → Str → List PTok
  | _, [] => []
  | n + 1, _ :: cs => pathLexFrom n cs
  | 0, c :: cs =>
    if (c!" \t\n").contains c then pathLexFrom 0 cs
    else match pTokenAt (c :: cs) with
      | some (t, n) => t :: pathLexFrom (n - 1) cs
      | none => pathLexFrom 0 cs

/-- All the tokens of a text. -/
def pathLex (s : Str) : List PTok := pathLexFrom 0 s

/-- `GroupIndex[p[1].upper()]` (`parser.py` lines 120-133): `KeyError` beyond the third group. -/
def pathGroup : Option Char → Except Err GIdx
  | none => .ok .constant
  | some d => if d = '0' then .ok .g0 else if d = '1' then .ok .g1 else if d = '2' then .ok .g2 else .error .keyError

/-- `role_path_list` (lines 55-74), possibly empty: the texts of the scripts. -/
def takeRoles : List PTok → Except Err (Addr × List PTok)
  | .morpheme s :: ts => do
    let m ← parseScript s
    let r ← takeRoles ts
    return (m.str :: r.1, r.2)
  | .roleName n :: ts => do
    let m := ((roleNames.find? fun e => e.1 = n).map (·.2)).getD []
    let r ← takeRoles ts
    return (m :: r.1, r.2)
  | ts => .ok ([], ts)

/-- `polymorpheme_path` (lines 112-133) after its position, up to the end of the text. -/
def takePMPath (d : Option Char) (ts : List PTok) : Except Err Path :=
  match ts with
  | [] => do return [.pm (← pathGroup d) none (some 1)]
  | [.mult k] => do return [.pm (← pathGroup d) none (some (natOf [k]))]
  | .sep :: .morpheme s :: ts => do
    let g ← pathGroup d
    let m ← parseScript s
    match ts with
    | [] => return [.pm g (some m) (some 1)]
    | _ => throw .cannotParse
  | .mult k :: .sep :: .morpheme s :: ts => do
    let g ← pathGroup d
    let m ← parseScript s
    match ts with
    | [] => return [.pm g (some m) (some (natOf [k]))]
    | _ => throw .cannotParse
  | _ => .error .cannotParse

/-- `flexion_path` (lines 108-110) up to the end of the text. -/
def takeFlexion (s : Str) (ts : List PTok) : Except Err Path := do
  let m ← parseScript s
  match ts with
  | [] => return [.flexion m]
  | _ => throw .cannotParse

/-- `lexeme_path` (lines 90-106) after its position, up to the end of the text.  An invalid child is refused with `CannotParse`. -/
def takeLexPath (c : Bool) (ts : List PTok) : Except Err Path :=
  match ts with
  | [] => .ok [.lexeme c]
  | .sep :: .pmPos d :: ts => do
    let q ← takePMPath d ts
    if c then construct (.lexeme c) q else throw .cannotParse
  | .sep :: .morpheme s :: ts => do
    let q ← takeFlexion s ts
    if c then throw .cannotParse else construct (.lexeme c) q
  | _ => .error .cannotParse

/-- `role_path` (lines 76-88) after `ROLE_TOKEN SEPARATOR`, up to the end of the text.  The constructor of `SyntagmaticRole` refuses
the scripts that are not in `ADDRESS_SCRIPTS`. -/
def takeRolePath (ts : List PTok) : Except Err Path := do
  let (f, ts) := match ts with
    | .excl :: ts => (true, ts)
    | ts => (false, ts)
  let r ← takeRoles ts
  if r.1.isEmpty then throw .cannotParse
  let q ← match r.2 with
    | [] => pure []
    | .sep :: .lexPos c :: ts => takeLexPath c ts
    | _ => throw .cannotParse
  if r.1.any fun a => decide (a ∉ addressScripts) then throw .valueError
  construct (.role r.1 f) q

/-- `path` (lines 42-53). -/
def takePath : List PTok → Except Err Path
  | [.sep] => .ok [.usl]
  | .sep :: .roleTok :: .sep :: ts => takeRolePath ts
  | .sep :: .lexPos c :: ts => takeLexPath c ts
  | .sep :: .morpheme s :: ts => takeFlexion s ts
  | .sep :: .pmPos d :: ts => takePMPath d ts
  | _ => .error .cannotParse

/-- `PathParser().parse(s)` (lines 29-40): a `ValueError` is turned into `CannotParse`. -/
def pathRead (s : Str) : Except Err Path :=
  match takePath (pathLex s) with
  | .ok p => .ok p
  | .error e => if e = .valueError then .error .cannotParse else .error e

end Verif
