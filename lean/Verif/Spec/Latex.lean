import Verif.Model.Latex

/-
What the LaTeX table of a word shows, read from its text: the lines of the table, their cells, and the columns.
-/

namespace Verif
open Script

/-- The pieces of a text between the occurrences of a character. -/
def piecesAt (c : Char) : Str → List Str
  | [] => [[]]
  | x :: t => if x = c then [] :: piecesAt c t else (x :: (piecesAt c t).headD []) :: (piecesAt c t).tail

/-- The lines of a text that begin with a coloured cell: those of the table. -/
def tableLines (t : Str) : List Str := (piecesAt '\n' t).filter fun l => (c!"\\cellcolor").isPrefixOf l

/-- The values of a key in a language. -/
def translationsOf (D : List (Str × Str × Str × Str)) (lang key : Str) : Str :=
  joinComma ((D.filter fun r => r.1 = key ∧ r.2.1 = lang ∧ r.2.2.1 = c!"translations").map (·.2.2.2))

/-- The name of a role: the names of its scripts, the last one first. -/
def roleTitle (role : Addr) : Str := joinSpace (role.reverse.map fun a => ((addressNames.find? fun e => e.1 = a).map (·.2)).getD [])

/-- A column that begins with these cells, the others being empty. -/
def padTo (n : Nat) (l : List Str) : List Str := l ++ List.replicate (n - l.length) []

/-- The cells of morphemes: the values in bold, then the text; the empty morpheme leaves both blank. -/
def morphemeCells (esc : Char → Str) (T : Str → Str) (l : List Script) : List Str :=
  l.flatMap fun s => if s.empty then [[], []] else [boldTex (T s.str), escapeTex esc s.str]

/-- The rows of a lexeme: two for each morpheme, four cells each; the columns are the lexeme, its role, its flexion and its content. -/
structure TexBlock (esc : Char → Str) (T : Str → Str) (role : Addr) (x : Lexeme) (rows : List (List Str)) : Prop where
  size : rows.length = 2 * max 1 (max x.flexion.constant.length x.content.constant.length)
  four : ∀ r ∈ rows, r.length = 4
  lexemes : rows.map (fun r => r.getD 0 []) = padTo rows.length [boldTex (T x.text)]
  roles : rows.map (fun r => r.getD 1 []) = padTo rows.length [boldTex (roleTitle role), escapeTex esc (joinSpace role)]
  flexions : rows.map (fun r => r.getD 2 []) = padTo rows.length (morphemeCells esc T x.flexion.constant)
  contents : rows.map (fun r => r.getD 3 []) = padTo rows.length (morphemeCells esc T x.content.constant)

/-- The pieces of a line of the table: each cell with its color, a space after the first three and the end of the row after the last. -/
def linePieces (color : Str) (row : List Str) : List Str :=
  (row.dropLast.map fun x => texCell color x ++ c!" ") ++ [texCell color (row.getLastD []) ++ c!"\\\\"]

end Verif
