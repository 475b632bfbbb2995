import Verif.Model.WordCheck
import Verif.Model.PathParser
import Verif.Model.Database

/-
Model of `word_to_latex` (`scripts/word_to_latex.py` lines 21-136): the table of the lexemes of a word, written in LaTeX.

`escape_latex` is a function of the library pylatex, which replaces the characters of a text one by one; the text put for each
character is a parameter.  The compilation of the text (lines 138-160) is not represented.
-/

namespace Verif
open Script

/-- `NAMES_TO_ADDRESS` (`usl/constants.py` lines 237-298): the names of the path parser, but for the three valences. -/
def addressNames : List (Str × Str) :=
  [(c!"E:S:.", c!"process"), (c!"E:T:.", c!"process"), (c!"E:B:.", c!"process")] ++ (roleNames.drop 3).dropLast.map fun e => (e.2, e.1)

/-- `NAMES_TO_ADDRESS[s]`. -/
def addressName (s : Str) : Except Err Str :=
  match addressNames.find? fun e => e.1 = s with
  | some e => .ok e.2
  | none => .error .keyError

/-- `_render_role` (`word_to_latex.py` lines 21-25).  On an empty role Python recurses without end; `color_from_role` has then
already raised. -/
def renderRole : Addr → Except Err Str
  | [] => .error .indexError
  | [a] => addressName a
  | a :: b :: r => do
    let x ← renderRole (b :: r)
    let y ← addressName a
    return x ++ ' ' :: y

/-- `COLORS` and `color_from_role` (`word_to_latex.py` lines 28-49). -/
def colorFromRole (role : Addr) (isMain : Bool) : Except Err Str :=
  match role with
  | [] => .error .indexError
  | r :: _ =>
    let res : Str × Str :=
      if r ∈ valenceScripts then (c!"fdc3bc", c!"fdc3bc")
      else if r ∈ [c!"E:.n.-", c!"E:.d.-", c!"E:.k.-"] then (c!"c9e9f6", c!"c9e9f6")
      else if r ∈ [c!"E:.l.-", c!"E:.t.-"] then (c!"d2f8d2", c!"d2f8d2")
      else if r ∈ [c!"E:.f.-", c!"E:.m.-", c!"E:.s.-"] then (c!"ffe69a", c!"ffe69a")
      else (c!"c9e9f6", c!"c9e9f6")
    .ok (if isMain then res.2 else res.1)

/-- `Descriptors.get_values` (`descriptors.py` lines 72-82) on the rows of a `Descriptors` object, for the key `str(ieml)`. -/
def rowValues (D : List (Str × Str × Str × Str)) (ieml lang desc : Str) : Except Err (List Str) :=
  if !languages.contains lang || !descriptorClasses.contains desc then .error .valueError
  else .ok ((D.filter fun r => r.1 = ieml ∧ r.2.1 = lang ∧ r.2.2.1 = desc).map (·.2.2.2))

/-- `', '.join(values)`. -/
def joinComma : List Str → Str
  | [] => []
  | [x] => x
  | x :: y :: l => x ++ c!", " ++ joinComma (y :: l)

/-- `"\\textbf{{{}}}".format(x)`. -/
def boldTex (x : Str) : Str := c!"\\textbf{" ++ x ++ c!"}"

/-- `', '.join(descriptors.get_values(x, language, 'translations'))` in bold (`word_to_latex.py` lines 63, 73, 78). -/
def boldValues (D : List (Str × Str × Str × Str)) (lang ieml : Str) : Except Err Str := do
  return boldTex (joinComma (← rowValues D ieml lang (c!"translations")))

/-- `escape_latex` of pylatex, where `esc` is the text of each character. -/
def escapeTex (esc : Char → Str) (t : Str) : Str := t.flatMap esc

/-- A cell with its color in `LINE_TEMPLATE` (`word_to_latex.py` line 51). -/
def texCell (color x : Str) : Str := c!"\\cellcolor[HTML]{" ++ color ++ c!"}" ++ x

/-- `LINE_TEMPLATE.format(…)` (`word_to_latex.py` line 51). -/
def texLine (color lexeme role flexion content : Str) : Str :=
  texCell color lexeme ++ c!" &" ++ texCell color role ++ c!" &" ++ texCell color flexion ++ c!" &" ++ texCell color content ++ c!"\\\\\n"

/-- `x if s and not s.empty else ''` (`word_to_latex.py` lines 83-84, 91-92); a script is true, its cardinal is not 0. -/
def cellOf (s : Option Script) (x : Str) : Str :=
  match s with
  | some s => if s.empty then [] else x
  | none => []

/-- The values of a morpheme of the turn, or nothing (`word_to_latex.py` lines 70-78). -/
def boldMorpheme (D : List (Str × Str × Str × Str)) (lang : Str) : Option Script → Except Err Str
  | none => .ok []
  | some s => boldValues D lang s.str

/-- The lexeme and the role are items of the first turn only (`word_to_latex.py` lines 60-68). -/
def atFirst (i : Nat) (x : Except Err Str) : Except Err Str := if i = 0 then x else .ok []

/-- One turn of the loop of `_serialize_role` (`word_to_latex.py` lines 59-94): the two lines of the `i`-th items of
`zip_longest([_lexeme], [_role], flexion, content)`. -/
def texTurn (esc : Char → Str) (D : List (Str × Str × Str × Str)) (lang color : Str) (role : Addr) (x : Lexeme) (i : Nat) : Except Err Str := do
  let lexeme ← atFirst i (boldValues D lang x.text)
  let name ← atFirst i (boldTex <$> renderRole role)
  let flexion ← boldMorpheme D lang x.flexion.constant[i]?
  let content ← boldMorpheme D lang x.content.constant[i]?
  let fl := x.flexion.constant[i]?
  let ctt := x.content.constant[i]?
  return texLine color lexeme name (cellOf fl flexion) (cellOf ctt content) ++
    texLine color [] (escapeTex esc (if i = 0 then joinSpace role else [])) (escapeTex esc (cellOf fl ((fl.map str).getD []))) (escapeTex esc (cellOf ctt ((ctt.map str).getD [])))

/-- `_serialize_role` (`word_to_latex.py` lines 53-96); `None` has no `pm_flexion`. -/
def serializeRole (esc : Char → Str) (D : List (Str × Str × Str × Str)) (lang color : Str) (role : Addr) (x : Option Lexeme) : Except Err Str :=
  match x with
  | none => .error .attributeError
  | some x => do
    let l ← (List.range (max 1 (max x.flexion.constant.length x.content.constant.length))).mapM (texTurn esc D lang color role x)
    return l.flatten

/-- `prefix` (`word_to_latex.py` lines 99-105). -/
def latexPrefix (w : WordUsl) : Addr :=
  match w.sfun.cls with
  | .dependant => [dependantQuality]
  | .independant => [independantQuality]
  | _ => []

/-- One turn of the loop of `word_to_latex` (`word_to_latex.py` lines 121-123). -/
def latexBlock (esc : Char → Str) (D : List (Str × Str × Str × Str)) (lang : Str) (w : WordUsl) (e : RoleEntry Lexeme) : Except Err Str := do
  let color ← colorFromRole (latexPrefix w ++ e.1) (decide (latexPrefix w ++ e.1 = w.role))
  let t ← serializeRole esc D lang color (latexPrefix w ++ e.1) e.2
  return t ++ c!"\\hline\n"

/-- The text before the table (`word_to_latex.py` lines 107-115). -/
def latexHead : Str := c!"\n\\begin{figure}\n\\centering\n\n\\begin{tabular}{|llll|}\n\\hline\nlexeme & role & flexion & content \\\\\n\\hline\n"

/-- The text after the table (`word_to_latex.py` lines 125-133). -/
def latexTail (trans ieml : Str) : Str :=
  c!"\n\\end{tabular}\n\\caption{\\textbf{" ++ trans ++ c!"} \\small{" ++ ieml ++ c!"}}\n\\label{fig:word_ieml}\n\\end{figure}\n"

/-- `word_to_latex` (`word_to_latex.py` lines 98-136).  The junctions, which the loop leaves out (lines 119-120), are left out before
the items are sorted.  `normalize_key` asks whether the word is empty (`descriptors.py` line 23). -/
def wordToLatex (esc : Char → Str) (D : List (Str × Str × Str × Str)) (lang : Str) (w : WordUsl) : Except Err Str := do
  let blocks ← (pySort (fun a b => addrLt a.1 b.1) w.sfun.items).mapM (latexBlock esc D lang w)
  let _ ← w.empty
  let trans ← rowValues D w.text lang (c!"translations")
  return latexHead ++ blocks.flatten ++ latexTail (joinComma trans) (escapeTex esc w.text)

end Verif
