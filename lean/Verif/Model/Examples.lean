import Verif.Model.UslParser
import Verif.Model.WordCheck
import Verif.Model.Csv

/-
Model of the program that reads and writes a file of examples of words, `scripts/parse_examples.py`.
-/

namespace Verif

/-- What follows `\s*#` at the start of a text (`parse_examples.py` line 13): `#` is no white space, so that the repetition has to take
all the white space before it. -/
def afterHash (s : Str) : Option Str :=
  match s.dropWhile pySpace with
  | '#' :: r => some r
  | _ => none

/-- `.*\]` followed by `\s*#` (line 13): the longest start without line break, and what follows. -/
def lastClose : Str → Option (Str × Str)
  | [] => none
  | c :: s =>
    if c = '\n' then none
    else match lastClose s with
      | some (a, r) => some (c :: a, r)
      | none => if c = ']' then (afterHash s).map fun r => ([], r) else none

/-- `spliter.match(l).groups()` with `^(\[.*\])\s*#\s*(.*)$` (lines 13, 17-18), for a line as `readlines` gives them, that is without a line
break but at its end; `none` when there is no match.  After the second `\s*`, which takes all the white space, `(.*)` takes the rest of
the line and `$` holds at its end or before its line break. -/
def splitExample : Str → Option (Str × Str)
  | '[' :: s => (lastClose s).map fun p => ('[' :: (p.1 ++ [']']), (p.2.dropWhile pySpace).takeWhile fun c => c != '\n')
  | _ => none

/-- `ieml.replace('X', 'wa.')` (line 19). -/
def replaceX (s : Str) : Str := s.flatMap fun c => if c = 'X' then c!"wa." else [c]

/-- `str(u)` after `u = usl(ieml)` and `check_word(u)` (lines 24-30).  What is no word has no attribute `role`; expressions with decorations
are not considered. -/
def acceptText (s : Str) : Except Err Str := do
  let r ← uslRead s
  if r.2 ≠ [] then throw .unmodelled
  match r.1 with
  | .word w => if w.check then return r.1.text else throw .valueError
  | _ => throw .attributeError

/-- `process_line` (lines 16-30), where `accept` is the reading of the expression: a line without match raises `AttributeError` since
`None` has no `groups`. -/
def processLine (accept : Str → Except Err Str) (l : Str) : Except Err (Str × Str) :=
  match splitExample l with
  | none => .error .attributeError
  | some (i, t) => do
    let u ← accept (replaceX i)
    return (u, t)

/-- `"{} # {}\n".format(…)` (line 37). -/
def exampleLine (p : Str × Str) : Str := p.1 ++ c!" # " ++ p.2 ++ ['\n']

/-- The loop over the lines (lines 34-37): the lines written, and the exception that stops the program. -/
def writeExamples (accept : Str → Except Err Str) : List Str → List Str × Option Err
  | [] => ([], none)
  | l :: ls =>
    if startsWith l (c!"//") then writeExamples accept ls
    else match processLine accept l with
      | .error e => ([], some e)
      | .ok p => (exampleLine p :: (writeExamples accept ls).1, (writeExamples accept ls).2)

end Verif
