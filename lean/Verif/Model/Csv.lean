import Verif.Model.Py

/-
Text handling used by the database: `str.strip`, text-mode reading of files, and the CSV reader of the standard library with
delimiter `' '` and quote character `'"'` (as called in `ieml/ieml_database/descriptors.py` lines 108-115).
-/

namespace Verif

/-- `str.isspace` on one character, the characters removed by `str.strip()`. -/
def pySpace (c : Char) : Bool :=
  let n := c.toNat
  (decide (9 ≤ n) && decide (n ≤ 13)) || (decide (28 ≤ n) && decide (n ≤ 32)) || n == 0x85 || n == 0xa0 || n == 0x1680 ||
  (decide (0x2000 ≤ n) && decide (n ≤ 0x200a)) || n == 0x2028 || n == 0x2029 || n == 0x202f || n == 0x205f || n == 0x3000

/-- `s.strip()`. -/
def strip (s : Str) : Str := ((s.dropWhile pySpace).reverse.dropWhile pySpace).reverse

/-- `s.startswith(p)`. -/
def startsWith (s p : Str) : Bool := p.isPrefixOf s

/-- `s.endswith(p)`. -/
def endsWith (s p : Str) : Bool := p.isSuffixOf s

/-- Text-mode reading (`open(path, "r")`): `\r\n` and `\r` become `\n`. -/
def universalNewlines : Str → Str
  | [] => []
  | '\r' :: '\n' :: cs => '\n' :: universalNewlines cs
  | '\r' :: cs => '\n' :: universalNewlines cs
  | c :: cs => c :: universalNewlines cs

/-- `f.readlines()`: the lines with their end, the last one possibly without. -/
def splitLines : Str → List Str
  | [] => []
  | c :: cs =>
    if c = '\n' then ['\n'] :: splitLines cs
    else match splitLines cs with
      | [] => [[c]]
      | l :: ls => (c :: l) :: ls

/-- States of the CSV reader (`Modules/_csv.c`). -/
inductive CsvSt where
  | startRecord | startField | inField | inQuoted | quoteInQuoted | eatNl
  deriving DecidableEq, Repr

/-- State, current field, fields of the current record, finished records. -/
structure Csv where
  st : CsvSt
  field : Str
  fields : List Str
  out : List (List Str)
  deriving DecidableEq, Repr

namespace Csv

/-- The reader before any input. -/
def init : Csv := ⟨.startRecord, [], [], []⟩

/-- `parse_save_field`. -/
def save (r : Csv) (st : CsvSt) : Csv := ⟨st, [], r.fields ++ [r.field], r.out⟩

/-- `parse_add_char`. -/
def add (r : Csv) (c : Char) (st : CsvSt) : Csv := ⟨st, r.field ++ [c], r.fields, r.out⟩

/-- A record is complete: it is returned by the iterator. -/
def emit (r : Csv) : Csv := ⟨.startRecord, [], [], r.out ++ [r.fields]⟩

/-- A character at the start of a field. -/
def atField (r : Csv) (c : Char) : Csv :=
  if c = '\n' ∨ c = '\r' then r.save .eatNl
  else if c = '"' then { r with st := .inQuoted }
  else if c = ' ' then r.save .startField
  else r.add c .inField

/-- `parse_process_char` on a character of a line. -/
def feed (r : Csv) (c : Char) : Except Err Csv :=
  match r.st with
  | .startRecord => .ok (if c = '\n' ∨ c = '\r' then { r with st := .eatNl } else r.atField c)
  | .startField => .ok (r.atField c)
  | .inField => .ok (if c = '\n' ∨ c = '\r' then r.save .eatNl else if c = ' ' then r.save .startField else r.add c .inField)
  | .inQuoted => .ok (if c = '"' then { r with st := .quoteInQuoted } else r.add c .inQuoted)
  | .quoteInQuoted =>
    .ok (if c = '"' then r.add c .inQuoted
      else if c = ' ' then r.save .startField
      else if c = '\n' ∨ c = '\r' then r.save .eatNl
      else r.add c .inField)
  | .eatNl => if c = '\n' ∨ c = '\r' then .ok r else .error .csvError

/-- `parse_process_char` on the end of a line; the record is returned when the reader is back at its initial state. -/
def eol (r : Csv) : Csv :=
  match r.st with
  | .startRecord | .eatNl => r.emit
  | .startField | .inField | .quoteInQuoted => (r.save .startRecord).emit
  | .inQuoted => r

/-- A character, followed by the end of the line after `\n`. -/
def step (r : Csv) (c : Char) : Except Err Csv := do
  let r ← r.feed c
  return if c = '\n' then r.eol else r

/-- The whole input except its end. -/
def run (r : Csv) (s : Str) : Except Err Csv := s.foldlM step r

/-- The end of the input: an unfinished last line is ended, an open quoted field is closed. -/
def finish (r : Csv) : List (List Str) :=
  match r.st with
  | .startRecord => r.out
  | .inQuoted => (r.save .startRecord).emit.out
  | _ => r.eol.out

end Csv

/-- The records read by `csv.reader(StringIO(s), delimiter=' ', quotechar='"')`.  (A NUL character, refused by old Python
versions, is an ordinary character here.) -/
def csvRead (s : Str) : Except Err (List (List Str)) := (Csv.init.run s).map Csv.finish

end Verif
