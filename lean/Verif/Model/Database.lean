import Verif.Model.Csv
import Verif.Model.Index

/-
Model of the files of the database: `ieml/ieml_database/ieml_database.py`, `ieml/ieml_database/descriptors.py` and the
descriptor and inhibition transactions of `ieml/ieml_database/transactions/DBTransaction.py`.

The parser of IEML expressions and the digest used in file names are parameters of the model.
-/

namespace Verif

/-- The four folders of `CLASS_TO_FOLDER` (`ieml_database.py` lines 79-86). -/
inductive Kind where
  | morpheme | polymorpheme | lexeme | word
  deriving DecidableEq, Repr

/-- Folder name and prefix size of a class (`ieml_database.py` lines 79-86). -/
def Kind.folder : Kind → Str × Nat
  | .morpheme => (c!"morpheme", 0)
  | .polymorpheme => (c!"polymorpheme", 5)
  | .lexeme => (c!"lexeme", 8)
  | .word => (c!"word", 10)

/-- What the database uses of a parsed expression: its text, its class (that of `usl` for an `InstancedUSL`), and whether its
length is 1. -/
structure Parsed where
  text : Str
  kind : Kind
  singular : Bool
  deriving DecidableEq, Repr

/-- The external functions the database calls: `IEMLParser().parse` and
`sha224(l.encode('utf8')).hexdigest()[:HASH_SIZE]`. -/
structure Ext where
  parse : Str → Except Err Parsed
  digest : Str → Str

/-- `LANGUAGES` (`constants.py` lines 44-51). -/
def languages : List Str := [c!"fr", c!"en"]

/-- `DESCRIPTORS_CLASS` (`constants.py` lines 229-235). -/
def descriptorClasses : List Str := [c!"translations", c!"tags", c!"comments", c!"rdf_repositories"]

/-- `STRUCTURE_KEYS` (`constants.py` line 149). -/
def structureKeys : List Str := [c!"inhibition", c!"is_root", c!"is_ignored"]

/-- `INHIBITABLE_RELATIONS` (`constants.py` lines 151-157). -/
def inhibitableRelations : List Str :=
  [c!"father_substance", c!"father_attribute", c!"father_mode", c!"opposed", c!"associated", c!"crossed", c!"twin"]

/-- Truth value of an optional string: `None` and `''` are false. -/
def truthy : Option Str → Bool
  | some (_ :: _) => true
  | _ => false

/-- `c.lower()` on ASCII letters (other letters are not modelled: none of them is lowered to an ASCII letter of `true` or
`false`). -/
def lowerAscii (c : Char) : Char := if 'A' ≤ c ∧ c ≤ 'Z' then Char.ofNat (c.toNat + 32) else c

/-- White space accepted around a JSON value. -/
def jsonSpace (c : Char) : Bool := c == ' ' || c == '\t' || c == '\n' || c == '\r'

/-- `json.loads(str(value).lower())` when it is a boolean, as `str(bool)` (`descriptors.py` lines 47-50); everything else
raises `ValueError` (`JSONDecodeError` is a `ValueError`). -/
def boolText (v : Str) : Except Err Str :=
  let t := (((v.map lowerAscii).dropWhile jsonSpace).reverse.dropWhile jsonSpace).reverse
  if t = c!"true" then .ok (c!"True") else if t = c!"false" then .ok (c!"False") else .error .valueError

/-- The IEML part of `normalize_key` (`descriptors.py` lines 23-28). -/
def normalizeIeml (x : Ext) (ieml : Option Str) (parseIeml : Bool) : Except Err (Option Str) :=
  match ieml with
  | some (c :: cs) => if parseIeml then (x.parse (c :: cs)).map fun p => some p.text else .ok ieml
  | _ => .ok ieml

/-- The structure part of `normalize_key` (`descriptors.py` lines 35-50). -/
def normalizeStructure (key value : Option Str) : Except Err (Option Str × Option Str) := do
  if truthy key && !structureKeys.contains (key.getD []) then throw .valueError
  let value ← (if truthy value && key == some (c!"inhibition") then
      (if inhibitableRelations.contains (value.getD []) then .ok value else .error .valueError)
    else .ok value : Except Err (Option Str))
  let value ← (if truthy value && (key == some (c!"is_root") || key == some (c!"is_ignored")) then
      (boolText (value.getD [])).map some
    else .ok value : Except Err (Option Str))
  return (key, value)

/-- The descriptor part of `normalize_key` (`descriptors.py` lines 51-60). -/
def normalizeDescriptor (key value : Option Str) : Except Err (Option Str × Option Str) := do
  if truthy key && !languages.contains (key.getD []) then throw .valueError
  if truthy value && !descriptorClasses.contains (value.getD []) then throw .valueError
  return (key, value)

/-- `normalize_key` (`descriptors.py` lines 19-62). -/
def normalizeKey (x : Ext) (ieml key value : Option Str) (parseIeml part structure_ : Bool) :
    Except Err (Option Str × Option Str × Option Str) := do
  if !(part || (ieml.isSome && truthy key && (structure_ || truthy value))) then throw .valueError
  let ieml ← normalizeIeml x ieml parseIeml
  let kv ← (if structure_ then normalizeStructure key value else normalizeDescriptor key value)
  return (ieml, kv.1, kv.2)

/-- `filename_of` (`ieml_database.py` lines 111-116, 88-89). -/
def filenameOf (x : Ext) (l : Str) : Str :=
  if l.length > 100 then l.take (100 - 10 - 1) ++ '|' :: x.digest l else l

/-- `os.path.join(p, q)` for components not starting with `/` (IEML texts never do): a separator is added unless `p` ends
with one. -/
def joinPath (p q : Str) : Str := if endsWith p (c!"/") then p ++ q else p ++ '/' :: q

/-- `path_of` (`ieml_database.py` lines 118-146), relative to the folder of the database. -/
def pathOf (x : Ext) (ieml : Str) (descriptor normalize : Bool) : Except Err Str := do
  let p ← x.parse ieml
  let ext := if descriptor then c!".desc" else c!".ieml"
  let filename := if normalize then filenameOf x p.text else filenameOf x ieml
  let pre := filename.take p.kind.folder.2
  let dir := joinPath (joinPath p.kind.folder.1 (if p.singular then c!"singular" else c!"paradigm")) pre
  return joinPath dir (filename ++ ext)

/-- The files of the database: relative path and content, in the order in which `find` lists them.  Empty directories are not
represented. -/
abbrev FS := List (Str × Str)

/-- Content of a file; `none` when `os.path.isfile` is false.  (The type of contents is a parameter, for the proofs.) -/
def fsGet {α : Type} (fs : List (Str × α)) (p : Str) : Option α := (fs.find? fun f => f.1 = p).map (·.2)

/-- Writing a file. -/
def fsSet {α : Type} (fs : List (Str × α)) (p : Str) (c : α) : List (Str × α) :=
  if fs.any fun f => f.1 = p then fs.map fun f => if f.1 = p then (p, c) else f else fs ++ [(p, c)]

/-- `os.remove`. -/
def fsRemove {α : Type} (fs : List (Str × α)) (p : Str) : List (Str × α) := fs.filter fun f => f.1 ≠ p

/-- `v.replace('"', '""')`. -/
def doubleQuotes : Str → Str
  | [] => []
  | c :: cs => if c = '"' then '"' :: '"' :: doubleQuotes cs else c :: doubleQuotes cs

/-- `v.replace('\n', '\\n')`. -/
def escapeNewlines : Str → Str
  | [] => []
  | c :: cs => if c = '\n' then '\\' :: 'n' :: escapeNewlines cs else c :: escapeNewlines cs

/-- `escape_value` (`ieml_database.py` lines 336-337). -/
def escapeValue (v : Str) : Str := escapeNewlines (doubleQuotes v)

/-- The line written by `add_descriptor` (`ieml_database.py` lines 271-275). -/
def descriptorLine (ieml lang desc value : Str) : Str :=
  c!"\"" ++ escapeValue ieml ++ c!"\" " ++ lang ++ c!" " ++ desc ++ c!" \"" ++ escapeValue value ++ c!"\"\n"

/-- `add_descriptor` (`ieml_database.py` lines 263-275). -/
def addDescriptor (x : Ext) (fs : FS) (ieml lang desc : Option Str) (value : Str) : Except Err FS := do
  let (ieml, lang, desc) ← normalizeKey x ieml lang desc true false false
  let value := strip value
  if value.isEmpty then return fs
  match ieml, lang, desc with
  | some ieml, some lang, some desc =>
    let p ← pathOf x ieml true true
    return fsSet fs p ((fsGet fs p).getD [] ++ descriptorLine ieml lang desc value)
  | _, _, _ => throw .valueError  -- not reached: `normalize_key` refused

/-- The beginning of the lines deleted by `remove_descriptor` (`ieml_database.py` lines 304-305). -/
def removedPrefix (ieml lang desc : Str) (value : Option Str) : Str :=
  c!"\"" ++ ieml ++ c!"\" " ++ lang ++ c!" " ++ desc ++ c!" " ++
    (match value with | some v => c!"\"" ++ escapeValue v ++ c!"\"" | none => [])

/-- Rewriting a file without the lines starting with `pre` (`ieml_database.py` lines 302-308). -/
def dropLines (content pre : Str) : Str :=
  ((splitLines (universalNewlines content)).filter fun l => !startsWith l pre).flatten

/-- `remove_descriptor` when language and descriptor are given (`ieml_database.py` lines 279-284 and 299-308). -/
def removeBoth (x : Ext) (fs : FS) (ieml : Option Str) (lang desc : Str) (value : Option Str) (normalize : Bool) :
    Except Err FS := do
  let (ieml, _, _) ← normalizeKey x ieml (some lang) (some desc) true true false
  match ieml with
  | none => throw .keyError  -- `CLASS_TO_FOLDER[NoneType]`
  | some ieml =>
    let p ← pathOf x ieml true normalize
    match fsGet fs p with
    | none => return fs
    | some content =>
      let value := match value with | some v => some (if v.isEmpty then v else strip v) | none => none
      return fsSet fs p (dropLines content (removedPrefix ieml lang desc value))

/-- `remove_descriptor` when the language is given (`ieml_database.py` lines 290-297): without descriptor, all the descriptors
are removed, whatever the value. -/
def removeLang (x : Ext) (fs : FS) (ieml : Option Str) (lang : Str) (desc : Option Str) (value : Option Str)
    (normalize : Bool) : Except Err FS := do
  match desc with
  | some d => removeBoth x fs ieml lang d value normalize
  | none =>
    let (ieml, _, _) ← normalizeKey x ieml (some lang) none true true false
    match ieml with
    | none => throw .keyError
    | some ieml =>
      let p ← pathOf x ieml true normalize
      match fsGet fs p with
      | none => return fs
      | some _ => descriptorClasses.foldlM (fun fs d => removeBoth x fs (some ieml) lang d none true) fs

/-- `remove_descriptor` (`ieml_database.py` lines 278-308). -/
def removeDescriptor (x : Ext) (fs : FS) (ieml lang desc value : Option Str) (normalize : Bool := true) : Except Err FS := do
  match lang with
  | some l => removeLang x fs ieml l desc value normalize
  | none =>
    let (ieml, _, _) ← normalizeKey x ieml none desc true true false
    match ieml with
    | none => throw .keyError
    | some ieml =>
      let p ← pathOf x ieml true normalize
      match fsGet fs p with
      | none => return fs
      | some _ =>
        if desc.isNone && value.isNone then return fsRemove fs p
        else languages.foldlM (fun fs l => removeLang x fs (some ieml) l desc none true) fs

/-- `get_descriptors` (`ieml_database.py` lines 194-211): the records of all the descriptor files put one after the other.
`pandas.read_csv` is modelled by the CSV reader above: its conversion of texts such as `NA` and of columns of numbers is not
modelled.  A record without four fields raises (`ParserError` and the assignment of the column names raise `ValueError`). -/
def getDescriptors (fs : FS) : Except Err (List (Str × Str × Str × Str)) := do
  let rows ← csvRead ((fs.filter fun f => endsWith f.1 (c!".desc")).flatMap (·.2))
  rows.mapM fun r => match r with
    | [a, b, c, d] => .ok (a, b, c, d)
    | _ => .error .valueError

/-- `Descriptors.get_values` (`descriptors.py` lines 72-82) on a non-empty key, language and descriptor. -/
def getValues (fs : FS) (ieml lang desc : Str) : Except Err (List Str) := do
  let rows ← getDescriptors fs
  if !languages.contains lang || !descriptorClasses.contains desc then throw .valueError
  return (rows.filter fun r => r.1 = ieml ∧ r.2.1 = lang ∧ r.2.2.1 = desc).map (·.2.2.2)

/-- `set_descriptors` (`DBTransaction.py` lines 288-324) without the git transaction around the updates; `values` gives the
list of each language.  The result tells whether a commit was made. -/
def setDescriptors (x : Ext) (fs : FS) (ieml desc : Str) (values : Str → List Str) : Except Err (FS × Bool) := do
  let old ← languages.mapM fun l => getValues fs ieml l desc
  if (languages.zip old).all fun (l, o) => pySort ltStr (values l) == pySort ltStr o then return (fs, false)
  let left ← languages.mapM fun l => descriptorClasses.mapM fun d =>
    if d ≠ desc then getValues fs ieml l d else .ok (values l)
  if left.all fun ls => ls.all List.isEmpty then
    return (← removeDescriptor x fs (some ieml) none none none, true)
  let fs ← removeDescriptor x fs (some ieml) none (some desc) none
  let fs ← languages.foldlM (fun fs l =>
    (values l).foldlM (fun fs v => addDescriptor x fs (some ieml) (some l) (some desc) v) fs) fs
  return (fs, true)

/-- `Descriptors.from_csv_string` (`descriptors.py` lines 108-120): the values stored for each key, language and descriptor,
here as the list of the records.  A record that has not four fields raises `ValueError`, an unknown descriptor or language
raises `KeyError`. -/
def fromCsv (s : Str) : Except Err (List (Str × Str × Str × Str)) := do
  let rows ← csvRead s
  rows.mapM fun r => match r with
    | [a, b, c, d] => if descriptorClasses.contains c && languages.contains b then .ok (a, b, c, d) else .error .keyError
    | _ => .error .valueError

/-! ### Structure files -/

/-- `add_structure` (`ieml_database.py` lines 310-314). -/
def addStructure (x : Ext) (fs : FS) (ieml key value : Option Str) : Except Err FS := do
  let (ieml, key, value) ← normalizeKey x ieml key value true false true
  match ieml, key with
  | some ieml, some key =>
    let p ← pathOf x ieml false true
    let v := match value with | some v => v | none => c!"None"
    return fsSet fs p ((fsGet fs p).getD [] ++ (c!"\"" ++ ieml ++ c!"\" " ++ key ++ c!" \"" ++ v ++ c!"\"\n"))
  | _, _ => throw .valueError  -- not reached

/-- `remove_structure` (`ieml_database.py` lines 316-334). -/
def removeStructure (x : Ext) (fs : FS) (ieml key value : Option Str) (normalize : Bool := true) : Except Err FS := do
  let (ieml, key, value) ← normalizeKey x ieml key value true true true
  match ieml with
  | none => throw .keyError
  | some ieml =>
    let p ← pathOf x ieml false normalize
    match fsGet fs p with
    | none => return fs
    | some content =>
      match key with
      | none => return fsRemove fs p
      | some key =>
        let v := match value with | some (c :: cs) => c!"\"" ++ (c :: cs) ++ c!"\"" | _ => []
        return fsSet fs p (dropLines content (c!"\"" ++ ieml ++ c!"\" " ++ key ++ c!" " ++ v))

/-- `get_structure` (`ieml_database.py` lines 214-219), read as `getDescriptors`; here the `EmptyDataError` of an empty input
(a `ValueError`) is not caught. -/
def getStructure (fs : FS) : Except Err (List (Str × Str × Str)) := do
  let rows ← csvRead ((fs.filter fun f => endsWith f.1 (c!".ieml")).flatMap (·.2))
  if rows.isEmpty then throw .valueError
  rows.mapM fun r => match r with
    | [a, b, c] => .ok (a, b, c)
    | _ => .error .valueError

/-- `Structure.get_values` (`ieml_database.py` lines 54-60). -/
def structureValues (fs : FS) (ieml key : Str) : Except Err (List Str) := do
  let rows ← getStructure fs
  if !structureKeys.contains key then throw .valueError
  return (rows.filter fun r => r.1 = ieml ∧ r.2.1 = key).map (·.2.2)

/-- `set_inhibitions` (`DBTransaction.py` lines 326-352) after the assertion that `ieml` is a root, without the git
transaction. -/
def setInhibitions (x : Ext) (fs : FS) (ieml : Str) (inhibitions : List Str) : Except Err FS := do
  if !inhibitions.all inhibitableRelations.contains then throw .assertionError
  let old ← structureValues fs ieml (c!"inhibition")
  if old.all inhibitions.contains && inhibitions.all old.contains then return fs
  let fs ← (inhibitions.filter fun e => !old.contains e).foldlM
    (fun fs e => addStructure x fs (some ieml) (some (c!"inhibition")) (some e)) fs
  (old.filter fun e => !inhibitions.contains e).foldlM
    (fun fs e => removeStructure x fs (some ieml) (some (c!"inhibition")) (some e)) fs

end Verif
