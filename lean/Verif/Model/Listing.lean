import Verif.Model.DictTransaction
import Verif.Model.Git

/-
Listing the expressions of the database, reading all the descriptors of one of them and migrating all of them
(`ieml_database.py` lines 148-175, `descriptors.py` lines 84-106, `DBTransaction.py` lines 355-371).
-/

namespace Verif

/-- The argument `type` of `list`: a text, or a class given by its `__name__` (`ieml_database.py` lines 151-153). -/
inductive TypeArg where
  | text (s : Str)
  | cls (name : Str)
  deriving DecidableEq, Repr

/-- The name of the folder (`ieml_database.py` lines 152-154); class names are ASCII. -/
def TypeArg.folder : TypeArg → Str
  | .text s => s
  | .cls n => n.map lowerAscii

/-- Truth value of the argument `type` (`ieml_database.py` line 151): a class is true, a text when it is not empty. -/
def TypeArg.given : TypeArg → Bool
  | .text s => s ≠ []
  | .cls _ => true

/-- The folder that is listed, as the beginning of the paths of its files (`ieml_database.py` lines 150-156). -/
def listFolder (type : Option TypeArg) (paradigm : Option Bool) : Str :=
  match type with
  | none => []
  | some t =>
    if t.given then
      match paradigm with
      | none => t.folder ++ c!"/"
      | some b => t.folder ++ c!"/" ++ (if b then c!"paradigm" else c!"singular") ++ c!"/"
    else []

/-- `list` without `parse` (`ieml_database.py` lines 149-164): `find | xargs cat | cut | uniq`, stripped, without the blank lines.
`exists_` tells which folders exist: `subprocess.Popen` raises `FileNotFoundError` when the folder does not exist (empty folders
are not in `FS`).  Files in the hidden folder `.git` that end with `.desc` are not represented. -/
def listKeys (exists_ : Str → Bool) (fs : FS) (type : Option TypeArg) (paradigm : Option Bool) : Except Err (List Str) :=
  let p := listFolder type paradigm
  if p ≠ [] ∧ exists_ p = false then .error .osError
  else
    let files := fs.filter fun f => startsWith f.1 p && endsWith f.1 (c!".desc")
    .ok (((uniqLines ((nlLines (files.flatMap (·.2))).map cutKey)).map stripBytes).filter fun k => k ≠ [])

/-- The loop of `list` with `parse` (`ieml_database.py` lines 166-173): texts that raise `CannotParse` are skipped. -/
def parseListed (x : Ext) : List Str → Except Err (List Parsed)
  | [] => .ok []
  | s :: l => match x.parse s with
    | .ok u => do return u :: (← parseListed x l)
    | .error e => if e = .cannotParse then parseListed x l else .error e

/-- `list(type, paradigm, parse=True)` (`ieml_database.py` lines 149-173); `dictionary` is the outcome of `get_dictionary`. -/
def listParsed (x : Ext) (dictionary : Except Err Unit) (exists_ : Str → Bool) (fs : FS) (type : Option TypeArg)
    (paradigm : Option Bool) : Except Err (List Parsed) := do
  let res ← listKeys exists_ fs type paradigm
  dictionary
  parseListed x res

/-- The keys of the dictionary that `get_values_partial` returns are triples. -/
abbrev ValueKey := Str × Str × Str

/-- `get_values_partial(ieml, language, descriptor)` (`descriptors.py` lines 84-98): the values in the order of the sorted index,
grouped by key, language and descriptor.  The arguments are texts or `None`. -/
def valuesPartial (fs : FS) (ieml lang desc : Option Str) : Except Err (List (ValueKey × List Str)) := do
  let rows ← getDescriptors fs
  let (lang, desc) ← normalizeDescriptor lang desc
  let rows := rows.filter fun r => ieml.all (· = r.1) && lang.all (· = r.2.1) && desc.all (· = r.2.2.1)
  let keys := pySort (fun a b : ValueKey => ltStr a.1 b.1 || (a.1 = b.1 && (ltStr a.2.1 b.2.1 || (a.2.1 = b.2.1 && ltStr a.2.2 b.2.2))))
    (dedupBy id (rows.map fun r => (r.1, r.2.1, r.2.2.1)))
  return keys.map fun k => (k, (rows.filter fun r => (r.1, r.2.1, r.2.2.1) = k).map (·.2.2.2))

/-- The result of `get_descriptor`: the values of each language of each descriptor. -/
abbrev DescriptorTable := List (Str × List (Str × List Str))

/-- `res[desc][lang] = value` (`descriptors.py` line 105). -/
def DescriptorTable.put (t : DescriptorTable) (desc lang : Str) (value : List Str) : Except Err DescriptorTable :=
  match fsGet t desc with
  | none => .error .keyError
  | some row => .ok (fsSet t desc (fsSet row lang value))

/-- The value `table[desc][lang]`. -/
def DescriptorTable.at_ (t : DescriptorTable) (desc lang : Str) : Option (List Str) :=
  (fsGet t desc).bind fun row => fsGet row lang

/-- `get_descriptor(ieml)` (`descriptors.py` lines 100-106); the argument is a text, an object with this text (equality with a text
compares the texts, `usl.py` lines 46-47, `commons.py` lines 48-52), or `None`. -/
def getDescriptor (fs : FS) (ieml : Option Str) : Except Err DescriptorTable := do
  let values ← valuesPartial fs ieml none none
  values.foldlM (fun t e =>
    if ieml = some e.1.1 then t.put e.1.2.2 e.1.2.1 e.2 else .error .assertionError)
    (descriptorClasses.map fun d => (d, languages.map fun l => (l, [])))

/-- A key of a Python dictionary, as far as it is looked up in the values of `get_values_partial`: a text or a triple. -/
inductive AnyKey where
  | text (s : Str)
  | triple (k : ValueKey)
  deriving DecidableEq

/-- The innermost loops of `update_all_ieml` (`DBTransaction.py` lines 368-371): `value[l]` is looked up for each language; the
variable of the loop over `value[l]` is not the one that is used in the next loop, which is unbound. -/
def copyValues (values : List (AnyKey × List Str)) : Except Err Unit :=
  languages.forM fun l =>
    match values.find? fun e => e.1 = .text l with
    | none => .error .keyError
    | some e => if e.2.isEmpty then .ok () else .error .nameError

/-- The loop of `update_all_ieml` (`DBTransaction.py` lines 361-371) over the parsed expressions; the files and the error, if any.
`all` are the descriptors read before the transaction; `f` is the migration. -/
def migrateLoop (x : Ext) (all : FS) (f : Parsed → Except Err Parsed) : List Parsed → FS → FS × Option Err
  | [], fs => (fs, none)
  | u :: us, fs => match f u with
    | .error e => (fs, some e)
    | .ok _ => match valuesPartial all (some u.text) none none with
      | .error e => (fs, some e)
      | .ok values => match removeDescriptor x fs (some u.text) none none none with
        | .error e => (fs, some e)
        | .ok fs' => match copyValues (values.map fun e => (.triple e.1, e.2)) with
          | .error e => (fs', some e)
          | .ok _ => migrateLoop x all f us fs'

/-- The body of the transaction of `update_all_ieml` (`DBTransaction.py` lines 361-371). -/
def migrateBody (x : Ext) (dictionary : FS → Except Err Unit) (exists_ : Str → Bool) (f : Parsed → Except Err Parsed) (fs : FS) : FS × Option Err :=
  match listParsed x (dictionary fs) exists_ fs none none with
  | .error e => (fs, some e)
  | .ok us => migrateLoop x fs f us fs

/-- `update_all_ieml(f, message)` (`DBTransaction.py` lines 355-371). -/
def updateAll (x : Ext) (dictionary : FS → Except Err Unit) (exists_ : Str → Bool) (r : Repo) (f : Parsed → Except Err Parsed)
    (fault : Option Fault) : Repo × Option Err :=
  match getDescriptors r.work with
  | .error e => (r, some e)
  | .ok _ => r.transaction (migrateBody x dictionary exists_ f) fault

end Verif
