import Verif.Model.Relations
import Verif.Model.Factor

/-
Model of the dictionary transactions of `ieml/ieml_database/transactions/DBTransaction.py` (lines 19-22, 75-286), of
`IEMLDatabase.list` and `IEMLDatabase.get_dictionary` (`ieml_database.py`), and of `TableStructure.root`
(`table_structure.py`).

The git transaction around the updates is modelled in `Model/Git.lean`, the cache of the dictionary in `Model/Cache.lean`: here
the files are read again by each transaction, and the result is the new files.  The messages of the commits are not modelled,
but the readings they make are, since these may raise.
-/

namespace Verif
open Script

namespace TableStructure

/-- `self.table_to_root[self.tables[s]]` (`table_structure.py` lines 19, 24): the root whose tables contain the last table of
the script (tables are compared by identity). -/
def lookupRoot (x : TableStructure) (s : Script) : Except Err Script :=
  match (x.roots.flatMap fun e => e.2.map fun t => (e.1, t)).reverse.find? fun p => p.2.script.pyEq s with
  | some p => .ok p.1
  | none => .error .keyError

/-- `tables.root(s)` (`table_structure.py` lines 22-27): the `KeyError` is caught, and `None` is returned. -/
def root (x : TableStructure) (s : Script) : Except Err (Option Script) :=
  match x.lookupRoot s with
  | .ok r => .ok (some r)
  | .error e => if e = .keyError then .ok none else .error e

end TableStructure

/-! ### Listing the paradigms -/

/-- The lines of a text, without their ends; a text that does not end with a line break has a last line. -/
def nlLines : Str → List Str
  | [] => []
  | c :: s =>
    if c = '\n' then [] :: nlLines s
    else match nlLines s with
      | [] => [[c]]
      | l :: ls => (c :: l) :: ls

/-- `cut -f2 -d'"'` of one line: what is between the first two quotation marks; a line without quotation mark is kept. -/
def cutKey (l : Str) : Str :=
  match l.dropWhile fun c => c ≠ '"' with
  | [] => l
  | _ :: rest => rest.takeWhile fun c => c ≠ '"'

/-- `uniq`: of equal consecutive lines one is kept. -/
def uniqLines : List Str → List Str
  | [] => []
  | a :: l => match uniqLines l with
    | [] => [a]
    | b :: r => if a = b then b :: r else a :: b :: r

/-- White space of `bytes.strip`. -/
def byteSpace (c : Char) : Bool :=
  c == ' ' || c == '\t' || c == '\n' || c == '\r' || c == Char.ofNat 11 || c == Char.ofNat 12

/-- `s.strip()` of bytes. -/
def stripBytes (s : Str) : Str := ((s.dropWhile byteSpace).reverse.dropWhile byteSpace).reverse

/-- `db.list('morpheme', paradigm=True)` (`ieml_database.py` lines 149-165): `find | xargs cat | cut | uniq`, stripped, without the
blank lines.  (When the folder does not exist Python raises `FileNotFoundError`; folders are not represented in `FS`.) -/
def listParadigms (fs : FS) : List Str :=
  let files := fs.filter fun f => startsWith f.1 (c!"morpheme/paradigm/") && endsWith f.1 (c!".desc")
  ((uniqLines ((nlLines (files.flatMap (·.2))).map cutKey)).map stripBytes).filter fun k => k ≠ []

/-- Order of the index of `Structure.df` (`ieml_database.py` line 51): by text, then by structure key; the sort is stable. -/
def ltSetting (a b : Str × Str × Str) : Bool := ltStr a.1 b.1 || (a.1 = b.1 && ltStr a.2.1 b.2.1)

/-- `db.get_dictionary()` (`ieml_database.py` lines 221-224), without the cache. -/
def getDictionary (o : SetOrder) (fs : FS) : Except Err Dictionary := do
  let rows ← getStructure fs
  mkDictionary o (listParadigms fs) (pySort ltSetting rows)

/-! ### The transactions -/

/-- `_check_script(script)` (`DBTransaction.py` lines 19-22). -/
def checkScript (ord : List Script → List Script) (s : Script) : Except Err Unit := do
  let t ← factorize ord s
  if !t.pyEq s then throw .assertionError

/-- The loop of lines 90-95: `tables.root` is expected to raise `KeyError`. -/
def refuseRooted (x : TableStructure) (ss : List Script) : Except Err Unit :=
  ss.foldlM (fun _ q => match x.root q with
    | .ok _ => .error .valueError
    | .error e => if e = .keyError then .ok () else .error e) ()

/-- `descriptors.get_values_partial(ieml)` of a script (`descriptors.py` lines 84-99): the values of each language and
descriptor, in the order of the index. -/
def descriptorGroups (fs : FS) (k : Str) : Except Err (List (Str × Str × List Str)) := do
  let rows ← getDescriptors fs
  let rows := rows.filter fun r => r.1 = k
  let keys := pySort (fun a b => ltStr a.1 b.1 || (a.1 = b.1 && ltStr a.2 b.2)) (dedupBy id (rows.map fun r => (r.2.1, r.2.2.1)))
  return keys.map fun g => (g.1, g.2, (rows.filter fun r => r.2.1 = g.1 ∧ r.2.2.1 = g.2).map (·.2.2.2))

/-- `structure.get_values_partial(ieml)` of a script (`ieml_database.py` lines 62-75): the values of each structure key. -/
def structureGroups (fs : FS) (k : Str) : Except Err (List (Str × List Str)) := do
  let rows ← getStructure fs
  let rows := rows.filter fun r => r.1 = k
  let keys := pySort ltStr (dedupBy id (rows.map (·.2.1)))
  return keys.map fun g => (g, (rows.filter fun r => r.2.1 = g).map (·.2.2))

/-- The reading of the translations for the message of a commit; `get_values(None, …)` raises `ValueError`
(`descriptors.py` lines 20-21). -/
def readTranslations (fs : FS) (s : Option Script) : Except Err Unit :=
  match s with
  | none => .error .valueError
  | some s => do
    let _ ← languages.mapM fun l => getValues fs s.str l (c!"translations")

/-- The descriptors written by `create_root_paradigm` and `add_morpheme_paradigm` (`DBTransaction.py` lines 108-113, 163-168). -/
def writeDescriptors (x : Ext) (fs : FS) (k : Str) (translations comments : Str → List Str) : Except Err FS :=
  languages.foldlM (fun fs l => do
    let fs ← (translations l).foldlM (fun fs v => addDescriptor x fs (some k) (some l) (some (c!"translations")) v) fs
    (comments l).foldlM (fun fs v => addDescriptor x fs (some k) (some l) (some (c!"comments")) v) fs) fs

/-- `create_root_paradigm` (`DBTransaction.py` lines 75-113).  The addition of the tables of the root as paradigms, after the
commit (lines 115-119), is not modelled: it is not reached (`C69_never`). -/
def createRoot (o : SetOrder) (ord : List Script → List Script) (x : Ext) (fs : FS) (root : Script) (inhibitions : List Str)
    (translations comments : Str → List Str) : Except Err FS := do
  checkScript ord root
  if root.cardinal = 1 then throw .valueError
  let groups ← descriptorGroups fs root.str
  if !groups.isEmpty then throw .valueError
  let d ← getDictionary o fs
  refuseRooted d.base.tables (← singularSequences root)
  readTranslations fs (some root)
  let fs ← removeStructure x fs (some root.str) (some (c!"is_root")) none
  let fs ← addStructure x fs (some root.str) (some (c!"is_root")) (some (c!"True"))
  if !inhibitions.all inhibitableRelations.contains then throw .assertionError
  let fs ← inhibitions.foldlM (fun fs i => addStructure x fs (some root.str) (some (c!"inhibition")) (some i)) fs
  writeDescriptors x fs root.str translations comments

/-- The roots of the singular sequences of a script, as a set (`DBTransaction.py` lines 136-141, 240-246). -/
def rootCandidates (T : TableStructure) (s : Script) : Except Err (List (Option Script)) := do
  let rs ← (← singularSequences s).mapM T.root
  return dedupBy (fun r => r.map str) rs

/-- `add_morpheme_paradigm` (`DBTransaction.py` lines 122-168); the descriptors are given for all the languages. -/
def addParadigm (o : SetOrder) (ord : List Script → List Script) (x : Ext) (fs : FS) (s : Script)
    (translations comments : Str → List Str) : Except Err FS := do
  let d ← getDictionary o fs
  checkScript ord s
  if s.cardinal = 1 then throw .valueError
  if memText s d.base.scripts then throw .valueError
  match ← rootCandidates d.base.tables s with
  | [root] =>
    readTranslations fs (some s)
    readTranslations fs root
    let fs ← removeDescriptor x fs (some s.str) none none none
    let fs ← removeStructure x fs (some s.str) none none
    let fs ← addStructure x fs (some s.str) (some (c!"is_root")) (some (c!"False"))
    writeDescriptors x fs s.str translations comments
  | _ => throw .valueError

/-- `delete_morpheme_root_paradigm` (`DBTransaction.py` lines 170-191). -/
def deleteRoot (o : SetOrder) (ord : List Script → List Script) (x : Ext) (fs : FS) (s : Script) (emptyDescriptors : Bool) :
    Except Err FS := do
  let d ← getDictionary o fs
  let _ ← getDescriptors fs
  checkScript ord s
  if !memText s (d.base.tables.roots.map (·.1)) then throw .valueError
  readTranslations fs (some s)
  let fs ← removeStructure x fs (some s.str) none none
  if emptyDescriptors then do
    let l ← d.object s .contains
    l.foldlM (fun fs t => removeDescriptor x fs (some t.str) none none none) fs
  else return fs

/-- `delete_morpheme_paradigm` (`DBTransaction.py` lines 193-214). -/
def deleteParadigm (o : SetOrder) (ord : List Script → List Script) (x : Ext) (fs : FS) (s : Script) : Except Err FS := do
  let d ← getDictionary o fs
  let _ ← getDescriptors fs
  checkScript ord s
  if memText s d.base.scripts && s.cardinal = 1 then throw .valueError
  let root ← d.base.tables.root s
  readTranslations fs (some s)
  readTranslations fs root
  let fs ← removeStructure x fs (some s.str) none none
  removeDescriptor x fs (some s.str) none none none

/-- `is_root` of `update_morpheme_paradigm` (`DBTransaction.py` lines 236-237). -/
def isRootFlag (fs : FS) (k : Str) : Except Err Bool := do
  match ← structureValues fs k (c!"is_root") with
  | [] => return false
  | v :: _ => isTrueValue v

/-- The note left on the old descriptors of a root (`DBTransaction.py` line 286). -/
def migrated (new : Str) (v : Str) : Str := c!"(translation migrated to " ++ new ++ c!") " ++ v

/-- The transfer of the structure (`DBTransaction.py` lines 269-278). -/
def moveStructure (x : Ext) (fs : FS) (isRoot : Bool) (old new : Str) (groups : List (Str × List Str)) : Except Err FS := do
  let fs ← removeStructure x fs (some old) none none
  if isRoot then do
    let fs ← addStructure x fs (some old) (some (c!"is_root")) (some (c!"False"))
    groups.foldlM (fun fs g => g.2.foldlM (fun fs v => addStructure x fs (some new) (some g.1) (some v)) fs) fs
  else addStructure x fs (some new) (some (c!"is_root")) (some (c!"False"))

/-- The transfer of the descriptors (`DBTransaction.py` lines 280-286). -/
def moveDescriptors (x : Ext) (fs : FS) (isRoot : Bool) (old new : Str) (groups : List (Str × Str × List Str)) : Except Err FS := do
  let fs ← removeDescriptor x fs (some old) none none none
  groups.foldlM (fun fs g => g.2.2.foldlM (fun fs v => do
    let fs ← addDescriptor x fs (some new) (some g.1) (some g.2.1) v
    if isRoot then addDescriptor x fs (some old) (some g.1) (some g.2.1) (migrated new v) else return fs) fs) fs

/-- `update_morpheme_paradigm` (`DBTransaction.py` lines 217-286). -/
def updateParadigm (o : SetOrder) (ord : List Script → List Script) (x : Ext) (fs : FS) (old new : Script) : Except Err FS := do
  checkScript ord old
  checkScript ord new
  if old.pyEq new then return fs
  if old.cardinal = 1 && new.cardinal = 1 then throw .assertionError
  let d ← getDictionary o fs
  let groups ← descriptorGroups fs old.str
  if !memText old d.base.scripts then throw .assertionError
  if memText new d.base.scripts then throw .assertionError
  let isRoot ← isRootFlag fs old.str
  match ← rootCandidates d.base.tables new with
  | [_] =>
    readTranslations fs (some new)
    if isRoot then
      if !(← contains new old) then throw .assertionError
    let settings ← structureGroups fs old.str
    let fs ← moveStructure x fs isRoot old.str new.str settings
    moveDescriptors x fs isRoot old.str new.str groups
  | _ => throw .assertionError

end Verif
