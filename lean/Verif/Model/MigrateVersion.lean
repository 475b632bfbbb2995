import Verif.Model.Migrate

/-
Model of `scripts/migrate_versions/migrate_v03Tov04.py`: `migrate` (lines 13-53) and the last step of the program (lines
165-169).  The files of the old format are read by code that does not exist any more: the rows read from them are parameters.
`factored` is the text of `IEMLParser().parse(ieml, factorize_script=True)`.  The values `True` and `False` given to
`add_structure` are the texts `True` and `False` here (`False` is falsy and is not run through `json`, the text written is the
same).  The other steps of the program (the removal of single keys by hand) are not modelled.
-/

namespace Verif
open Script

/-- A row of the old structure: a root with its inhibitions. -/
structure OldRoot where
  ieml : Str
  inhibitions : List Str
  deriving DecidableEq

/-- A row of the old descriptors: the values of a key, a language and a descriptor. -/
structure OldRow where
  ieml : Str
  lang : Str
  desc : Str
  values : List Str
  deriving DecidableEq

/-- The settings written for one root (`migrate_v03Tov04.py` lines 31-35). -/
def migrateRoot (x : Ext) (factored : Str → Except Err Str) (fs : FS) (r : OldRoot) : Except Err FS := do
  let l ← factored r.ieml
  let fs ← addStructure x fs (some l) (some (c!"is_root")) (some (c!"True"))
  r.inhibitions.foldlM (fun fs i => addStructure x fs (some l) (some (c!"inhibition")) (some i)) fs

/-- `d[k] = v` for a dictionary in the order of insertion. -/
def dictPut {κ α : Type} [DecidableEq κ] (d : List (κ × α)) (k : κ) (v : α) : List (κ × α) :=
  if d.any fun e => e.1 = k then d.map fun e => if e.1 = k then (k, v) else e else d ++ [(k, v)]

/-- `all_db` (`migrate_v03Tov04.py` lines 37-40): the values by key, then by language and descriptor. -/
def gatherRows (rows : List OldRow) : List (Str × List ((Str × Str) × List Str)) :=
  rows.foldl (fun all r => fsSet all r.ieml (dictPut ((fsGet all r.ieml).getD []) (r.lang, r.desc) r.values)) []

/-- The line written for a value (`migrate_v03Tov04.py` line 53): only the value is escaped. -/
def migratedLine (l lang desc v : Str) : Str :=
  c!"\"" ++ l ++ c!"\" " ++ lang ++ c!" " ++ desc ++ c!" \"" ++ escapeValue v ++ c!"\"\n"

/-- The file written for a key (`migrate_v03Tov04.py` lines 42-53): opened for writing, so that what it had is lost. -/
def migrateKey (x : Ext) (factored : Str → Except Err Str) (fs : FS) (e : Str × List ((Str × Str) × List Str)) : Except Err FS := do
  let l ← factored e.1
  let p ← pathOf x l true true
  return fsSet fs p (e.2.flatMap fun g => g.2.flatMap fun v => migratedLine l g.1.1 g.1.2 v)

/-- `migrate` (`migrate_v03Tov04.py` lines 13-53) after the removal of the files of the old format. -/
def migrateVersion (x : Ext) (factored : Str → Except Err Str) (roots : List OldRoot) (rows : List OldRow) (fs : FS) :
    Except Err FS := do
  let fs ← roots.foldlM (migrateRoot x factored) fs
  (gatherRows rows).foldlM (migrateKey x factored) fs

/-- The last step of the program (`migrate_v03Tov04.py` lines 165-169): `is_root False` for the paradigms of the dictionary
that are no roots. -/
def markParadigms (x : Ext) (roots scripts : List Script) (fs : FS) : Except Err FS :=
  (scripts.filter fun s => s.cardinal ≠ 1 && !roots.any (·.pyEq s)).foldlM
    (fun fs s => addStructure x fs (some s.str) (some (c!"is_root")) (some (c!"False"))) fs

end Verif
