import Verif.Model.CleanUp
import Verif.Model.PolyMorpheme
import Verif.Model.Parser

/-
Model of the import of series of `scripts/migrate_versions/migrate_v02Tov03.py`.  The collections of the old database are functions and
lists; what is called on `lex` and `desc` is a list of calls, since their classes do not exist any more.  The polymorphemes are those of
`ieml/usl/polymorpheme.py`, since `ieml.lexicon.syntax` does not exist any more.
-/

namespace Verif
open Script

/-- `migrate_morpheme`, `MIGRATE_SCRIPT` (`migrate_v02Tov03.py` lines 23-34). -/
def migrateMorpheme (s : Str) : Str :=
  if s = c!"E:.T:.c.-" then c!"E:T:.c.-"
  else if s = c!"E:.T:.h.-" then c!"E:T:.h.-"
  else if s = c!"E:.S:.x.-" then c!"E:S:.x.-"
  else s

/-- `DOMAINS[name]` (lines 15-21). -/
def seriesDomain (name : Str) : Except Err Str :=
  if name = c!"Météorologie" then .ok (c!"meteorology")
  else if name = c!"Temporalité" then .ok (c!"temporality")
  else if name = c!"Géographie humaine" then .ok (c!"human_geography")
  else if name = c!"Géographie" then .ok (c!"geography")
  else if name = c!"Eau" then .ok (c!"water")
  else .error .keyError

/-- A document of the collection `usl`: its script and its descriptors in French and in English (without the key `descriptors`, both are
missing). -/
structure OldUsl where
  script : Str
  fr : Option (List Str)
  en : Option (List Str)

/-- An element of `morphemes_cache`: its words and the identifier of its document. -/
structure OldSequence where
  words : List Str
  id : Option Nat

/-- A document of the collection `morphemes_series`. -/
structure OldSeries where
  name : Str
  constants : Option (List Nat)
  groups : List (List Nat × Option Nat)
  sequences : List OldSequence

/-- The calls `lex.add_paradigm(p, domain=d)` and `desc.set_value(p, language, 'translations', values)`; the polymorpheme is given by its
text. -/
inductive SeriesCall where
  | paradigm (text domain : Str)
  | value (text language : Str) (values : List Str)
  deriving DecidableEq

/-- `get_script` (lines 43-46). -/
def oldScript (usls : Nat → Option OldUsl) (i : Nat) : Except Err Script :=
  match usls i with
  | none => .error .assertionError
  | some w => parseScript (migrateMorpheme w.script)

/-- The constants and the groups of a series (lines 54-64). -/
def seriesParts (usls : Nat → Option OldUsl) (ms : OldSeries) : Except Err (List Script × List Group) := do
  let cs ← match ms.constants with
    | some ids => ids.mapM (oldScript usls)
    | none => pure []
  let gs ← ms.groups.mapM fun g => do
    let ws ← g.1.mapM (oldScript usls)
    return (ws, g.2.getD 1)
  return (cs, gs)

/-- `name.split(':', 1)`: what precedes the first colon, and what follows if there is one. -/
def splitColon : Str → Str × Option Str
  | [] => ([], none)
  | c :: s => if c = ':' then ([], some s) else (c :: (splitColon s).1, (splitColon s).2)

/-- `list(chain.from_iterable(dd.split(',') for dd in ds))` (lines 105, 108). -/
def commaValues (ds : List Str) : List Str := ds.flatMap fun d => splitOnChar ',' d []

/-- One step of the loop over the sequences (lines 81-108); `none` when the loop is left by `break`.  `known` says whether a text is that
of a script of the dictionary. -/
def importSequence (usls : Nat → Option OldUsl) (known : Str → Bool) (q : OldSequence) : Except Err (Option (List SeriesCall)) := do
  let cs ← q.words.mapM fun w => parseScript (migrateMorpheme w)
  if cs.length = 1 then return some []
  let p := mkPM cs []
  if (p.constant ++ p.groups.flatMap (·.1)).any (fun x => !known x.str) then return none
  match q.id with
  | none => return some []
  | some i =>
    match usls i with
    | none => return some []
    | some w =>
      let call (l : Str) (d : Option (List Str)) : List SeriesCall :=
        match d with
        | some ds => [.value p.text l (commaValues ds)]
        | none => []
      return some (call (c!"fr") w.fr ++ call (c!"en") w.en)

/-- The loop over the sequences (lines 81-108). -/
def importSequences (usls : Nat → Option OldUsl) (known : Str → Bool) : List OldSequence → Except Err (List SeriesCall)
  | [] => .ok []
  | q :: qs => do
    match ← importSequence usls known q with
    | none => return []
    | some calls => return calls ++ (← importSequences usls known qs)

/-- One step of the loop over the series (lines 52-108). -/
def importOne (usls : Nat → Option OldUsl) (known : Str → Bool) (ms : OldSeries) : Except Err (List SeriesCall) := do
  let (cs, gs) ← seriesParts usls ms
  let p := mkPM cs gs
  if (cs ++ gs.flatMap (·.1)).any (fun x => !known x.str) then return []
  let d ← seriesDomain (splitColon ms.name).1
  match (splitColon ms.name).2 with
  | none => throw .indexError
  | some t =>
    let calls ← importSequences usls known ms.sequences
    return .paradigm p.text d :: .value p.text (c!"fr") [strip t] :: calls

/-- `import_old_series` (lines 37-108); after an exception nothing is written, so the calls made before are left out. -/
def importSeries (usls : Nat → Option OldUsl) (known : Str → Bool) (l : List OldSeries) : Except Err (List SeriesCall) := do
  return (← l.mapM (importOne usls known)).flatten

end Verif
