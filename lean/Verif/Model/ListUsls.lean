import Verif.Model.DictTransaction
import Verif.Model.FromPaths
import Verif.Model.Index
import Verif.Model.ReadKey

/-
Model of `IEMLDatabase.get_list` (`ieml_database.py` lines 226-261): the list of all the expressions that have descriptors.

Not modelled: the cache (`Model/Cache.lean`), the monitoring, the progress bar, the conversions of `pandas.read_csv`, the keys with
decorations (`unmodelled`) and the limit of Python on the value of `len`.
-/

namespace Verif
open Script

/-- `morpheme in dictionary` (`dictionary.py` lines 92-93). -/
def knows (scripts : List Script) (s : Script) : Bool := decide (s.str ∈ scripts.map str)

/-- The texts of the morphemes of a text. -/
def morphemeTexts (s : Str) : List Str := (uslLex s).filterMap fun t => match t with | .morpheme m => some m | _ => none

/-- The action of `morpheme : MORPHEME` with a dictionary (`usl/parser/parser.py` lines 84-88): whether it accepts the script read. -/
def knownMorpheme (scripts : List Script) (m : Str) : Bool :=
  match parseScript m with
  | .ok s => knows scripts s
  | .error _ => true

/-- `IEMLParser(dictionary=dictionary).parse(text)` (`usl/parser/parser.py` lines 42-58, 81-91): the `ValueError` of an unknown morpheme
is turned into `CannotParse`.  A text that contains an unknown morpheme and for which the parser without dictionary raises another exception
than `CannotParse` is not modelled: it depends on what comes first. -/
def readIn (scripts : List Script) (s : Str) : Except Err (Expr × List (Str × Str)) :=
  match uslRead s with
  | .error .cannotParse => .error .cannotParse
  | .error e => if (morphemeTexts s).all (knownMorpheme scripts) then .error e else .error .unmodelled
  | .ok r => if (morphemeTexts s).all (knownMorpheme scripts) then .ok r else .error .cannotParse

/-- `get_index` (`usl/__init__.py` lines 29-42). -/
def getIndex (scripts : List Script) : Expr → Except Err (Nat × Str)
  | .script s => getIndexScript scripts s
  | .pm p => getIndexPM scripts p
  | .word _ => do return (2, '2' :: (← int2base 0))
  | .lexeme _ => do return (3, '3' :: (← int2base 0))

/-- `TYPES` (`ieml/constants.py` line 238). -/
def uslTypes : List Str := [c!"morpheme", c!"polymorpheme", c!"lexeme", c!"word", c!"phrase"]

/-- `GRAMMATICAL_CLASS_NAMES[c].lower().capitalize()` (`ieml/constants.py` lines 33-37, `ieml_database.py` line 248). -/
def classLabel : Nat → Except Err Str
  | 0 => .ok (c!"Auxiliary")
  | 1 => .ok (c!"Verb")
  | 2 => .ok (c!"Noun")
  | _ => .error .keyError

/-- The label of `pieml.grammatical_class` (`ieml_database.py` line 248; `script.py` lines 296, 423, 562; `polymorpheme.py` lines 170-171,
`lexeme.py` line 31): the class of a word is a script (`word.py` line 58), which is not a key of `GRAMMATICAL_CLASS_NAMES`. -/
def Expr.classLabel : Expr → Except Err Str
  | .script s => Verif.classLabel s.scriptClass
  | .pm p => Verif.classLabel p.gramClass
  | .lexeme x => Verif.classLabel x.content.gramClass
  | .word _ => .error .keyError

/-- The value of `cardinality` (`ieml_database.py` lines 250-253). -/
def cardinality (d : DictBase) (n : Nat) : Expr → Str
  | .script s =>
    if n = 1 then c!"singular_sequence"
    else if d.tables.roots.any fun r => r.1.pyEq s then c!"root_paradigm" else c!"paradigm"
  | _ => if n = 1 then c!"singular_sequence" else c!"paradigm"

/-- An element of the list (`ieml_database.py` lines 245-259), without `domains`, which is always empty; the values of each descriptor
and language, in the order in which they are added. -/
structure Listed where
  ieml : Str
  type : Str
  paradigm : Bool
  cls : Str
  index : Str
  cardinality : Str
  values : List (Str × List (Str × List Str))
  deriving DecidableEq

/-- The keys of an element before its descriptors (`ieml_database.py` lines 245-255). -/
def listedFields : List Str :=
  [c!"ieml", c!"type", c!"paradigm", c!"class", c!"index", c!"cardinality", c!"domains"]

/-- Lines 243-244 of `ieml_database.py`: a polymorpheme of one morpheme is replaced by this morpheme. -/
def unwrapPM (i : Nat) : Expr → Except Err Expr
  | .pm p =>
    if i = 0 then
      match p.constant with
      | c :: _ => .ok (.script c)
      | [] => .error .indexError
    else .ok (.pm p)
  | u => .ok u

/-- Lines 241-255 of `ieml_database.py`. -/
def listedOf (d : DictBase) (k : Str) (u : Expr) : Except Err Listed := do
  if u.text ≠ k then throw .assertionError
  let ir ← getIndex d.scripts u
  let v ← unwrapPM ir.1 u
  let n ← v.len
  let c ← v.classLabel
  return ⟨v.text, uslTypes.getD ir.1 [], n != 1, c, ir.2, cardinality d n v, []⟩

/-- `res[ieml][desc]` after lines 256-257 of `ieml_database.py`: the lists of the languages, empty at first. -/
def languageLists (vals : List (Str × List (Str × List Str))) (desc : Str) : List (Str × List Str) :=
  match vals.find? (·.1 == desc) with
  | some x => x.2
  | none => languages.map fun l => (l, [])

/-- Lines 256-259 of `ieml_database.py`: the value is added to its descriptor and language.  The name of a field is already a key of the
element and its value takes no language as index: `TypeError`. -/
def addListed (e : Listed) (lang desc v : Str) : Except Err Listed := do
  if listedFields.contains desc then throw .typeError
  if !languages.contains lang then throw .keyError
  return { e with values := dictSet id desc ((languageLists e.values desc).map fun x => if x.1 = lang then (x.1, x.2 ++ [v]) else x) e.values }

/-- One round of the loop (`ieml_database.py` lines 233-259). -/
def listStep (d : DictBase) (res : List (Str × Listed)) (r : Str × Str × Str × Str) : Except Err (List (Str × Listed)) :=
  match res.find? (·.1 == r.1) with
  | some x => do return dictSet id r.1 (← addListed x.2 r.2.1 r.2.2.1 r.2.2.2) res
  | none =>
    match readIn d.scripts r.1 with
    | .error .cannotParse => .ok res
    | .error e => .error e
    | .ok (_, _ :: _) => .error .unmodelled
    | .ok (u, []) => do
      let e ← listedOf d r.1 u
      return dictSet id r.1 (← addListed e r.2.1 r.2.2.1 r.2.2.2) res

/-- Order of the index of `Descriptors.df` (`descriptors.py` line 69): by text, language and descriptor; the sort is stable. -/
def ltRecord (a b : Str × Str × Str × Str) : Bool :=
  ltStr a.1 b.1 || (a.1 = b.1 && (ltStr a.2.1 b.2.1 || (a.2.1 = b.2.1 && ltStr a.2.2.1 b.2.2.1)))

/-- The list of a dictionary and of the records of the descriptors. -/
def listOf (d : DictBase) (rows : List (Str × Str × Str × Str)) : Except Err (List Listed) := do
  let res ← (pySort ltRecord rows).foldlM (listStep d) []
  return pySort (fun a b => ltStr a.index b.index) (res.map (·.2))

/-- `get_list` (`ieml_database.py` lines 228-261). -/
def getList (o : SetOrder) (fs : FS) : Except Err (List Listed) := do
  let d ← getDictionary o fs
  let rows ← getDescriptors fs
  listOf d.base rows

end Verif
