import Verif.Model.DictTransaction
import Verif.Model.FromPaths

/-
Model of the functions of `ieml/ieml_database/transactions/DBTransaction.py` (lines 11-65) that check the arguments of the
transactions, and of `set_descriptors` and `set_inhibitions` with these checks.

The keys of the dictionaries are strings.  An iterable that is neither a string nor a list is a tuple: the objects that
`json.dumps` refuses, which would raise `TypeError` when the message of a commit is written, are not represented.
-/

namespace Verif
open Script

/-- An element of a list: a string, or an object of another type. -/
inductive ArgItem where
  | str (s : Str)
  | other
deriving DecidableEq

/-- An object given where a list of strings is expected: a string, a list or a tuple, or an object that is not iterable. -/
inductive ArgVal where
  | text (s : Str)
  | items (isList : Bool) (l : List ArgItem)
  | atom
deriving DecidableEq

/-- A dictionary of such objects, in the order of insertion. -/
abbrev ArgDict := List (Str × ArgVal)

/-- `iter(v)`: the characters of a string are strings. -/
def ArgVal.iter : ArgVal → Except Err (List ArgItem)
  | .text s => .ok (s.map fun c => .str [c])
  | .items _ l => .ok l
  | .atom => .error .typeError

/-- `isinstance(d, str)`. -/
def ArgItem.isStr : ArgItem → Bool
  | .str _ => true
  | .other => false

/-- `d[k]` -/
def argGet {β : Type} (d : List (Str × β)) (k : Str) : Except Err β :=
  match dictGet id k d with
  | some v => .ok v
  | none => .error .keyError

/-- `if k not in d: d[k] = v` -/
def argDefault {β : Type} (v : β) (d : List (Str × β)) (k : Str) : List (Str × β) :=
  if d.any fun e => decide (e.1 = k) then d else d ++ [(k, v)]

/-- The generator of line 45: it stops at the first element that is not a string. -/
def allStrings (d : ArgDict) : List Str → Except Err Bool
  | [] => .ok true
  | k :: ks => do
    let l ← (← argGet d k).iter
    if l.all ArgItem.isStr then allStrings d ks else return false

/-- `_check_descriptors` (lines 37-46).  The dictionary given is changed, also when it is then refused: the second component is its
content after the call (`None` is replaced by a new dictionary). -/
def checkDescriptors (arg : Option ArgDict) : Except Err Unit × ArgDict :=
  let d := languages.foldl (argDefault (.items true [])) (arg.getD [])
  (do if !(← allStrings d languages) then throw .assertionError, d)

/-- `_check_inhibitions` (lines 14-17). -/
def checkInhibitions (arg : ArgVal) : Except Err (List Str) := do
  let l ← arg.iter
  l.mapM fun i => match i with
    | .str s => if inhibitableRelations.contains s then .ok s else .error .assertionError
    | .other => .error .assertionError

/-- An object given as an expression: a script or a USL, or an object of another type, such as a text. -/
inductive IemlArg where
  | expr (e : Expr)
  | other

/-- `_check_ieml` (lines 29-35), with `_check_script` and `_check_lexical_item` (lines 19-27). -/
def checkIeml (ord : List Script → List Script) : IemlArg → Except Err Expr
  | .expr (.script s) => do
    checkScript ord s
    return .script s
  | .expr e => .ok e
  | .other => .error .assertionError

/-- The strings of an iterable. -/
def itemTexts (l : List ArgItem) : List Str := l.filterMap fun i => match i with | .str s => some s | .other => none

/-- The strings that the loops over `value[l]` go through. -/
def valuesOf (d : ArgDict) (l : Str) : List Str :=
  match argGet d l >>= ArgVal.iter with
  | .ok is => itemTexts is
  | .error _ => []

/-- `set_descriptors(ieml, descriptor, value)` (lines 288-324), with the checks of its arguments (lines 295-296). -/
def setDescriptorsCall (ord : List Script → List Script) (x : Ext) (fs : FS) (ieml : IemlArg) (desc : Str) (value : Option ArgDict) :
    Except Err (FS × Bool) := do
  let e ← checkIeml ord ieml
  let c := checkDescriptors value
  c.1
  setDescriptors x fs e.text desc (valuesOf c.2)

/-! ### Descriptors of all classes -/

/-- What a language is given: a dictionary, or something else. -/
inductive ArgInner where
  | dict (d : ArgDict)
  | val (v : ArgVal)
deriving DecidableEq

/-- `c in s` of strings. -/
def hasInfix (c : Str) : Str → Bool
  | [] => c.isEmpty
  | a :: s => c.isPrefixOf (a :: s) || hasInfix c s

/-- `c in v` -/
def ArgVal.contains (c : Str) : ArgVal → Except Err Bool
  | .text s => .ok (hasInfix c s)
  | .items _ l => .ok (decide (ArgItem.str c ∈ l))
  | .atom => .error .typeError

/-- The loop of lines 57-59 on the value of one language: strings, lists and tuples cannot be assigned to at a string. -/
def fillClasses : ArgInner → Except Err ArgInner
  | .dict d => .ok (.dict (descriptorClasses.foldl (argDefault (.items true [])) d))
  | .val v => do
    let bs ← descriptorClasses.mapM fun c => v.contains c
    if bs.all id then return .val v else throw .typeError

/-- The loop of lines 53-59.  The dictionary is changed until an exception is raised. -/
def fillMulti : List Str → List (Str × ArgInner) → Except Err Unit × List (Str × ArgInner)
  | [], d => (.ok (), d)
  | k :: ks, d =>
    let d := argDefault (.dict []) d k
    match argGet d k >>= fillClasses with
    | .error e => (.error e, d)
    | .ok v => fillMulti ks (dictSet id k v d)

/-- The test of lines 62-63 on the class `k` of a dictionary. -/
def classOk (e : Str × ArgVal) : Bool :=
  descriptorClasses.contains e.1 && (match e.2 with | .items true l => l.all ArgItem.isStr | _ => false)

/-- The test of lines 62-64 on the value of one language: the keys of a dictionary, the characters of a string and the elements of a
list are gone through; a list is then indexed by a string. -/
def innerOk : ArgInner → Except Err Bool
  | .dict d => .ok (d.all classOk)
  | .val v => do
    match ← v.iter with
    | [] => return true
    | .other :: _ => return false
    | .str s :: _ => if descriptorClasses.contains s then throw .typeError else return false

/-- The generator of lines 62-64. -/
def allInner : List (Str × ArgInner) → Except Err Bool
  | [] => .ok true
  | e :: es => do if ← innerOk e.2 then allInner es else return false

/-- `_check_multi_descriptors` (lines 49-65); the second component is the content of the dictionary after the call. -/
def checkMulti (arg : Option (List (Str × ArgInner))) : Except Err Unit × List (Str × ArgInner) :=
  match fillMulti languages (arg.getD []) with
  | (.error e, d) => (.error e, d)
  | (.ok (), d) =>
    (do
      if !(d.all fun e => languages.contains e.1) then throw .assertionError
      if !(← allInner d) then throw .assertionError, d)

/-- `vv + str(idx)` (line 12). -/
def appendItem (idx : Nat) : ArgItem → Except Err ArgItem
  | .str s => .ok (.str (s ++ decimal idx))
  | .other => .error .typeError

/-- `append_idx_to_dict(d, idx)` (lines 11-12). -/
def appendIdx (d : ArgDict) (idx : Nat) : Except Err ArgDict :=
  d.mapM fun e => do
    let l ← e.2.iter
    let l ← l.mapM (appendItem idx)
    return (e.1, .items true l)

end Verif
