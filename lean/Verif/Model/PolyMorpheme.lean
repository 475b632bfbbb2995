import Verif.Model.Script
import Verif.Model.OrderedDict

/-
Model of `ieml/usl/polymorpheme.py`: polymorphemes, their normal form, their order, their check and their singular
sequences.
-/

namespace Verif
open Script

/-- A group of a polymorpheme: morphemes and multiplicity. -/
abbrev Group := List Script × Nat

/-- Decimal digits of `n`, most significant first, with `fuel` divisions at most. -/
def digitsOf (b : Nat) : Nat → Nat → List Nat
  | 0, i => [i % b]
  | fuel + 1, i => if i / b ≠ 0 then digitsOf b fuel (i / b) ++ [i % b] else [i % b]

/-- The character of a decimal digit. -/
def digitChar (d : Nat) : Char := Char.ofNat (48 + d)

/-- `str(n)` / `format(n)` of a non-negative integer. -/
def decimal (n : Nat) : Str := (digitsOf 10 n n).map digitChar

/-- `' '.join(l)`. -/
def joinSpace : List Str → Str
  | [] => []
  | [s] => s
  | s :: t :: ts => s ++ ' ' :: joinSpace (t :: ts)

/-- `_filter_empty` (`polymorpheme.py` lines 53-54). -/
def filterEmpty (l : List Script) : List Script := l.filter fun m => !m.empty

/-- `==` of two tuples of scripts. -/
def eqTuple (a b : List Script) : Bool := a.map str == b.map str

/-- `<` of two tuples of scripts: lexicographic, the first different element decides. -/
def ltTuple : List Script → List Script → Bool
  | _, [] => false
  | [], _ :: _ => true
  | x :: xs, y :: ys => if x.pyEq y then ltTuple xs ys else x.lt y

/-- `==` of two groups, pairs of a tuple and an integer. -/
def eqGroup (g h : Group) : Bool := eqTuple g.1 h.1 && g.2 == h.2

/-- `<` of two groups. -/
def ltGroup (g h : Group) : Bool := if eqTuple g.1 h.1 then decide (g.2 < h.2) else ltTuple g.1 h.1

/-- `<` of two tuples of groups. -/
def ltGroups : List Group → List Group → Bool
  | _, [] => false
  | [], _ :: _ => true
  | x :: xs, y :: ys => if eqGroup x y then ltGroups xs ys else ltGroup x y

/-- `PolyMorpheme` objects (`polymorpheme.py` lines 151-171): the attributes `constant`, `groups`, `_str`.  Multiplicities
are non-negative integers here. -/
structure PM where
  constant : List Script
  groups : List Group
  text : Str

/-- `"m{}({})".format(mult, ' '.join(map(str, group)))` (`polymorpheme.py` line 164). -/
def groupText (g : Group) : Str := c!"m" ++ decimal g.2 ++ c!"(" ++ joinSpace (g.1.map str) ++ c!")"

/-- `PolyMorpheme.__init__` (`polymorpheme.py` lines 154-168). -/
def mkPM (constant : List Script) (groups : List Group) : PM :=
  let cs := pySort lt (filterEmpty constant)
  let gs := pySort ltGroup (groups.map fun g => (pySort lt (filterEmpty g.1), g.2))
  { constant := if cs.isEmpty then [.null 0] else cs
    groups := gs
    text := joinSpace (cs.map str ++ gs.map groupText) }

/-- `self.grammatical_class` (`polymorpheme.py` lines 170-171); the grammatical class of a script is its `script_class`
(`script.py` lines 296, 423, 561).  `AUXILIARY_CLASS` is 0. -/
def PM.gramClass (p : PM) : Nat := p.constant.foldl (fun m s => max m s.scriptClass) auxiliaryClass

/-- `PolyMorpheme.empty` (`polymorpheme.py` lines 172-174). -/
def PM.empty (p : PM) : Bool :=
  p.groups.isEmpty && p.constant.length == 1 && (match p.constant with | c :: _ => c.empty | [] => false)

/-- `a == b` of USLs (`usl.py` lines 46-47). -/
def PM.eq (p q : PM) : Bool := p.text == q.text

/-- `PolyMorpheme.do_lt` (`polymorpheme.py` lines 179-182). -/
def PM.lt (p q : PM) : Bool :=
  decide (p.constant.length < q.constant.length) ||
  (decide (p.constant.length = q.constant.length) && ltTuple p.constant q.constant) ||
  (eqTuple p.constant q.constant && ltGroups p.groups q.groups)

/-- `PolyMorpheme.morphemes` (`polymorpheme.py` lines 207-209). -/
def PM.morphemes (p : PM) : List Script :=
  pySort Script.lt (dedupBy str (p.constant ++ p.groups.flatMap fun g => g.1))

/-- `check_polymorpheme` on polymorphemes made of scripts and integers (`polymorpheme.py` lines 27-50); `true` when it raises
nothing, otherwise it raises `ValueError`. -/
def PM.check (p : PM) : Bool :=
  let sortedEq (l : List Script) : Bool := eqTuple (pySort Script.lt l) l
  let sg := pySort ltGroup p.groups
  let all := p.constant :: p.groups.map (·.1)
  (sg.length == p.groups.length && (sg.zip p.groups).all fun x => eqGroup x.1 x.2) &&
  p.groups.all (fun g => sortedEq g.1) &&
  p.groups.all (fun g => g.1.isEmpty || (decide (0 < g.2) && decide (g.2 ≤ 3))) &&
  p.groups.all (fun g => g.1.isEmpty || decide (g.2 ≤ g.1.length)) &&
  sortedEq p.constant &&
  (dedupBy str all.flatten).length == (all.map List.length).sum &&
  (dedupBy str all.flatten).all (fun m => m.cardinal == 1)

/-- `itertools.combinations(l, k)`. -/
def combs {α : Type} : Nat → List α → List (List α)
  | 0, _ => [[]]
  | _ + 1, [] => []
  | k + 1, x :: xs => (combs k xs).map (x :: ·) ++ combs (k + 1) xs

/-- `itertools.product(*ls)`. -/
def prodL {α : Type} : List (List α) → List (List α)
  | [] => [[]]
  | l :: ls => l.flatMap fun x => (prodL ls).map (x :: ·)

/-- `min(map(len, …))` of the groups (`polymorpheme.py` line 107); there is at least one group. -/
def minLen (groups : List Group) : Nat :=
  match groups with
  | [] => 0
  | g :: gs => gs.foldl (fun m h => min m h.1.length) g.1.length

/-- `i in max_sizes_groups[j]` for the group `g` of index `i` (`polymorpheme.py` lines 109-112). -/
def inMaxSizes (ml : Nat) (g : Group) (j : Nat) : Bool := decide (g.2 + 1 ≤ j) && decide (j ≤ ml)

/-- The selections of stage `i` of `iter_groups_combinations` (`polymorpheme.py` lines 125-133). -/
def stage (groups : List Group) (i : Nat) : List (List (List Script)) :=
  let N := groups.length
  let ml := minLen groups
  let q := i / N
  let r := i % N
  (combs r (List.range N)).flatMap fun indexes =>
    let at' (j : Nat) : Group := groups.getD j ([], 0)
    if indexes.any fun j => inMaxSizes ml (at' j) (q + 1) then []
    else if indexes.any fun j => decide ((at' j).1.length ≤ q) then []
    else prodL (indexes.map (fun j => combs (q + 1) (at' j).1) ++
      ((List.range N).filter fun j => !indexes.contains j).map fun j => combs q (at' j).1)

/-- `iter_groups_combinations` (`polymorpheme.py` lines 114-133): the loop over `count()` stops at the latest when `q` is
`min_len + 1`, that is for `i = N * (min_len + 1)`. -/
def groupCombinations (groups : List Group) : List (List (List Script)) :=
  let N := groups.length
  let ml := minLen groups
  ((List.range (N * (ml + 1))).takeWhile fun i => !groups.any fun g => inMaxSizes ml g (i / N)).flatMap (stage groups)

/-- `MORPHEME_SERIE_SIZE_LIMIT_CONTENT` (`ieml/constants.py`). -/
def sizeLimit : Nat := 5

/-- One iteration of the loop filling `traits` (`polymorpheme.py` lines 139-145).  `set(…)` is modelled by the first
occurrences; the order in which Python iterates the set is arbitrary, and `C41` shows that it does not matter. -/
def traitStep (constants : List Script) (traits : OD Str PM) (gs : List (List Script)) : Except Err (OD Str PM) :=
  let semes := dedupBy str (gs.flatten ++ constants)
  if semes.length = 0 ∨ semes.length > sizeLimit then .ok traits
  else
    let m := mkPM semes []
    OD.set traits m.text m

/-- `compute_PM_singular_sequences` with groups (`polymorpheme.py` lines 105-147). -/
def pmSequences (constants : List Script) (groups : List Group) : Except Err (List PM) := do
  let traits ← (groupCombinations groups).foldlM (traitStep constants) []
  return traits.map (·.2)

/-- `PolyMorpheme._compute_singular_sequences` (`polymorpheme.py` lines 57-58 and 211-216). -/
def PM.singularSequences (p : PM) : Except Err (List PM) :=
  if p.groups.isEmpty then .ok [p] else pmSequences p.constant p.groups

/-- `PolyMorpheme.cardinal` (`usl.py` lines 78-80). -/
def PM.cardinal (p : PM) : Except Err Nat := p.singularSequences.map List.length

end Verif
