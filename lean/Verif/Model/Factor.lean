import Verif.Model.FromPaths

/-
Model of the factorisation of scripts (`ieml/dictionary/script/tools.py` lines 10-152 and `operator.py` lines 23-34).

A Python set of scripts that the code iterates over is the list `ord l`, where `l` lists the scripts in the order of their
insertion: in CPython the order of iteration of a freshly built set depends on nothing else than the insertions and the
hashes of the elements, which are drawn anew in every process.  The parameter `ord` ranges over all such orders.
-/

namespace Verif
open Script

/-- An order of iteration over sets of scripts goes exactly once over each script; scripts are compared by text. -/
def FactorOrder (ord : List Script → List Script) : Prop := ∀ l, (ord l).Perm (dedupBy str l)

/-- Coordinates of a singular sequence: the ranks of its three roles. -/
abbrev Coord := Nat × Nat × Nat

/-- What `factor` returns is a list of such elements: a script, or a tuple of three factorisations. -/
inductive Facto where
  | script (s : Script)
  | product (s a m : List Facto)

/-- `<` on tuples of three integers. -/
def ltCoord (a b : Coord) : Bool := ltBytes [a.1, a.2.1, a.2.2] [b.1, b.2.1, b.2.2]

/-- The three elements of `iter(s)` (`tools.py` lines 20 and 26).  A one-term sum has one element only: `zip` stops after
the first column, and line 26 or line 32 raises `IndexError`. -/
def rolesOf (s : Script) : Except Err (Script × Script × Script) :=
  match s.iter with
  | [x, y, z] => .ok (x, y, z)
  | _ => .error .indexError

/-- `sorted(set(seme))` (`tools.py` line 20).  Singular sequences with different texts are ordered by `<` (theorems of C09),
so that the order of iteration of the set does not matter. -/
def axis (column : List Script) : List Script := pySort lt (dedupBy str column)

/-- `primitives[i].inv[seme]` (`tools.py` lines 23-26). -/
def rankIn (ax : List Script) (s : Script) : Except Err Nat :=
  match ax.findIdx? (fun t => t.pyEq s) with
  | some i => .ok i
  | none => .error .keyError

/-- `tuple(primitives[i].inv[seme] for i, seme in enumerate(s))` (`tools.py` line 26). -/
def coordOf (a0 a1 a2 : List Script) (r : Script × Script × Script) : Except Err Coord := do
  let i ← rankIn a0 r.1
  let j ← rankIn a1 r.2.1
  let k ← rankIn a2 r.2.2
  return (i, j, k)

/-- The dictionary `scripts` (`tools.py` line 26). -/
def scriptsOf (l : List (Coord × Script)) : List (Coord × Script) :=
  l.foldl (fun d e => dictSet id e.1 e.2 d) []

/-- The test of lines 41-44 of `tools.py`; `topology[i][j][k]` (lines 29-32) says whether `(i, j, k)` is a key of `scripts`. -/
def cubeWith (keys : List Coord) (seq e : Coord) : Bool :=
  keys.contains (e.1, seq.2.1, seq.2.2) && keys.contains (seq.1, e.2.1, seq.2.2) && keys.contains (seq.1, seq.2.1, e.2.2)

/-- One round of the loop on `scripts` (`tools.py` lines 37-50); `_computed` is the set of the keys of `relations`, and the
`continue` of line 39 is never reached. -/
def relStep (keys : List Coord) (rel : List (Coord × List Coord)) (seq : Coord) : List (Coord × List Coord) :=
  let cubes := (rel.map (·.1)).filter (cubeWith keys seq)
  rel.map (fun p => if cubes.contains p.1 then (p.1, p.2 ++ [seq]) else p) ++ [(seq, cubes)]

/-- `relations` (`tools.py` lines 35-52). -/
def relationsOf (keys : List Coord) : List (Coord × List Coord) :=
  (keys.foldl (relStep keys) []).map fun p => (p.1, pySort ltCoord p.2)

/-- `_neighbours(t1, t2)` (`tools.py` lines 54-64). -/
def neighbours (t1 t2 : Coord) : List Coord :=
  [(t1.1, t1.2.1, t1.2.2), (t1.1, t1.2.1, t2.2.2), (t1.1, t2.2.1, t1.2.2), (t1.1, t2.2.1, t2.2.2),
    (t2.1, t1.2.1, t1.2.2), (t2.1, t1.2.1, t2.2.2), (t2.1, t2.2.1, t1.2.2), (t2.1, t2.2.1, t2.2.2)]

/-- `relations[c]`. -/
def related (rel : List (Coord × List Coord)) (c : Coord) : Except Err (List Coord) :=
  match dictGet id c rel with
  | some l => .ok l
  | none => .error .keyError

/-- `len(relations[e])`, for a key `e`. -/
def degree (rel : List (Coord × List Coord)) (c : Coord) : Nat := ((dictGet id c rel).getD []).length

/-- The first factorisation produced by the generator `_factors` (`tools.py` lines 66-81, 87): only the first candidate of
every list is tried.  The candidates decrease, so that `fuel` is not exhausted (C15). -/
def firstFactors (rel : List (Coord × List Coord)) : Nat → List Coord → List Coord → Except Err (List Coord)
  | fuel, candidate, facto =>
    match pySort (fun a b => decide (degree rel b < degree rel a)) candidate with
    | [] => .ok facto
    | r :: _ => do
      let facto' := pySort ltCoord (dedupBy id (facto.flatMap fun t => neighbours t r))
      let near ← facto'.mapM (related rel)
      match candidate.filter fun c => near.all fun l => l.contains c with
      | [] => .ok facto'
      | c :: cs =>
        match fuel with
        | 0 => .error .unmodelled
        | n + 1 => firstFactors rel n (pySort ltCoord (c :: cs)) facto'

/-- Lines 83-87 of `tools.py`: start from the last coordinate with the largest number of relations. -/
def bestFactors (keys : List Coord) : Except Err (List Coord) :=
  let rel := relationsOf keys
  match (pySort (fun a b => decide (degree rel a < degree rel b)) (rel.map (·.1))).getLast? with
  | none => .error .indexError
  | some e => do
    let start ← related rel e
    firstFactors rel start.length start [e]

/-- `{primitives[i][seme] for seme in semes}` (`tools.py` line 90): the scripts in the order of insertion. -/
def semesOf (ax : List Script) (ranks : List Nat) : Except Err (List Script) :=
  ranks.mapM fun i => match ax[i]? with
    | some s => .ok s
    | none => .error .keyError

/-- `remaining` (`tools.py` line 89). -/
def remainingOf (seqs picked : List Script) : List Script :=
  pySort lt ((dedupBy str seqs).filter fun s => !(picked.any fun p => p.pyEq s))

/-- `scripts[f]` (`tools.py` line 89). -/
def scriptAt (scripts : List (Coord × Script)) (c : Coord) : Except Err Script :=
  match dictGet id c scripts with
  | some s => .ok s
  | none => .error .keyError

/-- Lines 20-90 of `tools.py`, up to the calls of `factor`: the three sets of semes of the factorisation that was found, in the
order of insertion, and the remaining sequences.  The code computes the second and the third set after the calls for the first
and the second one, which makes no difference because `primitives[i][seme]` never raises. -/
def splitSequences (seqs : List Script) : Except Err (List Script × List Script × List Script × List Script) := do
  let rows ← seqs.mapM rolesOf
  let a0 := axis (rows.map (·.1))
  let a1 := axis (rows.map (·.2.1))
  let a2 := axis (rows.map (·.2.2))
  let coords ← rows.mapM (coordOf a0 a1 a2)
  let scripts := scriptsOf (coords.zip seqs)
  let best ← bestFactors (scripts.map (·.1))
  let picked ← best.mapM (scriptAt scripts)
  let p0 ← semesOf a0 (best.map (·.1))
  let p1 ← semesOf a1 (best.map (·.2.1))
  let p2 ← semesOf a2 (best.map (·.2.2))
  return (p0, p1, p2, remainingOf seqs picked)

/-- `factor(sequences)` for sequences of a layer above 0 (`tools.py` lines 16-95); `sub` is `factor` for the layer below.
`fuel` bounds the number of calls on `remaining`, which is shorter every time (C15).  The code reads the layer from the first
sequence; the model says `unmodelled` where it is not the expected one, which never happens for the singular sequences of a
script (C15). -/
def factorLoop (ord : List Script → List Script) (l : Nat) (sub : List Script → Except Err (List Facto)) :
    Nat → List Script → Except Err (List Facto)
  | fuel, seqs =>
    match seqs with
    | [] => .error .unmodelled                          -- StopIteration (line 11)
    | [s] => if s.layer = l + 1 then .ok [.script s] else .error .unmodelled
    | s :: _ =>
      if s.layer ≠ l + 1 then .error .unmodelled
      else do
        let (p0, p1, p2, remaining) ← splitSequences seqs
        let f0 ← sub (ord p0)
        let f1 ← sub (ord p1)
        let f2 ← sub (ord p2)
        match remaining with
        | [] => .ok [.product f0 f1 f2]
        | r :: rs =>
          match fuel with
          | 0 => .error .unmodelled
          | n + 1 => do
            let rest ← factorLoop ord l sub n (r :: rs)
            .ok (.product f0 f1 f2 :: rest)

/-- `factor(sequences)` (`tools.py` lines 10-95) for sequences of layer `l`. -/
def factor (ord : List Script → List Script) : Nat → List Script → Except Err (List Facto)
  | 0, seqs =>
    match seqs with
    | [] => .error .unmodelled                          -- StopIteration (line 11)
    | s :: _ => if s.layer = 0 then .ok (seqs.map .script) else .error .unmodelled
  | l + 1, seqs => factorLoop ord l (factor ord l) seqs.length seqs

/-- The end of `pack_factorisation` (`tools.py` lines 111-114). -/
def packSum : List Script → Except Err Script
  | [s] => .ok s
  | sum => mkAdd sum

mutual
/-- One element of the list `_sum` (`tools.py` lines 105-109). -/
def packOne : Facto → Except Err Script
  | .script s => .ok s
  | .product s a m => do
    let x ← packSum (← packAll s)
    let y ← packSum (← packAll a)
    let z ← packSum (← packAll m)
    mkMult [some x, some y, some z]
/-- The list `_sum` (`tools.py` lines 103-109). -/
def packAll : List Facto → Except Err (List Script)
  | [] => .ok []
  | f :: fs => do
    let s ← packOne f
    let r ← packAll fs
    return s :: r
end

/-- `pack_factorisation(facto_list)` (`tools.py` lines 98-114). -/
def packFactorisation (fs : List Facto) : Except Err Script := do packSum (← packAll fs)

/-- `pack_factorisation(factor(seqs))` (`tools.py` line 151). -/
def factorSequences (ord : List Script → List Script) (seqs : List Script) : Except Err Script :=
  match seqs with
  | [] => .error .unmodelled                            -- StopIteration (line 11)
  | s :: _ => do packFactorisation (← factor ord s.layer seqs)

/-- `factorize(s)` of a script (`tools.py` lines 132-152), which is also `script(s, factorize=True)` (`operator.py` lines
23-34). -/
def factorize (ord : List Script → List Script) (s : Script) : Except Err Script := do
  factorSequences ord (← s.singularSequences)

/-- `script(text, factorize=True)` (`operator.py` lines 23-34). -/
def scriptFactorized (ord : List Script → List Script) (text : Str) : Except Err Script := do
  factorize ord (← parseScript text)

/-- `factorize(ss)` of a list of scripts, with `promote=True` (`tools.py` lines 142-152); `max` of an empty sequence raises
`ValueError`. -/
def factorizeList (ord : List Script → List Script) (ss : List Script) : Except Err Script := do
  let seqs ← singularSequencesL ss
  match seqs with
  | [] => .error .valueError
  | _ => do
    let l := (seqs.map layer).foldl max 0
    let ps ← seqs.mapM fun s => promote s l
    factorSequences ord ps

end Verif
