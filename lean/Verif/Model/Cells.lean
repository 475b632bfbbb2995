import Verif.Model.ScriptBuild

/-
Model of the paradigm tables of scripts: `cells`, `tables_script` and `headers` (`ieml/dictionary/script/script.py` lines
168-194, 328-342, 493-547).
-/

namespace Verif

/-- A numpy array of three dimensions holding scripts; `none` is the initial `0` of `np.zeros(…, dtype=object)`. -/
structure Arr where
  n0 : Nat
  n1 : Nat
  n2 : Nat
  get : Nat → Nat → Nat → Option Script

namespace Arr

/-- Entries in the order of numpy: last index fastest. -/
def flat (r : Arr) : List (Option Script) :=
  (List.range r.n0).flatMap fun i => (List.range r.n1).flatMap fun j => (List.range r.n2).map fun k => r.get i j k

/-- `np.zeros(shape, dtype=object)` (`script.py` line 525). -/
def zeros (n0 n1 n2 : Nat) : Arr := ⟨n0, n1, n2, fun _ _ _ => none⟩

/-- `result[i, j, k] = s` (`script.py` line 535); an index out of the shape raises `IndexError`.  A missing index is `None`
in Python, which keeps the whole dimension, of size 1: index 0 here. -/
def set (r : Arr) (i j k : Nat) (s : Script) : Except Err Arr :=
  if i < r.n0 ∧ j < r.n1 ∧ k < r.n2 then
    .ok { r with get := fun i' j' k' => if i' = i ∧ j' = j ∧ k' = k then some s else r.get i' j' k' }
  else .error .indexError

/-- `np.array([[[s]] for s in ss])` (`script.py` line 335), also `np.array([[[self]]])` (line 170). -/
def column (ss : List Script) : Arr := ⟨ss.length, 1, 1, fun i _ _ => ss[i]?⟩

/-- A function on the entries: the initial `0` is no key of `map_seq`, so that `resolve_ss` raises `KeyError` on it
(`script.py` line 508). -/
def entry (f : Script → Except Err Script) : Option Script → Except Err Script
  | some s => f s
  | none => .error .keyError

/-- `np.vectorize(f)(c)` (`script.py` line 515): `f` is called on each entry, in order. -/
def vectorize (f : Script → Except Err Script) (r : Arr) : Except Err Arr := do
  let _ ← r.flat.mapM (entry f)
  .ok { r with get := fun i j k => (entry f (r.get i j k)).toOption }

end Arr

namespace Script

/-- `(cells, tables_script, headers)`. -/
structure Tables where
  cells : List Arr
  scripts : List Script
  headers : List (List (List Script))

/-- `{s: i for i, s in enumerate(ss)}[x]` (`script.py` lines 528, 533): keys are compared by text and the last index
wins. -/
def seqIndex (ss : List Script) (x : Script) : Except Err Nat :=
  match ss.zipIdx.reverse.find? fun p => p.1.pyEq x with
  | some p => .ok p.2
  | none => .error .keyError

/-- `s.children[v]`. -/
def child (s : Script) (v : Nat) : Except Err Script :=
  match s.children[v]? with
  | some c => .ok c
  | none => .error .indexError

/-- `{s.children[v]: s for s in ss}[x]` (`script.py` lines 505-508). -/
def mapSeq (ss : List Script) (v : Nat) (x : Script) : Except Err Script :=
  match ss.reverse.find? fun s => match s.children[v]? with
    | some c => c.pyEq x
    | none => false with
  | some s => .ok s
  | none => .error .keyError

/-- The product with the role `v` replaced (`script.py` lines 510-513). -/
def withRole (s a m : Script) (v : Nat) (x : Script) : Except Err Script :=
  mkMult [some (if v = 0 then x else s), some (if v = 1 then x else a), some (if v = 2 then x else m)]

/-- The roles with several sequences, with their positions (`script.py` line 499). -/
def pluralRoles (s a m : Script) : List (Script × Nat) :=
  [(s, 0), (a, 1), (m, 2)].filter fun c => c.1.cardinal ≠ 1

/-- Position of the sequence `q` of the product in the array (`script.py` lines 531-533). -/
def cellIndex (dims : List (List Script × Nat)) (q : Script) : Except Err (List Nat) :=
  dims.mapM fun d => do seqIndex d.1 (← child q d.2)

/-- The array of a product with several plural roles (`script.py` lines 524-535); `dims` are the sequences and the
positions of the plural roles, `ss` the sequences of the product. -/
def cellArray (dims : List (List Script × Nat)) (ns : List Nat) (ss : List Script) : Except Err Arr :=
  ss.foldlM (fun r q => do
    let res ← cellIndex dims q
    r.set (res.getD 0 0) (res.getD 1 0) (res.getD 2 0) q)
    (Arr.zeros (ns.getD 0 1) (ns.getD 1 1) (ns.getD 2 1))

/-- `_compute_cells` of a product with several plural roles (`script.py` lines 518-547). -/
def productTables (s a m : Script) : Except Err Tables := do
  let plural := pluralRoles s a m
  if plural.any (fun c => c.1.cardinal > maxSizeHeader) then .error .valueError
  else do
    let dims ← plural.mapM fun c => do return ((← singularSequences c.1), c.2)
    let ss ← singularSequences (mult s a m)
    let result ← cellArray dims (plural.map fun c => c.1.cardinal) ss
    if plural.length = 3 then do
      let sss ← singularSequences s
      let ass ← singularSequences a
      let mss ← singularSequences m
      let scripts ← mss.mapM fun x => mkMult [some s, some a, some x]
      let headers ← mss.mapM fun x => do
        let h1 ← sss.mapM fun y => mkMult [some y, some a, some x]
        let h2 ← ass.mapM fun y => mkMult [some s, some y, some x]
        return [h1, h2]
      return ⟨[result], scripts, headers⟩
    else do
      let header ← plural.mapM fun c => do (← singularSequences c.1).mapM fun x => withRole s a m c.2 x
      return ⟨[result], [mult s a m], [header]⟩

/-- The recursion on the only plural role (`script.py` lines 501-516), `t` being the tables of this role. -/
def oneRoleTables (s a m : Script) (v : Nat) (t : Tables) : Except Err Tables := do
  let ss ← singularSequences (mult s a m)
  -- the dictionary of line 505 is built first
  let _ ← ss.mapM fun q => child q v
  let cells ← t.cells.mapM fun r => r.vectorize (mapSeq ss v)
  let scripts ← t.scripts.mapM (withRole s a m v)
  let headers ← t.headers.mapM fun h => h.mapM fun k => k.mapM (withRole s a m v)
  return ⟨cells, scripts, headers⟩

mutual
/-- `_build_tables` and `_compute_cells` (`script.py` lines 168-176, 328-342, 497-547). -/
def tables : Script → Except Err Tables
  | null l => .ok ⟨[Arr.column [null l]], [null l], []⟩
  | prim p => .ok ⟨[Arr.column [prim p]], [prim p], []⟩
  | mult s a m =>
    if (mult s a m).cardinal = 1 then .ok ⟨[Arr.column [mult s a m]], [mult s a m], []⟩
    else
      match pluralRoles s a m with
      | [c] => do
        let t ← (if c.2 = 0 then tables s else if c.2 = 1 then tables a else tables m : Except Err Tables)
        oneRoleTables s a m c.2 t
      | _ => productTables s a m
  | add cs =>
    if (add cs).cardinal = 1 then .ok ⟨[Arr.column [add cs]], [add cs], []⟩
    else if cs.any fun c => !c.paradigm then do
      let ss ← singularSequences (add cs)
      return ⟨[Arr.column ss], [add cs], [[[add cs]]]⟩
    else do
      let ts ← tablesL cs
      return ⟨ts.flatMap Tables.cells, ts.flatMap Tables.scripts, ts.flatMap Tables.headers⟩
/-- The tables of each child. -/
def tablesL : List Script → Except Err (List Tables)
  | [] => .ok []
  | c :: cs => do
    let t ← tables c
    let ts ← tablesL cs
    return t :: ts
end

end Script
end Verif
