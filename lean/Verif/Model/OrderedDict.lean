import Verif.Model.Py

/-
Model of `LastUpdatedOrderedDict` (`ieml/commons.py` lines 27-32), a subclass of `collections.OrderedDict`.  An ordered
dictionary is the list of its items in iteration order.
-/

namespace Verif

/-- Items in iteration order. -/
abbrev OD (κ ν : Type) := List (κ × ν)

namespace OD
variable {κ ν : Type} [DecidableEq κ]

/-- `key in self`. -/
def has (d : OD κ ν) (k : κ) : Bool := d.any fun p => p.1 = k

/-- `del self[key]` of `OrderedDict`: `KeyError` when the key is missing. -/
def del (d : OD κ ν) (k : κ) : Except Err (OD κ ν) :=
  if d.has k then .ok (d.filter fun p => p.1 ≠ k) else .error .keyError

/-- `OrderedDict.__setitem__`: the value of a present key is replaced in place, a new key goes to the end. -/
def baseSet (d : OD κ ν) (k : κ) (v : ν) : OD κ ν :=
  if d.has k then d.map fun p => if p.1 = k then (k, v) else p else d ++ [(k, v)]

/-- `LastUpdatedOrderedDict.__setitem__` (`commons.py` lines 29-32). -/
def set (d : OD κ ν) (k : κ) (v : ν) : Except Err (OD κ ν) := do
  let d ← (if d.has k then d.del k else .ok d : Except Err (OD κ ν))
  return d.baseSet k v

/-- `self[key]`. -/
def get (d : OD κ ν) (k : κ) : Except Err ν :=
  match d.find? fun p => p.1 = k with
  | some p => .ok p.2
  | none => .error .keyError

/-- The operations of a client: assignments and deletions. -/
inductive Op (κ ν : Type) where
  | assign (k : κ) (v : ν)
  | delete (k : κ)

/-- Effect of one operation. -/
def step (d : OD κ ν) : Op κ ν → Except Err (OD κ ν)
  | .assign k v => d.set k v
  | .delete k => d.del k

/-- A run from the empty dictionary; stops at the first exception. -/
def run (ops : List (Op κ ν)) : Except Err (OD κ ν) := ops.foldlM step []

end OD
end Verif
