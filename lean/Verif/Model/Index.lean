import Verif.Model.PolyMorpheme

/-
Model of the sort keys of USLs (`ieml/usl/__init__.py`).
-/

namespace Verif
open Script

/-- `alphanumeric` (`usl/__init__.py` line 10): the digits and ASCII letters in code point order. -/
def alphanumeric : List Char := c!"0123456789ABCDEFGHIJKLMNOPQRSTUVWXYZabcdefghijklmnopqrstuvwxyz"

/-- `characters[r]`; the index is a remainder, so that it is never out of range. -/
def digit62 (r : Nat) : Char := alphanumeric.getD r '?'

/-- `int2base(i, max)` for `i ≥ 0` (`usl/__init__.py` lines 15-22), with at most `fuel` nested calls; `'0' * n` is empty for
`n ≤ 0`, as with the truncated subtraction. -/
def int2baseF : Nat → Nat → Nat → Str
  | 0, i, max => List.replicate (max - 1) '0' ++ [digit62 (i % alphanumeric.length)]
  | fuel + 1, i, max =>
    let q := i / alphanumeric.length
    let r := i - q * alphanumeric.length
    if q ≠ 0 then int2baseF fuel q (max - 1) ++ [digit62 r]
    else List.replicate (max - 1) '0' ++ [digit62 r]

/-- `int2base(i)` (`usl/__init__.py` lines 12-22); `i` calls are always enough.  The limit of Python on the depth of calls is
not modelled (it is reached beyond 62 to the power 900). -/
def int2base (i : Int) : Except Err Str :=
  if i < 0 then .error .assertionError else .ok (int2baseF i.toNat i.toNat 30)

/-- The part of a dictionary used here: the list of its scripts; `dic.index` maps a script to its position
(`dictionary.py`, `self.index = {r: i for i, r in enumerate(self.scripts)}`: the last position wins). -/
def dicIndex (scripts : List Script) (s : Script) : Except Err Nat :=
  match (List.range scripts.length).reverse.find? fun i => (scripts.map str)[i]? == some s.str with
  | some i => .ok i
  | none => .error .keyError

/-- `_polymorph_idx` (`usl/__init__.py` lines 25-26): the sum over the constants from position `k` on. -/
def polymorphIdx (scripts : List Script) : Nat → List Script → Except Err Nat
  | _, [] => .ok 0
  | k, s :: ss => do
    let i ← dicIndex scripts s
    let rest ← polymorphIdx scripts (k + 1) ss
    return scripts.length ^ k * i + rest

/-- `get_index` of a script (`usl/__init__.py` lines 31-32). -/
def getIndexScript (scripts : List Script) (s : Script) : Except Err (Nat × Str) := do
  return (0, '0' :: (← int2base (← dicIndex scripts s)))

/-- `get_index` of a polymorpheme (`usl/__init__.py` lines 34-38). -/
def getIndexPM (scripts : List Script) (p : PM) : Except Err (Nat × Str) := do
  match p.constant, p.groups with
  | [c], [] => return (0, '0' :: (← int2base (← dicIndex scripts c)))
  | cs, _ => return (1, '1' :: (← int2base (← polymorphIdx scripts 0 cs)))

/-- Comparison of Python strings: by code points. -/
def ltStr (a b : Str) : Bool := ltBytes (a.map Char.toNat) (b.map Char.toNat)

end Verif
