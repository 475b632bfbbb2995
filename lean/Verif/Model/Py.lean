/-
Small stock of Python notions used by every part of the model.

* Python `str` values are lists of characters, `bytes` values are lists of naturals.
* A function that may raise returns `Except Err α`; `Err` enumerates the exception classes that matter.
-/

namespace Verif

/-- Python strings, as sequences of code points. -/
abbrev Str := List Char

/-- `c!"abc"` is the list of characters `['a', 'b', 'c']` (expanded at elaboration time, so that the kernel can compute
with it). -/
macro "c!" s:str : term => do
  let cs : Array (Lean.TSyntax `term) := s.getString.toList.toArray.map fun c => Lean.Syntax.mkCharLit c
  `(([ $cs,* ] : List Char))

/-- Exception classes raised by the modelled code (`ieml/exceptions.py` and Python built-ins). -/
inductive Err where
  /-- `ieml.exceptions.InvalidScript` -/
  | invalidScript
  /-- `ieml.exceptions.InvalidScriptCharacter` (a subclass of `InvalidScript`) -/
  | invalidScriptCharacter
  /-- `ieml.exceptions.IncompatiblesScriptsLayers` (a subclass of `InvalidScript`) -/
  | incompatibleLayers
  /-- `ieml.exceptions.TooManySingularSequences` (not a subclass of `InvalidScript`) -/
  | tooMany
  /-- `ieml.exceptions.CannotParse` -/
  | cannotParse
  /-- built-in `IndexError` -/
  | indexError
  /-- built-in `KeyError` -/
  | keyError
  /-- built-in `ValueError` -/
  | valueError
  /-- built-in `TypeError` -/
  | typeError
  /-- built-in `AttributeError` -/
  | attributeError
  /-- built-in `NameError` / `UnboundLocalError` -/
  | nameError
  /-- built-in `AssertionError` -/
  | assertionError
  /-- `csv.Error` -/
  | csvError
  /-- built-in `OSError` (`FileNotFoundError`) -/
  | osError
  /-- `pygit2.GitError` -/
  | gitError
  /-- built-in `NotImplementedError` -/
  | notImplemented
  /-- Not an exception of the code: the code goes on in a way that is not modelled. -/
  | unmodelled
  deriving DecidableEq, Repr

/-- `isinstance(e, InvalidScript)` (`ieml/exceptions.py` lines 48-87). -/
def Err.isInvalidScript : Err → Bool
  | .invalidScript | .invalidScriptCharacter | .incompatibleLayers => true
  | _ => false

instance {ε α : Type} [DecidableEq ε] [DecidableEq α] : DecidableEq (Except ε α) := fun a b =>
  match a, b with
  | .ok x, .ok y => if h : x = y then isTrue (by rw [h]) else isFalse (by intro h'; cases h'; exact h rfl)
  | .error x, .error y => if h : x = y then isTrue (by rw [h]) else isFalse (by intro h'; cases h'; exact h rfl)
  | .ok _, .error _ => isFalse (by intro h; cases h)
  | .error _, .ok _ => isFalse (by intro h; cases h)

/-- Insert `x` in a list, in front of the first element that is not smaller than it. -/
def insertBy {α : Type} (lt : α → α → Bool) (x : α) : List α → List α
  | [] => [x]
  | y :: ys => if lt y x then y :: insertBy lt x ys else x :: y :: ys

/-- Python `sorted(l)` / `l.sort()`: a stable sort driven by `<` (`lt`).  Python uses timsort; every stable sort gives
the same result when `lt` is a strict weak order, which we prove for the orders concerned. -/
def pySort {α : Type} (lt : α → α → Bool) : List α → List α
  | [] => []
  | x :: xs => insertBy lt x (pySort lt xs)

/-- Keep the first element of every class of elements having the same `key`: the elements of a Python `set` built from
the list, for objects whose `__eq__` and `__hash__` are those of `key`. -/
def dedupBy {α κ : Type} [DecidableEq κ] (key : α → κ) : List α → List α
  | [] => []
  | x :: xs => x :: (dedupBy key xs).filter (fun y => key y ≠ key x)

/-- Python comparison of `bytes` (and of tuples/lists of integers): lexicographic, a strict prefix is smaller. -/
def ltBytes : List Nat → List Nat → Bool
  | _, [] => false
  | [], _ :: _ => true
  | a :: as, b :: bs => if a = b then ltBytes as bs else decide (a < b)

end Verif
