import Verif.Model.Py

/-
Model of `ieml/dictionary/script/script.py`: the script objects and their attributes.

A Python script object is one of
* `NullScript(layer)`                     – `Script.null layer`
* `MultiplicativeScript(character=P)`     – `Script.prim P` for the five non-empty primitives
* `MultiplicativeScript(children=…)`      – `Script.mult s a m`
* `AdditiveScript(children=…)`            – `Script.add cs`

The attributes that the Python constructors compute once and store (`layer`, `empty`, `paradigm`, `cardinal`,
`canonical`, `script_class`, `character`, `_str`) are functions of the structure here.
-/

namespace Verif

/-- The primitives that are characters of a `MultiplicativeScript` (`ieml/constants.py` lines 74-81; `E` is excluded by
`script.py` lines 363-364). -/
inductive Prim where
  | U | A | S | B | T
  deriving DecidableEq, Repr

namespace Prim

/-- Letter of a primitive (`ieml/constants.py` lines 74-81). -/
def char : Prim → Char
  | U => 'U' | A => 'A' | S => 'S' | B => 'B' | T => 'T'

/-- `character_value` (`ieml/constants.py` lines 83-91). -/
def value : Prim → Nat
  | U => 0x2 | A => 0x4 | S => 0x8 | B => 0x10 | T => 0x20

def all : List Prim := [U, A, S, B, T]

end Prim

/-- `remarkable_multiplication_lookup_table` (`ieml/constants.py` lines 93-99): the abbreviation of the product of two
primitives. -/
def remMulName : Prim → Prim → Str
  | .U, .U => c!"wo" | .U, .A => c!"wa" | .U, .S => c!"y" | .U, .B => c!"o" | .U, .T => c!"e"
  | .A, .U => c!"wu" | .A, .A => c!"we" | .A, .S => c!"u" | .A, .B => c!"a" | .A, .T => c!"i"
  | .S, .U => c!"j" | .S, .A => c!"g" | .S, .S => c!"s" | .S, .B => c!"b" | .S, .T => c!"t"
  | .B, .U => c!"h" | .B, .A => c!"c" | .B, .S => c!"k" | .B, .B => c!"m" | .B, .T => c!"n"
  | .T, .U => c!"p" | .T, .A => c!"x" | .T, .S => c!"d" | .T, .B => c!"f" | .T, .T => c!"l"

/-- The lookup table itself, with keys such as `"U:U:"` (`ieml/constants.py` lines 93-99). -/
def remMulTable : List (Str × Str) :=
  Prim.all.flatMap fun p => Prim.all.map fun q => ([p.char, ':', q.char, ':'], remMulName p q)

/-- `remarkable_multiplication_lookup_table.get(s)`. -/
def remMulLookup (s : Str) : Option Str := remMulTable.lookup s

/-- The remarkable additions `O M F I` (`ieml/constants.py` lines 101-106). -/
inductive RemAdd where
  | O | M | F | I
  deriving DecidableEq, Repr

namespace RemAdd

def char : RemAdd → Char
  | O => 'O' | M => 'M' | F => 'F' | I => 'I'

/-- `REMARKABLE_ADDITION[key]` (`ieml/constants.py` lines 101-106), as letters. -/
def letters : RemAdd → List Char
  | O => ['U', 'A']
  | M => ['S', 'B', 'T']
  | F => ['U', 'A', 'S', 'B', 'T']
  | I => ['E', 'U', 'A', 'S', 'B', 'T']

/-- Iteration order of the dictionary `REMARKABLE_ADDITION`. -/
def all : List RemAdd := [O, M, F, I]

end RemAdd

/-- Equality of two Python sets of characters given by enumerations. -/
def sameSet (a b : List Char) : Bool := a.all (b.contains ·) && b.all (a.contains ·)

/-- `LAYER_MARKS` (`ieml/constants.py` lines 64-72). -/
def layerMarks : List Char := [':', '.', '-', '\'', ',', '_', ';']

/-- `LAYER_MARKS[l]` as a one-character string.  Outside of the table Python raises `IndexError`; the constructors
below (`mkNull`, `mkMult`) check this before building a script, so the empty string is never rendered. -/
def markStr (l : Nat) : Str := layerMarks[l]?.toList

/-- Script objects (`script.py` lines 13-578). -/
inductive Script where
  | null (layer : Nat)
  | prim (p : Prim)
  | mult (s a m : Script)
  | add (cs : List Script)
  deriving Repr

namespace Script

/-- `isinstance(s, NullScript)`. -/
def isNull : Script → Bool
  | null _ => true
  | _ => false

/-- `isinstance(s, AdditiveScript)`. -/
def isAdd : Script → Bool
  | add _ => true
  | _ => false

/-- `isinstance(s, MultiplicativeScript)`. -/
def isMult : Script → Bool
  | prim _ | mult .. => true
  | _ => false

/-- `s.children` (the `NullScript` and primitive scripts have none). -/
def children : Script → List Script
  | null _ => []
  | prim _ => []
  | mult s a m => [s, a, m]
  | add cs => cs

/-- `iter(s)`: `TreeStructure.__iter__` (`ieml/commons.py` lines 35-65) and `NullScript.__iter__` (`script.py` lines
564-568).  `NULL_SCRIPTS` (line 581) has the layers 0 to 5, which suffices for a `NullScript` of layer 1 to 6. -/
def iter : Script → List Script
  | null 0 => [null 0]
  | null (l + 1) => [null l, null l, null l]
  | s => s.children

/-- `s.layer` (`script.py` lines 275-283, 402-408, 553). -/
def layer : Script → Nat
  | null l => l
  | prim _ => 0
  | mult s _ _ => s.layer + 1
  | add [] => 0
  | add (c :: _) => c.layer

/-- First letter of the text of a layer 0 child (`str(e)[0]`, `script.py` line 267) for the children of a sum, which are
primitives or empty.  Deeper scripts do not occur at layer 0. -/
def letter? : Script → Option Char
  | null _ => some 'E'
  | prim p => some p.char
  | _ => none

/-- `s.character` of an `AdditiveScript` with children `cs`: the remarkable addition having exactly these letters, at
layer 0 (`script.py` lines 265-271; the loop stops at the first match). -/
def remAdd? (cs : List Script) : Option RemAdd :=
  if (add cs).layer = 0 then
    RemAdd.all.find? fun k => sameSet (cs.filterMap letter?) k.letters
  else none

/-- `MultiplicativeScript._render_children` without character (`script.py` lines 449-461), for three roles given as
(text, empty) pairs: trailing empty roles are elided, the first one is always kept. -/
def renderRoles (s a m : Str × Bool) : Str :=
  -- iteration i = 0 on the mode
  let (r0, e0) := if !m.2 then (m.1, false) else ([], true)
  -- iteration i = 1 on the attribute
  let e1 := if !a.2 then false else e0
  let r1 := if !e1 || !a.2 then a.1 ++ r0 else r0
  -- iteration i = 2 on the substance, always rendered
  s.1 ++ r1

/-- Text of a sum without character: `'+'.join(…)` (`script.py` line 303). -/
def joinPlus : List Str → Str
  | [] => []
  | [s] => s
  | s :: t :: ts => s ++ '+' :: joinPlus (t :: ts)

/-- `NullScript._do_precompute_str` (`script.py` lines 570-575). -/
def nullStr (l : Nat) : Str := 'E' :: (List.range (l + 1)).flatMap markStr

mutual
/-- `s.empty` (`script.py` lines 277, 282, 405, 408, 555). -/
def empty : Script → Bool
  | null _ => true
  | prim _ => false
  | mult s a m =>
    match remMulLookup (renderRoles (s.str, s.empty) (a.str, a.empty) (m.str, m.empty)) with
    | some _ => false
    | none => s.empty && a.empty && m.empty
  | add cs =>
    match remAdd? cs with
    | some _ => false
    | none => emptyL cs
/-- `all(e.empty for e in children)`. -/
def emptyL : List Script → Bool
  | [] => true
  | c :: cs => c.empty && emptyL cs

/-- `s._str` (`script.py` lines 300-303, 463-464, 570-575). -/
def str : Script → Str
  | null l => nullStr l
  | prim p => [p.char] ++ markStr 0
  | mult s a m =>
    let raw := renderRoles (s.str, s.empty) (a.str, a.empty) (m.str, m.empty)
    (match remMulLookup raw with
      | some ch => ch
      | none => raw) ++ markStr (s.layer + 1)
  | add cs =>
    match remAdd? cs with
    | some k => [k.char] ++ markStr 0
    | none => joinPlus (strL cs)
/-- `[str(c) for c in children]`. -/
def strL : List Script → List Str
  | [] => []
  | c :: cs => c.str :: strL cs
end

/-- Text of the roles of a product before abbreviation (`_str_children`, `script.py` line 395). -/
def rawMult (s a m : Script) : Str :=
  renderRoles (s.str, s.empty) (a.str, a.empty) (m.str, m.empty)

/-- `character` of `MultiplicativeScript(children=[s, a, m])` (`script.py` lines 394-397). -/
def multChar? (s a m : Script) : Option Str := remMulLookup (rawMult s a m)

mutual
/-- `s.paradigm` (`script.py` lines 278, 283, 403, 409, 554). -/
def paradigm : Script → Bool
  | null _ => false
  | prim _ => false
  | mult s a m =>
    match multChar? s a m with
    | some _ => false
    | none => s.paradigm || a.paradigm || m.paradigm
  | add cs =>
    match remAdd? cs with
    | some _ => true
    | none => decide (cs.length > 1) || paradigmL cs
/-- `any(child.paradigm for child in children)`. -/
def paradigmL : List Script → Bool
  | [] => false
  | c :: cs => c.paradigm || paradigmL cs
end

mutual
/-- `s.cardinal` (`script.py` lines 279, 284, 404, 411-413, 556). -/
def cardinal : Script → Nat
  | null _ => 1
  | prim _ => 1
  | mult s a m =>
    match multChar? s a m with
    | some _ => 1
    | none => 1 * s.cardinal * a.cardinal * m.cardinal
  | add cs =>
    match remAdd? cs with
    | some k => k.letters.length
    | none => cardinalL cs
/-- `sum(e.cardinal for e in children)`. -/
def cardinalL : List Script → Nat
  | [] => 0
  | c :: cs => c.cardinal + cardinalL cs
end

/-- `character_value[child.character]` for a layer 0 child of a sum (`script.py` line 312). -/
def charValue : Script → Nat
  | prim p => p.value
  | _ => 0x1

mutual
/-- `s.canonical` (`script.py` lines 305-316, 466-470, 559). -/
def canonical : Script → List Nat
  | null l => List.replicate (3 ^ l) 0x1
  | prim p => [p.value]
  | mult s a m => s.canonical ++ a.canonical ++ m.canonical
  | add cs =>
    if (add cs).layer = 0 then [cs.foldl (fun v c => v ||| c.charValue) 0]
    else canonicalL cs
/-- `b''.join(child.canonical for child in self)`. -/
def canonicalL : List Script → List Nat
  | [] => []
  | c :: cs => c.canonical ++ canonicalL cs
end

/-- `AUXILIARY_CLASS`, `VERB_CLASS`, `NOUN_CLASS` = 0, 1, 2 (`ieml/constants.py`); the maximum over the children of a
sum starts from the smallest class (a sum has at least one child). -/
def auxiliaryClass : Nat := 0
@[inherit_doc auxiliaryClass] def verbClass : Nat := 1
@[inherit_doc auxiliaryClass] def nounClass : Nat := 2

mutual
/-- `s.script_class` (`script.py` lines 291, 415-418, 560). -/
def scriptClass : Script → Nat
  | null _ => auxiliaryClass
  | prim p => if p = .U ∨ p = .A then verbClass else nounClass
  | mult s _ _ => s.scriptClass
  | add cs => scriptClassL cs
/-- `max(c.script_class for c in self)`. -/
def scriptClassL : List Script → Nat
  | [] => 0
  | c :: cs => max c.scriptClass (scriptClassL cs)
end

/-- `self == other` for scripts (`script.py` lines 81-85). -/
def pyEq (s t : Script) : Bool := s.str == t.str

/-- Character value of a layer 0 script in the last stage of `__lt__` (`script.py` lines 136-149). -/
def layer0Value : Script → Nat
  | add cs => (cs.map charValue).sum
  | s => s.charValue

/-- The stages of `__lt__` before the comparison of children (`script.py` lines 94-117 and 135-151); `tie` is the
result of the comparison of children (lines 118-134), used when layer, cardinal and canonical form agree. -/
def ltStages (x y : Script) (tie : Bool) : Bool :=
  if x.pyEq y then false
  else if x.layer ≠ y.layer then decide (x.layer < y.layer)
  else if x.isNull then true
  else if y.isNull then false
  else if x.cardinal ≠ y.cardinal then decide (x.cardinal < y.cardinal)
  else if x.canonical ≠ y.canonical then ltBytes x.canonical y.canonical
  else if x.layer ≠ 0 then tie
  else decide (x.layer0Value < y.layer0Value)

mutual
/-- `self < other` (`script.py` lines 91-151).  Two different classes: the multiplicative one is smaller. -/
def lt : Script → Script → Bool
  | null l, y => ltStages (null l) y (null l).isMult
  | prim p, y => ltStages (prim p) y (prim p).isMult
  | mult s a m, y => ltStages (mult s a m) y <|
      match y with
      | mult s' a' m' =>
        if !(s'.pyEq s) then lt s s'
        else if !(a'.pyEq a) then lt a a'
        else if !(m'.pyEq m) then lt m m'
        else true
      | _ => true
  | add cs, y => ltStages (add cs) y <|
      match y with
      | add cs' => ltL cs cs'
      | _ => false
/-- Comparison of the children in order (`script.py` lines 120-129). -/
def ltL : List Script → List Script → Bool
  | [], _ => true
  | _ :: _, [] => false
  | s :: ss, o :: os => if !(o.pyEq s) then lt s o else ltL ss os
end

end Script
end Verif
