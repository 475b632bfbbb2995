import Verif.Model.Script

/-
Model of the script constructors (`ieml/dictionary/script/script.py`), of the enumeration of singular sequences, of
`in`, and of the helpers of `operator.py` / `tools.py` that only combine constructors.
-/

namespace Verif

/-- `MAX_SINGULAR_SEQUENCES` (`ieml/constants.py` line 57). -/
def maxSingularSequences : Nat := 360

/-- `MAX_SIZE_HEADER` (`ieml/constants.py` line 58). -/
def maxSizeHeader : Nat := 12

namespace Script

/-- `NullScript(layer)` (`script.py` lines 550-575): `LAYER_MARKS[layer]` raises `IndexError` beyond the seven marks. -/
def mkNull (l : Nat) : Except Err Script :=
  if l < layerMarks.length then .ok (null l) else .error .indexError

/-- Primitive having the given letter, `E` excluded. -/
def primOfChar? (c : Char) : Option Prim := Prim.all.find? fun p => p.char = c

/-- The two primitives abbreviated by a remarkable multiplication: `REMARKABLE_MULTIPLICATION_SCRIPT` (`script.py` lines
584-614). -/
def remMulOf? (ch : Str) : Option (Prim × Prim) :=
  (Prim.all.flatMap fun p => Prim.all.map fun q => (p, q)).find? fun pq => remMulName pq.1 pq.2 = ch

/-- `MultiplicativeScript(character=ch)` (`script.py` lines 361-377, 401-404). -/
def mkMultChar (ch : Str) : Except Err Script :=
  if ch = [] then .error .invalidScript       -- falsy character, no substance, no children (lines 348-349)
  else if ch = ['E'] then .error .invalidScript
  else match ch with
    | [c] =>
      match primOfChar? c with
      | some p => .ok (prim p)
      | none =>
        match remMulOf? ch with
        | some (p, q) => .ok (mult (prim p) (prim q) (null 0))
        | none => .error .invalidScriptCharacter
    | _ =>
      match remMulOf? ch with
      | some (p, q) => .ok (mult (prim p) (prim q) (null 0))
      | none => .error .invalidScriptCharacter

/-- The children before the first `None` (`script.py` lines 355-360). -/
def takeSome : List (Option Script) → List Script
  | some c :: cs => c :: takeSome cs
  | _ => []

/-- A one-term sum used as a role is replaced by its term (`script.py` lines 379-383). -/
def unwrap : Script → Script
  | add [c] => c
  | s => s

/-- An empty role is replaced by `NullScript` of its layer (`script.py` lines 386-388). -/
def fixEmpty (s : Script) : Script := if s.empty then null s.layer else s

/-- Padding to three roles (`script.py` lines 391-393). -/
def padRoles (layer : Nat) (cs : List Script) : List Script :=
  cs ++ List.replicate (3 - cs.length) (null layer)

/-- `MultiplicativeScript(children=cs)` without character (`script.py` lines 345-447).
`layer` (line 377) is the layer of the first child as given; the error order follows lines 420-434 and, for the layer
mark, line 464.  The filling `NullScript`s and the replaced empty roles have the layer of an existing script, so that
building them does not raise. -/
def mkMult (children : List (Option Script)) : Except Err Script :=
  if children = [] then .error .invalidScript
  else
    match takeSome children with
    | [] => .error .indexError
    | c :: rest =>
      let cs := padRoles c.layer (((c :: rest).map unwrap).map fixEmpty)
      match cs with
      | [s, a, m] =>
        if !(s.layer = a.layer ∧ a.layer = m.layer) then .error .invalidScript
        -- a character was found but the layer of the children is not 0 (lines 402, 429-430)
        else if (multChar? s a m).isSome ∧ s.layer ≠ 0 then .error .invalidScript
        else if (mult s a m).cardinal > maxSingularSequences then .error .tooMany
        else if s.layer + 1 < layerMarks.length then .ok (mult s a m)
        else .error .indexError
      | _ => .error .invalidScript

/-- `MultiplicativeScript(substance=s, attribute=a, mode=m)` (`script.py` lines 348-353). -/
def mkMultRoles (s a m : Option Script) : Except Err Script :=
  match s with
  | none => .error .invalidScript
  | some s => mkMult [some s, a, m]

/-- Terms of a sum after flattening one level and removing duplicates (`script.py` lines 244-263).
`c not in to_remove` compares texts. -/
def sumTerms (cs : List Script) : List Script :=
  let toRemove := cs.filter isAdd
  let toAdd := toRemove.flatMap children
  dedupBy str ((cs ++ toAdd).filter fun c => !(toRemove.any fun r => r.pyEq c))

/-- `AdditiveScript(children=cs)` (`script.py` lines 233-316). -/
def mkAdd (cs : List Script) : Except Err Script :=
  match cs with
  | [] => .error .invalidScript
  | c :: _ =>
    if cs.any (fun d => d.layer ≠ c.layer) then .error .incompatibleLayers
    else
      match sumTerms cs with
      | [] => .error .indexError          -- self.children[0] (line 281)
      | t :: ts =>
        if (add (t :: ts)).cardinal > maxSingularSequences then .error .tooMany
        else .ok (add (pySort lt (t :: ts)))

/-- `REMARKABLE_ADDITION_SCRIPT[key]` (`script.py` line 617), enumerated in one of the possible orders of the set. -/
def remAddChildren (k : RemAdd) : List Script :=
  k.letters.map fun c => match primOfChar? c with
    | some p => prim p
    | none => null 0

/-- Remarkable addition of a letter. -/
def remAddOfChar? (c : Char) : Option RemAdd := RemAdd.all.find? fun k => k.char = c

/-- `AdditiveScript(character=ch)` (`script.py` lines 241-245). -/
def mkAddChar (ch : Str) : Except Err Script :=
  match ch with
  | [c] =>
    match remAddOfChar? c with
    | some k => mkAdd (remAddChildren k)
    | none => .error .invalidScriptCharacter
  | _ => .error .invalidScriptCharacter

/-- `s + t` for two scripts (`script.py` lines 75-79). -/
def pyAdd (s t : Script) : Except Err Script := mkAdd [s, t]

/-- `itertools.product` of three lists. -/
def product3 (xs ys zs : List Script) : List (Script × Script × Script) :=
  xs.flatMap fun x => ys.flatMap fun y => zs.map fun z => (x, y, z)

mutual
/-- `s.singular_sequences` (`script.py` lines 196-201, 318-326, 472-491, 577-578).  Empty roles do not take part in the
product and stay as they are. -/
def singularSequences : Script → Except Err (List Script)
  | null l => .ok [null l]
  | prim p => .ok [prim p]
  | mult s a m =>
    if !(mult s a m).paradigm then .ok [mult s a m]
    else do
      let xs ← (if s.empty then pure [s] else singularSequences s : Except Err (List Script))
      let ys ← (if a.empty then pure [a] else singularSequences a : Except Err (List Script))
      let zs ← (if m.empty then pure [m] else singularSequences m : Except Err (List Script))
      let r ← (product3 xs ys zs).mapM fun t => mkMult [some t.1, some t.2.1, some t.2.2]
      pure (pySort lt r)
  | add cs =>
    if !(add cs).paradigm then .ok [add cs]
    else do
      let r ← singularSequencesL cs
      pure (pySort lt r)
/-- `[sequence for child in children for sequence in child.singular_sequences]`. -/
def singularSequencesL : List Script → Except Err (List Script)
  | [] => .ok []
  | c :: cs => do
    let xs ← singularSequences c
    let ys ← singularSequencesL cs
    pure (xs ++ ys)
end

/-- `item in self` (`script.py` lines 156-163): same layer and inclusion of the sets of singular sequences, compared by
text. -/
def contains (self item : Script) : Except Err Bool :=
  if item.layer ≠ self.layer then .ok false
  else do
    let xs ← item.singularSequences
    let ys ← self.singularSequences
    pure (xs.all fun x => ys.any fun y => y.pyEq x)

/-- One step of the loop of `promote` (`tools.py` lines 126-127). -/
def promoteBy : Nat → Script → Except Err Script
  | 0, s => .ok s
  | n + 1, s => do promoteBy n (← mkMult [some s])

/-- `promote(script, layer)` (`tools.py` lines 117-129): nothing happens when the layer is not higher. -/
def promote (s : Script) (l : Nat) : Except Err Script := promoteBy (l - s.layer) s

/-- `operator.add(scripts)` (`operator.py` lines 17-20); `max` of an empty sequence raises `ValueError`. -/
def addOp (ss : List Script) : Except Err Script :=
  match ss with
  | [] => .error .valueError
  | _ => do
    let l := (ss.map layer).foldl max 0
    let ts ← ss.mapM fun s => promote s l
    mkAdd ts

/-- Scripts that can be obtained with the public constructors. -/
inductive Built : Script → Prop where
  | null {l : Nat} {s : Script} : mkNull l = .ok s → Built s
  | multChar {ch : Str} {s : Script} : mkMultChar ch = .ok s → Built s
  | mult {cs : List (Option Script)} {s : Script} :
      (∀ c, some c ∈ cs → Built c) → mkMult cs = .ok s → Built s
  | addChar {ch : Str} {s : Script} : mkAddChar ch = .ok s → Built s
  | add {cs : List Script} {s : Script} : (∀ c ∈ cs, Built c) → mkAdd cs = .ok s → Built s

end Script
end Verif

namespace Verif

/-- A key of a Python dictionary or set: a script or a text. -/
inductive PyKey where
  | script (s : Script)
  | text (t : Str)

namespace PyKey

/-- `str(k)`. -/
def str : PyKey → Str
  | script s => s.str
  | text t => t

/-- `k == k'`: `Script.__eq__` (`script.py` lines 81-85) between scripts, `TreeStructure.__eq__` (`commons.py` lines
49-53) between a script and a text, which Python also uses, reflected, for a text and a script. -/
def eq : PyKey → PyKey → Bool
  | script s, script t => s.pyEq t
  | script s, text t => s.str == t
  | text t, script s => s.str == t
  | text t, text u => t == u

/-- `hash(k)` (`script.py` lines 87-89), `h` being the hash of texts. -/
def hash (h : Str → Int) : PyKey → Int
  | script s => h s.str
  | text t => h t

/-- Lookup in a dictionary: the entry with the same hash and an equal key. -/
def lookup {β : Type} (h : Str → Int) (k : PyKey) : List (PyKey × β) → Option β
  | [] => none
  | (k', v) :: d => if k'.hash h = k.hash h ∧ k'.eq k = true then some v else lookup h k d

end PyKey
end Verif
