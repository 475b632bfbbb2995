import Verif.Model.Index

/-
Model of the parts of `ieml/tools.py` that do not need the modules of the library that do not exist any more
(`ieml.lexicon`): `_loop_result`, `_build_graph_object`, `from_type` and `list_bucket`.  The outcomes of the calls and the draws
of `random` are parameters.  (Since Python 3.11 `random.sample` refuses sets: the model is the behaviour before.)
-/

namespace Verif

/-- The exceptions met in `_loop_result`, with their text. -/
inductive GenErr where
  /-- `InvalidIEMLObjectArgument` -/
  | invalid (msg : Str)
  /-- `CantGenerateElement` -/
  | cant (msg : Str)
  /-- another exception -/
  | other (e : Err)
  deriving DecidableEq

/-- `_loop_result` (`tools.py` lines 22-36): `call i` is the outcome of the `i`-th call, `ex` the text of the last
exception. -/
def loopResult {α : Type} (call : Nat → Except GenErr α) : Nat → Nat → Str → Except GenErr α
  | 0, _, ex => .error (.cant ex)
  | n + 1, i, ex => match call i with
    | .ok v => .ok v
    | .error (.invalid m) => loopResult call n (i + 1) m
    | .error e => .error e

/-- The decorated function: before the first call `ex` is `None` (`tools.py` line 26). -/
def withRetries {α : Type} (maxTry : Nat) (call : Nat → Except GenErr α) : Except GenErr α := loopResult call maxTry 0 (c!"None")

/-- The variables `nodes`, `modes` and `result` of `_build_graph_object` (`tools.py` lines 94-100).  The sets are lists in the order
of insertion. -/
structure GraphState (α : Type) where
  nodes : List α
  modes : List α
  result : List (α × α × α)

/-- One attempt (`tools.py` lines 104-112): the place of the node drawn, and the two elements drawn.  `none` for `continue`. -/
def tryDraw {α : Type} [DecidableEq α] (st : GraphState α) (d : Nat × α × α) : Option (GraphState α) :=
  match st.nodes[d.1 % st.nodes.length]? with
  | none => none  -- not reached: there is always a node
  | some s =>
    if d.2.1 ∈ st.nodes ∨ d.2.2 ∈ st.nodes ∨ d.2.1 ∈ st.modes then none
    else some ⟨st.nodes ++ [d.2.1], st.modes ++ [d.2.2], st.result ++ [(s, d.2.1, d.2.2)]⟩

/-- The loop `while True` (`tools.py` lines 103-112): `none` when the draws are exhausted before an attempt succeeds. -/
def oneRound {α : Type} [DecidableEq α] (st : GraphState α) : List (Nat × α × α) → Option (GraphState α × List (Nat × α × α))
  | [] => none
  | d :: ds => match tryDraw st d with
    | some st' => some (st', ds)
    | none => oneRound st ds

/-- The loop over the rounds (`tools.py` line 102). -/
def roundsOf {α : Type} [DecidableEq α] : Nat → GraphState α → List (Nat × α × α) → Option (GraphState α)
  | 0, st, _ => some st
  | n + 1, st, ds => match oneRound st ds with
    | none => none
    | some (st', ds') => roundsOf n st' ds'

/-- `_build_graph_object` (`tools.py` lines 93-113): `n` is the number drawn between 2 and `max_nodes`, `first` the first element
drawn.  `none`: still running after these draws. -/
def buildGraph {α : Type} [DecidableEq α] (first : α) (maxNodes n : Nat) (draws : List (Nat × α × α)) :
    Except Err (Option (List (α × α × α))) :=
  if maxNodes < 2 then .error .valueError
  else .ok ((roundsOf n ⟨[first], [], []⟩ draws).map (·.result))

/-- The classes of objects; in the module `Word` is the name of one class (the last import). -/
inductive GenKind where
  | word | fact | theory | text | unknown
  deriving DecidableEq

/-- The methods of the generator. -/
inductive GenMethod where
  | word | topic | fact | theory | text
  deriving DecidableEq

/-- The pairs of the literal `type_to_method` (`tools.py` lines 51-57). -/
def typeToMethod : List (GenKind × GenMethod) :=
  [(.word, .word), (.word, .topic), (.fact, .fact), (.theory, .theory), (.text, .text)]

/-- `from_type` (`tools.py` lines 133-137): in a literal the last pair of a key wins; `KeyError` of the method is taken for an
unknown class. -/
def fromType {α : Type} (call : GenMethod → Except Err α) (k : GenKind) : Except Err α :=
  match (typeToMethod.reverse.find? fun p => decide (p.1 = k)) with
  | none => .error .valueError
  | some p => match call p.2 with
    | .error .keyError => .error .valueError
    | r => r

/-- An element of the answer: its tag and the tag and text of its children. -/
structure BucketNode where
  tag : Str
  fields : List (Str × Str)
  deriving DecidableEq

/-- The namespace of the tags (`tools.py` lines 143-149). -/
def s3 (t : Str) : Str := c!"{http://s3.amazonaws.com/doc/2006-03-01/}" ++ t

/-- `t[k]` for the dictionary of the children (`tools.py` line 142): the last child of a tag wins. -/
def bucketField (b : BucketNode) (k : Str) : Except Err Str :=
  match b.fields.reverse.find? fun p => decide (p.1 = k) with
  | none => .error .keyError
  | some p => .ok p.2

/-- `list_bucket` (`tools.py` lines 140-149) after the download and the reading of the XML; every child has a text. -/
def listBucket (nodes : List BucketNode) : Except Err (List Str) := do
  let dated ← (nodes.filter fun b => decide (b.tag = s3 (c!"Contents"))).mapM fun b => do
    return (← bucketField b (s3 (c!"LastModified")), b)
  (pySort (fun a b => ltStr b.1 a.1) dated).mapM fun p => bucketField p.2 (s3 (c!"Key"))

end Verif
