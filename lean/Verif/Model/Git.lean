import Verif.Model.Database
import Verif.Model.Index

/-
Model of `ieml/ieml_database/git_interface.py`: transactions, status, reset and pull.

The git library is represented by its effect on four things: the commits (a number each, with a tree and parents), the current
branch, the index written on disk and the working tree.  Renames, ignored files, file modes, directories, remotes and the
network are not represented; a branch is always checked out.
-/

namespace Verif

/-- A commit: its tree and its parents. -/
structure Commit where
  tree : FS
  parents : List Nat
  deriving DecidableEq, Repr

/-- A repository: the commits (the identifier of a commit is its position), the commit of the current branch, the index and the
working tree. -/
structure Repo where
  commits : List Commit
  head : Nat
  index : FS
  work : FS
  deriving DecidableEq, Repr

/-- The tree of a commit. -/
def Repo.treeOf (r : Repo) (c : Nat) : FS := match r.commits[c]? with | some k => k.tree | none => []

/-- The tree of the current commit. -/
def Repo.headTree (r : Repo) : FS := r.treeOf r.head

/-- Difference of a file between two trees. -/
inductive Change where
  | same | new | deleted | modified
  deriving DecidableEq, Repr

/-- Comparison of the content of a file in two trees. -/
def change (old new : Option Str) : Change :=
  match old, new with
  | none, none => .same
  | none, some _ => .new
  | some _, none => .deleted
  | some a, some b => if a = b then .same else .modified

/-- `GitInterface.status` (`git_interface.py` lines 141-147): for every path not starting with `.` whose content is not the
same in the current commit, the index and the working tree, the index flag (commit against index) and the working tree flag
(index against working tree). -/
def Repo.status (r : Repo) : List (Str × Change × Change) :=
  (dedupBy id ((r.headTree ++ r.index ++ r.work).map (·.1))).filterMap fun p =>
    let i := change (fsGet r.headTree p) (fsGet r.index p)
    let w := change (fsGet r.index p) (fsGet r.work p)
    if startsWith p (c!".") then none
    else if i = .same ∧ w = .same then none
    else some (p, i, w)

/-- `repo.reset(commit, GIT_RESET_HARD)`: the branch and the index are those of the commit; the files of the commit and the
files of the index are those of the commit; the other files stay. -/
def Repo.resetHard (r : Repo) (c : Nat) : Repo :=
  let t := r.treeOf c
  { r with
    head := c
    index := t
    work := t ++ r.work.filter fun f => (fsGet t f.1).isNone && (fsGet r.index f.1).isNone }

/-- `GitInterface.reset` (`git_interface.py` lines 149-166). -/
def Repo.reset (r : Repo) (c : Nat) : Repo :=
  let r := r.resetHard c
  r.status.foldl (fun r e => if e.2.2 = .new then { r with work := fsRemove r.work e.1 } else r) r

/-- One step of the loop that stages the changes (`git_interface.py` lines 74-82) on the index in memory. -/
def stageOne (work index : FS) (e : Str × Change × Change) : Except Err FS :=
  match e.2.2 with
  | .new | .modified => match fsGet work e.1 with
    | some c => .ok (fsSet index e.1 c)
    | none => .error .osError
  | .deleted => match fsGet index e.1 with
    | some _ => .ok (fsRemove index e.1)
    | none => .error .osError
  | .same => .ok index

/-- Where the end of a transaction may raise on its own: before the index is written, after it is written, after the commit is
created (`git_interface.py` lines 65-92). -/
inductive Fault where
  | beforeWrite | afterWrite | afterCommit
  deriving DecidableEq, Repr

/-- `repo.create_commit(ref, .., tree, parents)` on the current branch: the first parent must be its commit. -/
def Repo.createCommit (r : Repo) (tree : FS) (parents : List Nat) : Except Err Repo :=
  if parents.head? = some r.head then
    .ok { r with commits := r.commits ++ [⟨tree, parents⟩], head := r.commits.length }
  else .error .gitError

/-- `git_transaction.__exit__` when the body raised nothing (`git_interface.py` lines 62-101). -/
def Repo.exitCommit (r : Repo) (commitId : Nat) (fault : Option Fault) : Repo × Option Err :=
  let status := r.status
  if status.isEmpty then (r, none)
  else
    let failed (r : Repo) (e : Err) : Repo × Option Err := (r.reset commitId, some e)
    match status.foldlM (stageOne r.work) r.index with
    | .error e => failed r e
    | .ok index =>
      if fault = some .beforeWrite then failed r .gitError
      else
        let r := { r with index := index }
        if fault = some .afterWrite then failed r .gitError
        else match r.createCommit index [commitId] with
          | .error e => failed r e
          | .ok r => if fault = some .afterCommit then failed r .gitError else (r, none)

/-- `with db.commit(signature, message): body` (`git_interface.py` lines 43-103).  The body is any function on the working tree
that leaves a working tree, possibly raising: this covers every sequence of file operations interrupted at any point. -/
def Repo.transaction (r : Repo) (body : FS → FS × Option Err) (fault : Option Fault) : Repo × Option Err :=
  if !r.status.isEmpty then (r, some .valueError)
  else
    let b := body r.work
    let r' := { r with work := b.1 }
    match b.2 with
    | some e => (r'.reset r.head, some e)
    | none => r'.exitCommit r.head fault

/-! ### Pull -/

/-- Commits reachable from `c` in at most `fuel` steps. -/
def Repo.reach (r : Repo) : Nat → Nat → List Nat
  | 0, c => [c]
  | fuel + 1, c => c :: (match r.commits[c]? with | some k => k.parents.flatMap (r.reach fuel) | none => [])

/-- Result of `merge_analysis`. -/
inductive Analysis where
  | upToDate | fastForward | normal
  deriving DecidableEq, Repr

/-- `repo.merge_analysis(target)` (`git_interface.py` line 229). -/
def Repo.analysis (r : Repo) (target : Nat) : Analysis :=
  if (r.reach r.commits.length r.head).contains target then .upToDate
  else if (r.reach r.commits.length target).contains r.head then .fastForward
  else .normal

/-- The part of libgit2 that is not represented: the line by line merge of two texts, which may give up, and the text with
conflict markers that is then left in the working tree. -/
structure Merger where
  merge : Option Str → Str → Str → Option Str
  markers : Option Str → Str → Str → Str

/-- Result of the merge of one file. -/
inductive Merged where
  | clean (c : Option Str)
  | conflict
  deriving DecidableEq, Repr

/-- Three way merge of one file: ancestor, local, remote. -/
def mergeFile (g : Merger) (b l t : Option Str) : Merged :=
  if l = t then .clean l
  else if b = l then .clean t
  else if b = t then .clean l
  else match l, t with
    | some l', some t' => match g.merge b l' t' with
      | some m => .clean (some m)
      | none => .conflict
    | _, _ => .conflict

/-- One conflict of the index: path, ancestor, local and remote contents. -/
structure Conflict where
  path : Str
  ancestor : Option Str
  local_ : Option Str
  remote : Option Str
  deriving DecidableEq, Repr

/-- The paths of three trees, in the order of the index. -/
def mergePaths (b l t : FS) : List Str := pySort ltStr (dedupBy id ((b ++ l ++ t).map (·.1)))

/-- `repo.index.conflicts` after `repo.merge(target)` (`git_interface.py` lines 263, 297). -/
def conflictsOf (g : Merger) (b l t : FS) : List Conflict :=
  (mergePaths b l t).filterMap fun p =>
    if mergeFile g (fsGet b p) (fsGet l p) (fsGet t p) = .conflict then
      some ⟨p, fsGet b p, fsGet l p, fsGet t p⟩ else none

/-- The entries of the index without conflict after `repo.merge(target)`. -/
def mergedIndex (g : Merger) (b l t : FS) : FS :=
  (mergePaths b l t).filterMap fun p =>
    match mergeFile g (fsGet b p) (fsGet l p) (fsGet t p) with
    | .clean (some c) => some (p, c)
    | _ => none

/-- The file left in the working tree for a conflict: markers, or the version that is not deleted. -/
def conflictFile (g : Merger) (c : Conflict) : Str :=
  match c.local_, c.remote with
  | some l, some t => g.markers c.ancestor l t
  | some l, none => l
  | none, some t => t
  | none, none => []

/-- The values of one key, by descriptor and language. -/
abbrev Values := Str → Str → List Str

/-- `Descriptors.from_csv_string(s, assert_unique_ieml=True)` (`descriptors.py` lines 108-120) and the only item of its result
(`git_interface.py` lines 313-316). -/
def uniqueDescriptor (s : Str) : Except Err (Str × Values) := do
  let rows ← fromCsv s
  match dedupBy id (rows.map (·.1)) with
  | [k] => return (k, fun d l => (rows.filter fun r => r.2.1 = l ∧ r.2.2.1 = d).map (·.2.2.2))
  | _ => throw .valueError

/-- Conflicts returned by `pull`: the table and the last key, used in the message of the commit. -/
abbrev PullTable := List (Str × Values)

/-- `conflicts[ieml] = v` -/
def PullTable.set (t : PullTable) (k : Str) (v : Values) : PullTable :=
  if t.any fun e => e.1 = k then t.map fun e => if e.1 = k then (k, v) else e else t ++ [(k, v)]

/-- One round of the loop over the conflicts (`git_interface.py` lines 297-332).  The entries of one conflict always have the
same path here, so that renaming is never reported.  `LANGUAGES` is not defined in this module: the branch of a local deletion
raises `NameError` after the remote text has been read. -/
def pullConflict (st : PullTable × Option Str) (c : Conflict) : Except Err (PullTable × Option Str) :=
  if endsWith c.path (c!".desc") then
    match c.local_ with
    | some l => do
      let (k, v) ← uniqueDescriptor l
      return (st.1.set k v, some k)
    | none => match c.remote with
      | none => .error .assertionError
      | some t => do
        let _ ← uniqueDescriptor t
        throw .nameError
  else .ok st

/-- Acceptance of the remote version (`git_interface.py` lines 334-349) on the index and the working tree. -/
def acceptRemote (st : FS × FS) (c : Conflict) : Except Err (FS × FS) :=
  match c.remote with
  | some t => .ok (fsSet st.1 c.path t, fsSet st.2 c.path t)
  | none => match fsGet st.2 c.path with
    | some _ => .ok (st.1, fsRemove st.2 c.path)
    | none => .error .osError

/-- The merging branch of `pull` (`git_interface.py` lines 241-359), `base` being the tree of the common ancestor.
`repo.merge` refuses (`GitError`) when a file changed by the merge is not clean.  The message of the commit uses `ieml`, which
is not defined when no conflict is about a descriptor file. -/
def Repo.pullMerge (r : Repo) (g : Merger) (base : FS) (target : Nat) : Except Err (Repo × PullTable) := do
  let l := r.headTree
  let t := r.treeOf target
  let dirty := (mergePaths base l t).any fun p =>
    (mergeFile g (fsGet base p) (fsGet l p) (fsGet t p) != .clean (fsGet l p)) &&
      !(fsGet r.index p == fsGet l p && fsGet r.work p == fsGet l p)
  if dirty then throw .gitError
  let conflicts := conflictsOf g base l t
  let index := mergedIndex g base l t
  let other := r.work.filter fun f => !(mergePaths base l t).contains f.1
  let kept := (r.work.filter fun f => (mergePaths base l t).contains f.1 &&
    mergeFile g (fsGet base f.1) (fsGet l f.1) (fsGet t f.1) == .clean (fsGet l f.1))
  let changed := index.filter fun f => mergeFile g (fsGet base f.1) (fsGet l f.1) (fsGet t f.1) != .clean (fsGet l f.1)
  let work := other ++ kept ++ changed ++ conflicts.map fun c => (c.path, conflictFile g c)
  if conflicts.isEmpty then
    return (← { r with index := index, work := work }.createCommit index [r.head, target], [])
  let (table, ieml) ← conflicts.foldlM pullConflict ([], none)
  let (index, work) ← conflicts.foldlM acceptRemote (index, work)
  match ieml with
  | none => throw .nameError
  | some _ => return (← { r with index := index, work := work }.createCommit index [r.head, target], table)

/-- `GitInterface.checkout(None, commit)` (`git_interface.py` lines 169-181). -/
def Repo.checkout (r : Repo) (c : Nat) : Repo := (r.reset r.head).reset c

/-- `GitInterface.pull` (`git_interface.py` lines 203-368) after the fetch, `target` being the commit of the remote branch. -/
def Repo.pull (r : Repo) (g : Merger) (base : FS) (target : Nat) : Except Err (Repo × PullTable) :=
  match r.analysis target with
  | .upToDate => .ok (r, [])
  | .fastForward => .ok (r.checkout target, [])
  | .normal => r.pullMerge g base target

end Verif
