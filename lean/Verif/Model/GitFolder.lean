import Verif.Model.Git

/-
Model of the rest of `GitInterface` (`ieml/ieml_database/git_interface.py`): opening a folder, branches, remotes and `push`.

The commits of all repositories are those of one list, as identifiers depend on contents only; a server is known by its address and
holds branches.  The folder of the cache, the callbacks, the credentials beyond their presence and the network are not represented.
-/

namespace Verif

/-- A folder with a repository: `repo.head` is the commit of the current branch; the other local branches. -/
structure Folder where
  repo : Repo
  current : Str
  others : List (Str × Nat)
  deriving DecidableEq, Repr

/-- The commit of a local branch (`repo.lookup_reference('refs/heads/' + b)`, line 175), if there is one. -/
def Folder.branch (f : Folder) (b : Str) : Option Nat := if b = f.current then some f.repo.head else fsGet f.others b

/-- The loss that `checkout_tree` refuses: a file that is not the same in the index and in the tree, and whose content is neither that of
the index nor that of the tree. -/
def Repo.blocks (r : Repo) (t : FS) (p : Str) : Bool :=
  fsGet r.index p != fsGet t p && fsGet r.work p != fsGet r.index p && fsGet r.work p != fsGet t p

/-- `repo.checkout(ref)` (line 179) for the commit `c`: `checkout_tree`, which raises `GitError` without changing anything if it would lose
a file, then `set_head`.  Here the files that are the same in the index and in the tree have this content in the folder, as `reset` was
called before. -/
def Repo.switch (r : Repo) (c : Nat) : Except Err Repo :=
  let t := r.treeOf c
  if (t ++ r.index).any fun f => r.blocks t f.1 then .error .gitError
  else .ok { r with head := c, index := t, work := t ++ r.work.filter fun f => (fsGet t f.1).isNone && (fsGet r.index f.1).isNone }

/-- `GitInterface.checkout` (lines 169-184): what is left, and the exception.  An unknown commit is a `KeyError`. -/
def Folder.checkout (f : Folder) (branch : Option Str) (commit : Option Nat) : Folder × Option Err :=
  let f := { f with repo := f.repo.reset f.repo.head }
  let b := branch.getD f.current
  match f.branch b with
  | none => (f, some .keyError)
  | some c => match f.repo.switch c with
    | .error e => (f, some e)
    | .ok r =>
      let f : Folder := if b = f.current then { f with repo := r } else
        { repo := r, current := b, others := (f.current, f.repo.head) :: fsRemove f.others b }
      match commit with
      | none => (f, none)
      | some c => if c < f.repo.commits.length then ({ f with repo := f.repo.reset c }, none) else (f, some .keyError)

/-- A server: its default branch, and its branches. -/
structure Server where
  default : Str
  branches : List (Str × Nat)
  deriving DecidableEq, Repr

/-- `pygit2.clone_repository` (lines 187-199): the default branch is the only local branch, its files are written.  The commits are those known to
everybody.  Cloning a server without commits is not represented: `none` if the default branch does not exist. -/
def cloned (commits : List Commit) (s : Server) : Option Folder :=
  (fsGet s.branches s.default).map fun c =>
    let r : Repo := ⟨commits, c, [], []⟩
    ⟨⟨commits, c, r.treeOf c, r.treeOf c⟩, s.default, []⟩

/-- `GitInterface.__init__` (lines 107-136): a missing folder is cloned; then `checkout`. -/
def opened (existing : Option Folder) (commits : List Commit) (s : Server) (branch : Str) (commit : Option Nat) : Option (Folder × Option Err) :=
  (match existing with
    | some f => some f
    | none => cloned commits s).map fun f : Folder => f.checkout (some branch) commit

/-- `add_remote` (lines 391-398) on the names and addresses of the remotes. -/
def addRemote (remotes : List (Str × Str)) (name url : Str) : Except Err (List (Str × Str)) :=
  match fsGet remotes name with
  | some u => if u = url then .ok remotes else .error .valueError
  | none => .ok (remotes ++ [(name, url)])

/-- What a server does with a push of the commit `c` to the branch `b`: unless it is forced, the new commit must descend from the old one. -/
def Server.receive (s : Server) (r : Repo) (b : Str) (c : Nat) (force : Bool) : Except Err Server :=
  match fsGet s.branches b with
  | some old => if force || (r.reach r.commits.length c).contains old then .ok { s with branches := fsSet s.branches b c } else .error .gitError
  | none => .ok { s with branches := fsSet s.branches b c }

/-- `push` (lines 371-382): the servers after it.  The remote is looked for before the credentials are. -/
def Folder.push (f : Folder) (remotes : List (Str × Str)) (servers : List (Str × Server)) (credentials : Bool) (remote : Str) (force : Bool) :
    Except Err (List (Str × Server)) := do
  match fsGet remotes remote with
  | none => throw .keyError
  | some url =>
    if !credentials then throw .valueError
    match fsGet servers url with
    | none => throw .gitError
    | some s => do
      let s' ← s.receive f.repo f.current f.repo.head force
      return fsSet servers url s'

/-- The commits that a folder remembers for the branches of its remotes (`refs/remotes/<remote>/<branch>`). -/
abbrev Tracking := Str → Str → Option Nat

/-- `remote_.fetch(..)` (lines 214-218): a failure, here a server that does not answer, is only logged; branches that are gone are
remembered. -/
def fetched (t : Tracking) (remote : Str) (s : Option Server) : Tracking :=
  match s with
  | none => t
  | some s => fun r b => if r = remote then (fsGet s.branches b).or (t r b) else t r b

/-- `pull` with its first part (lines 203-227): the remote, the fetch and the commit of the remote branch.  `base` is the tree of the common
ancestor. -/
def Folder.pullFrom (f : Folder) (g : Merger) (base : FS) (t : Tracking) (remotes : List (Str × Str)) (servers : List (Str × Server))
    (remote : Str) : Except Err (Folder × PullTable) :=
  match fsGet remotes remote with
  | none => .error .keyError
  | some url => match fetched t remote (fsGet servers url) remote f.current with
    | none => .error .keyError
    | some target => do
      let (r, table) ← f.repo.pull g base target
      return ({ f with repo := r }, table)

/-- `get_version` (lines 388-390): the current branch and its commit. -/
def Folder.version (f : Folder) : Str × Nat := (f.current, f.repo.head)

end Verif
