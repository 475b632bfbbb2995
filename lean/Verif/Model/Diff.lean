import Verif.Model.Git

/-
Model of `GitInterface.diff` (`git_interface.py` lines 401-429): the difference of two commits, file by file.

The algorithm of libgit2 that compares two texts is any function; what it has to satisfy is in `Verif.Spec.Diff`.  Binary files, file
modes and the marks of a missing line end are not represented.
-/

namespace Verif

/-- The numbers of a line of a hunk: `old_lineno = -1` for an added line, `new_lineno = -1` for a deleted one (lines 416-419). -/
inductive LineTag where
  | context | added | deleted
  deriving DecidableEq, Repr

/-- A line of a hunk: `l.content`, with its end, and its tag. -/
structure DiffLine where
  tag : LineTag
  content : Str
  deriving DecidableEq, Repr

/-- The entry of one file in the result (lines 420-427). -/
structure FileDiff where
  ieml : Str
  added : List Str
  deleted : List Str
  isNew : Bool
  isRemoved : Bool
  deriving DecidableEq, Repr

/-- `content.split('"')[1]` (line 422). -/
def secondPart (l : Str) : Except Err Str :=
  match l.dropWhile fun c => c ≠ '"' with
  | [] => .error .indexError
  | _ :: r => .ok (r.takeWhile fun c => c ≠ '"')

/-- The body of the loop over the patches (lines 406-427): `old` and `new` are the contents in the two commits. -/
def diffFile (hunks : Str → Str → List (List DiffLine)) (old new : Option Str) : Except Err (Option FileDiff) :=
  let ls := (hunks (old.getD []) (new.getD [])).flatten
  match ls.getLast? with
  | none => .ok none
  | some l => do
    let k ← secondPart l.content
    return some
      { ieml := k
        added := (ls.filter fun l => l.tag = .added).map (·.content)
        deleted := (ls.filter fun l => l.tag = .deleted).map (·.content)
        isNew := old.isNone
        isRemoved := new.isNone }

/-- The loop over the files that are not the same in the two commits, in the order of their paths. -/
def diffFiles (hunks : Str → Str → List (List DiffLine)) (a b : FS) : List Str → Except Err (List (Str × FileDiff))
  | [] => .ok []
  | p :: ps =>
    if change (fsGet a p) (fsGet b p) = .same then diffFiles hunks a b ps
    else do
      let d ← diffFile hunks (fsGet a p) (fsGet b p)
      let r ← diffFiles hunks a b ps
      return match d with
        | some d => (p, d) :: r
        | none => r

/-- `GitInterface.diff(commit0, commit1)` (lines 401-429).  `revparse_single` raises `KeyError` for an unknown commit. -/
def Repo.diff (r : Repo) (hunks : Str → Str → List (List DiffLine)) (c0 c1 : Nat) : Except Err (List (Str × FileDiff)) :=
  match r.commits[c0]?, r.commits[c1]? with
  | some k0, some k1 => diffFiles hunks k0.tree k1.tree (pySort ltStr (dedupBy id ((k0.tree ++ k1.tree).map (·.1))))
  | _, _ => .error .keyError

end Verif
