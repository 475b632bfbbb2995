import Verif.Model.Git

/-
Model of the caches of `ieml/commons.py` (`FolderWatcherCache`, `cache_results_watch_files`) and of `IEMLDatabase.get_list`.

The digest is any function on texts.  A cache file holds either a value or something that `pickle.load` refuses (`none`).
Names and contents of files are texts (they are encoded in UTF-8 before the digest).
-/

namespace Verif

/-- What is cached: the name of the cache, the watched paths (the glob pattern), the digest, the truth value of the results and
the function. -/
structure Cached (V : Type) where
  name : Str
  watch : Str → Bool
  md5 : Str → Str
  truth : V → Bool
  compute : FS → Except Err V

/-- The folder of the cache: names and contents. -/
abbrev CacheDir (V : Type) := List (Str × Option V)

variable {V : Type}

/-- `FolderWatcherCache.files` (`commons.py` line 98) with their contents: the watched files sorted by path. -/
def Cached.files (c : Cached V) (db : FS) : FS := pySort (fun f g => ltStr f.1 g.1) (db.filter fun f => c.watch f.1)

/-- The text of which the digest is taken (`commons.py` lines 139-142). -/
def keyOf (files : FS) : Str := files.flatMap fun f => f.1 ++ c!":" ++ f.2

/-- Beginning of the names of the cache files (`commons.py` lines 144, 152). -/
def Cached.pre (c : Cached V) : Str := c!"." ++ c.name ++ c!"-cache."

/-- `cache_file` (`commons.py` lines 134-144), relative to the cache folder. -/
def Cached.file (c : Cached V) (db : FS) : Str := c.pre ++ c.md5 (keyOf (c.files db))

/-- `_cache_candidates` (`commons.py` lines 146-152), in the order of `os.listdir`. -/
def Cached.candidates (c : Cached V) (dir : CacheDir V) : List Str := (dir.map (·.1)).filter fun n => startsWith n c.pre

/-- `is_pruned` (`commons.py` lines 123-132). -/
def Cached.isPruned (c : Cached V) (db : FS) (dir : CacheDir V) : Bool :=
  match c.candidates dir with
  | [n] => n != c.file db
  | _ => true

/-- `get` (`commons.py` lines 115-121): `none` when it raises. -/
def Cached.get (c : Cached V) (db : FS) (dir : CacheDir V) : Option V := (fsGet dir (c.file db)).join

/-- The removals of `update` (`commons.py` lines 109-110), the first `n` of them. -/
def Cached.clear (c : Cached V) (dir : CacheDir V) (n : Nat) : CacheDir V :=
  ((c.candidates dir).take n).foldl fsRemove dir

/-- `update` (`commons.py` lines 102-113). -/
def Cached.update (c : Cached V) (db : FS) (dir : CacheDir V) (v : V) : CacheDir V :=
  fsSet (c.clear dir (c.candidates dir).length) (c.file db) (some v)

/-- Where the process may be interrupted during `update`: after `n` removals, or while the file is written (`pickle.load` then
refuses the file). -/
inductive Crash where
  | removing (n : Nat)
  | writing
  deriving DecidableEq, Repr

/-- The cache folder left by an interrupted `update`. -/
def Cached.interrupted (c : Cached V) (db : FS) (dir : CacheDir V) : Crash → CacheDir V
  | .removing n => c.clear dir n
  | .writing => fsSet (c.clear dir (c.candidates dir).length) (c.file db) none

/-- The value found in the cache (`commons.py` lines 177-192): a false value is not used. -/
def Cached.lookup (c : Cached V) (db : FS) (dir : CacheDir V) : Option V :=
  if c.isPruned db dir then none
  else match c.get db dir with
    | some v => if c.truth v then some v else none
    | none => none

/-- A call of the decorated function (`commons.py` lines 169-208) with the cache in use: its result and the cache folder. -/
def Cached.call (c : Cached V) (db : FS) (dir : CacheDir V) : Except Err V × CacheDir V :=
  match c.lookup db dir with
  | some v => (.ok v, dir)
  | none => match c.compute db with
    | .error e => (.error e, dir)
    | .ok v => (.ok v, c.update db dir v)

/-- The cache folder after a call interrupted while the cache is updated; nothing is updated when the value is found. -/
def Cached.crash (c : Cached V) (db : FS) (dir : CacheDir V) (k : Crash) : CacheDir V :=
  match c.lookup db dir with
  | some _ => dir
  | none => match c.compute db with
    | .error _ => dir
    | .ok _ => c.interrupted db dir k

/-! ### The list of the expressions -/

/-- The pattern `morpheme/*/*.desc` (`ieml_database.py` line 227): two stars that match neither a separator nor a leading
point. -/
def watchedByList (p : Str) : Bool :=
  startsWith p (c!"morpheme/") &&
    (let q := p.drop 9
     let d := q.takeWhile (· != '/')
     let n := (q.dropWhile (· != '/')).drop 1
     !startsWith d (c!".") && d != [] && !startsWith n (c!".") && !n.contains '/' && endsWith n (c!".desc"))

/-- `get_list` (`ieml_database.py` lines 228-261), reduced to the descriptors that it lists: those of the keys that parse.  The
type, index and grammatical class that it computes for each key are not represented here (`Model/ListUsls.lean` has them). -/
def listDescriptors (x : Ext) (fs : FS) : Except Err (List (Str × Str × Str × Str)) := do
  let rows ← getDescriptors fs
  return rows.filter fun r => match x.parse r.1 with | .ok _ => true | .error _ => false

/-- The decorated `get_list` (`ieml_database.py` lines 226-228). -/
def listCache (x : Ext) (md5 : Str → Str) : Cached (List (Str × Str × Str × Str)) where
  name := c!"all_usls"
  watch := watchedByList
  md5 := md5
  truth l := !l.isEmpty
  compute := listDescriptors x

end Verif
