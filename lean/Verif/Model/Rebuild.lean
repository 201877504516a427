import Verif.Model.PkgName
import Verif.Model.Version
import Verif.Model.FS

/-!
# What rebuild-db does after it has destroyed the databases, and pisi clean

pisi/op/rebuilddb.py:33-165, pisi/util/fs.py:348-354 and pisi/cli/clean.py:41-44.

The directory `package` is given by the list of its entries, in the order of `os.listdir`.
-/
namespace Pisi.Rebuild

/-- Exceptions. -/
inductive RErr where
  /-- `IndexError` of `parse_package_name` -/
  | index
  /-- `ValueError` of `Version` -/
  | value
  /-- `AttributeError` -/
  | attribute
  deriving DecidableEq

/-- The first loop of `clean_duplicates`, pisi/op/rebuilddb.py:99-112: the newest version of each name, and the directories to
be deleted. -/
def scan : List Str → Dict Str Str → List Str → Except RErr (Dict Str Str × List Str)
  | [], iv, rep => .ok (iv, rep)
  | pkg :: rest, iv, rep => match PkgName.parsePackageName pkg with
    | .error _ => .error .index
    | .ok (name, ver) => match iv.get name with
      | none => scan rest (iv.put name ver) rep
      | some old => match Version.parse ver, Version.parse old with
        | some a, some b =>
          if Version.vgt a b then scan rest (iv.put name ver) (rep ++ [name ++ '-' :: old])
          else scan rest iv (rep ++ [name ++ '-' :: ver])
        | _, _ => .error .value

/-- `clean_duplicates`, pisi/op/rebuilddb.py:98-115: the remaining directories. -/
def cleanDuplicates (dirs : List Str) : Except RErr (List Str) := match scan dirs [] [] with
  | .ok (_, rep) => .ok (dirs.filter (fun d => ¬ d ∈ rep))
  | .error e => .error e

/-- The entry `scripts`. -/
def scripts : Str := ['s', 'c', 'r', 'i', 'p', 't', 's']

/-- `reload_packages`, pisi/op/rebuilddb.py:131-136, with the packages recorded so far.  `pisi.api.resurrect_package` does not
exist: pisi/api.py:158 imports only `rebuild_db`. -/
def reloadPackages : List Str → List Str → List Str × Except RErr Unit
  | [], db => (db, .ok ())
  | fn :: rest, db => if fn = scripts then reloadPackages rest db else (db, .error .attribute)

/-- `reload_indices`, pisi/op/rebuilddb.py:138-145, with the repositories known so far; `indices` are the entries of the directory
`index`, all with a file `uri`.  `pisi.api.rebuild_repo` does not exist: pisi/api.py:153 does not import it.  (The database is new
and the entries differ, so `add_repo`, pisi/op/repo.py:33-39, does not fail.) -/
def reloadIndices : List Str → List Str → List Str × Except RErr Unit
  | [], repos => (repos, .ok ())
  | r :: _, repos => (repos ++ [r], .error .attribute)

/-- What `rebuild_db` leaves. -/
structure Rebuilt where
  /-- the packages recorded as installed -/
  packages : List Str
  /-- the repositories in the database -/
  repos : List Str
  /-- how it ended -/
  result : Except RErr Unit

/-- The last part of `rebuild_db`, pisi/op/rebuilddb.py:163-165, on new, empty databases. -/
def reconstruct (dirs indices : List Str) : Rebuilt := match cleanDuplicates dirs with
  | .error e => ⟨[], [], .error e⟩
  | .ok rest => match reloadPackages rest [] with
    | (db, .error e) => ⟨db, [], .error e⟩
    | (db, .ok ()) => ⟨db, (reloadIndices indices []).1, (reloadIndices indices []).2⟩

/-- The suffix of lock files. -/
def lockSuffix : Str := ['.', 'l', 'o', 'c', 'k']

/-- Whether `os.walk(top)` lists the entry as a file: links to directories are listed as directories and not followed. -/
def listedFile (fs : FS.FS) (top p : Str) : Bool :=
  decide (FS.Below top p) && (fs.get p).isSome && !FS.isDir fs p

/-- `clean_locks(top)`, pisi/util/fs.py:348-354.  (A directory and a link to it are not both followed, so every file is listed
once.) -/
def cleanLocks (fs : FS.FS) (top : Str) : FS.FS := fs.filter fun e => !(listedFile fs top e.1 && Path.suffix lockSuffix e.1)

/-- `pisi clean`, pisi/cli/clean.py:41-44: the directory is the current one. -/
def clean (fs : FS.FS) (cwd : Str) : FS.FS := cleanLocks fs cwd

end Pisi.Rebuild
