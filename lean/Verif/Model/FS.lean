import Verif.Model.Dict
import Verif.Model.Path

/-!
# The file system as the file operations of pisi see it

A file system maps absolute, normalised path names to nodes.  Symbolic links are followed in the last component only (no
path leads through a symbolic link to a directory), their targets are given as absolute paths.  Permissions, owners, times and
hard links are not modelled, nor are errors of the medium (no space, no permission).
-/
namespace Pisi.FS

inductive Node where
  | file (content : Str)
  | link (target : Str)
  | dir
  deriving DecidableEq

/-- Path → node. -/
abbrev FS := Dict Str Node

inductive FErr where
  /-- `OSError` / `IOError` -/
  | os
  /-- `AssertionError` -/
  | assertion
  /-- `TypeError` -/
  | typeErr
  /-- `pisi.util.FileError` -/
  | file
  /-- a loop of the code would not end -/
  | loop
  /-- `pisi.fetcher.FetchError` -/
  | fetch
  /-- `NameError` -/
  | nameErr
  /-- another `pisi.Error` -/
  | pisi
  /-- another exception of a library -/
  | other
  deriving DecidableEq

/-- `os.stat`: follows links, at most 40 of them. -/
def statN : Nat → FS → Str → Option Node
  | n, fs, p => match fs.get p with
    | some (.link t) => match n with
      | 0 => none
      | n + 1 => statN n fs t
    | x => x

def stat (fs : FS) (p : Str) : Option Node := statN 40 fs p

/-- `os.path.exists`, `os.access(p, F_OK)` -/
def existsP (fs : FS) (p : Str) : Bool := (stat fs p).isSome
/-- `os.path.isfile` -/
def isFile (fs : FS) (p : Str) : Bool := match stat fs p with
  | some (.file _) => true
  | _ => false
/-- `os.path.islink` -/
def isLink (fs : FS) (p : Str) : Bool := match fs.get p with
  | some (.link _) => true
  | _ => false
/-- `os.path.isdir` -/
def isDir (fs : FS) (p : Str) : Bool := match stat fs p with
  | some .dir => true
  | _ => false

/-- `sha1_file`, pisi/util/fs.py:193-203; `none` is `FileError`.  `sha` is the hash function. -/
def sha1File (sha : Str → Str) (fs : FS) (p : Str) : Option Str := match stat fs p with
  | some (.file c) => some (sha c)
  | _ => none

/-- `os.path.dirname` (posixpath) -/
def dirname (p : Str) : Str :=
  let head := (p.reverse.dropWhile (· ≠ '/')).reverse
  if head.all (· = '/') then head else Path.rstrip (· = '/') head

/-- `not os.listdir(d)`; `OSError` when `d` is no directory. -/
def listdirEmpty (fs : FS) (d : Str) : Except FErr Bool :=
  if isDir fs d then .ok (fs.keys.all (fun k => k = d || dirname k ≠ d)) else .error .os

/-- `os.unlink` -/
def unlink (fs : FS) (p : Str) : Except FErr FS := match fs.get p with
  | some (.file _) => .ok (fs.del p)
  | some (.link _) => .ok (fs.del p)
  | _ => .error .os

/-- `os.rmdir` -/
def rmdir (fs : FS) (p : Str) : Except FErr FS := match fs.get p with
  | some .dir => match listdirEmpty fs p with
    | .ok true => .ok (fs.del p)
    | .ok false => .error .os
    | .error e => .error e
  | _ => .error .os

/-- `os.rename` of a file or link. -/
def rename (fs : FS) (a b : Str) : Except FErr FS := match fs.get a with
  | some .dir => .error .os
  | none => .error .os
  | some n => if fs.get b = some .dir then .error .os else .ok ((fs.del a).put b n)

/-- A computation on the file system: the states it goes through, and its result. -/
abbrev Tr (β : Type) := List FS × Except FErr β

/-- Sequencing. -/
def Tr.bind {β γ : Type} (x : Tr β) (f : β → Tr γ) : Tr γ := match x.2 with
  | .ok b => (x.1 ++ (f b).1, (f b).2)
  | .error e => (x.1, .error e)

/-- An atomic operation. -/
def Tr.atomic (r : Except FErr FS) : Tr FS := match r with
  | .ok fs => ([fs], .ok fs)
  | .error e => ([], .error e)

/-- `open(p, 'wb')`, writing and closing; the content may be cut off anywhere by a crash. -/
def writeFile (fs : FS) (p c : Str) : Tr FS :=
  let go : Tr FS := ((List.range (c.length + 1)).map (fun k => fs.put p (.file (c.take k))), .ok (fs.put p (.file c)))
  if isDir fs (dirname p) then
    match fs.get p with
    | none => go
    | some (.file _) => go
    | _ => ([], .error .os)
  else ([], .error .os)

/-- The directories on the way to a path, and the path itself. -/
def prefixes : Str → Str → List Str
  | acc, [] => [acc]
  | acc, c :: r => if c = '/' ∧ acc ≠ [] then acc :: prefixes (acc ++ [c]) r else prefixes (acc ++ [c]) r

/-- Create the missing directories of a list. -/
def mkdirs : FS → List Str → Tr FS
  | fs, [] => ([], .ok fs)
  | fs, d :: ds => match stat fs d with
    | some .dir => mkdirs fs ds
    | some _ => ([], .error .os)
    | none => match fs.get d with
      | none => Tr.bind (Tr.atomic (.ok (fs.put d .dir))) (fun fs => mkdirs fs ds)
      | some _ => ([], .error .os)

/-- `os.makedirs` -/
def makedirs (fs : FS) (d : Str) : Tr FS :=
  if (fs.get d).isSome then ([], .error .os) else mkdirs fs (prefixes [] d)

/-- `check_dir`, pisi/util/fs.py:38-43. -/
def checkDir (fs : FS) (d : Str) : Tr FS :=
  if existsP fs d then ([], .ok fs) else makedirs fs d

/-- `p` lies below the directory `d`. -/
def Below (d p : Str) : Prop := ∃ r, p = d ++ '/' :: r

instance (d p : Str) : Decidable (Below d p) :=
  decidable_of_iff ((d ++ ['/']).isPrefixOf p = true) (by
    rw [List.isPrefixOf_iff_prefix]
    constructor
    · rintro ⟨t, rfl⟩; exact ⟨t, by simp⟩
    · rintro ⟨r, rfl⟩; exact ⟨r, by simp⟩)

/-- `shutil.rmtree`, as one step. -/
def rmtree (fs : FS) (d : Str) : FS := fs.filter (fun e => ¬ (e.1 = d ∨ Below d e.1))

end Pisi.FS
