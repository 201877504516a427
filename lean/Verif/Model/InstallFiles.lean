import Verif.Model.FS
import Verif.Model.FilesDB

/-!
# File operations of installation, pisi/op/install.py, removal, pisi/op/remove.py, and checking, pisi/op/check.py
-/
namespace Pisi.FS
open Pisi.Path

/-- `FileInfo`, pisi/data/files.py:19-31. -/
structure FileInfo where
  path : Str
  /-- `type == 'config'` (`ctx.const.conf`, pisi/constants.py:85) -/
  conf : Bool := false
  hash : Option Str := none
  /-- the field is a string; only whether it is set matters -/
  permanent : Bool := false
  deriving DecidableEq

/-- Members of the package archive, with the path they are extracted to. -/
inductive Entry where
  | file (p : Str) (content : Str)
  | link (p : Str) (target : Str)
  | dir (p : Str)
  deriving DecidableEq

def Entry.path : Entry → Str
  | .file p _ => p
  | .link p _ => p
  | .dir p => p

/-- Remove a file or link in the way, pisi/archive.py:260-263. -/
def clearWay (fs : FS) (p : Str) : Tr FS :=
  if isFile fs p || isLink fs p then Tr.atomic (unlink fs p) else ([], .ok fs)

/-- Extraction of one member, pisi/archive.py:244-282 (`unpack_file_cond`, used for packages without install.tar.lzma).
The tar variant (pisi/archive.py:109-124) differs in not clearing a directory in the way of a link. -/
def extractEntry (fs : FS) : Entry → Tr FS
  | .dir p => if isDir fs p then ([], .ok fs) else makedirs fs p
  | .file p c =>
    Tr.bind (checkDir fs (dirname p)) fun fs =>
    Tr.bind (clearWay fs p) fun fs =>
    writeFile fs p c
  | .link p t =>
    Tr.bind (checkDir fs (dirname p)) fun fs =>
    Tr.bind (clearWay fs p) fun fs =>
    Tr.bind (if isDir fs p then Tr.atomic (.ok (rmtree fs p)) else ([], .ok fs)) fun fs =>
    if isDir fs (dirname p) && (fs.get p).isNone then Tr.atomic (.ok (fs.put p (.link t))) else ([], .error .os)

/-- `self.package.extract_install(dest)`: all members. -/
def extractAll : FS → List Entry → Tr FS
  | fs, [] => ([], .ok fs)
  | fs, e :: es => Tr.bind (extractEntry fs e) fun fs => extractAll fs es

def dotOld (p : Str) : Str := p ++ ['.', 'o', 'l', 'd']
def dotNew (p : Str) : Str := p ++ ['.', 'n', 'e', 'w', 'c', 'o', 'n', 'f', 'i', 'g']

/-- Move a changed configuration file away, pisi/op/install.py:271-273 and 284-286. -/
def backup (fs : FS) (p : Str) : Tr FS :=
  Tr.bind (if existsP fs (dotOld p) then Tr.atomic (unlink fs (dotOld p)) else ([], .ok fs)) fun fs =>
  Tr.atomic (rename fs p (dotOld p))

/-- Back up `p` if its hash is not `h`; the list collects the backed-up paths.  An unreadable file is skipped. -/
def backupIf (sha : Str → Str) (h : Option Str) (p : Str) (st : FS × List Str) : Tr (FS × List Str) :=
  match sha1File sha st.1 p with
  | none => ([], .ok st)
  | some x =>
    if some x ≠ h then
      Tr.bind (backup st.1 p) fun fs => ([], .ok (fs, st.2 ++ [p]))
    else ([], .ok st)

/-- Backup loop of a first installation, pisi/op/install.py:277-288. -/
def backupNew (sha : Str → Str) (dest : Str) : List FileInfo → FS × List Str → Tr (FS × List Str)
  | [], st => ([], .ok st)
  | f :: fs, st =>
    let p := joinPath dest [f.path]
    if f.conf && existsP st.1 p then
      Tr.bind (backupIf sha f.hash p st) fun st => backupNew sha dest fs st
    else backupNew sha dest fs st

/-- Backup loop of a reinstallation, pisi/op/install.py:262-276, over the pairs (new, old). -/
def backupUpg (sha : Str → Str) (dest : Str) : List (FileInfo × FileInfo) → FS × List Str → Tr (FS × List Str)
  | [], st => ([], .ok st)
  | (n, o) :: fs, st =>
    if n.path ≠ o.path then ([], .error .assertion)
    else if n.conf && o.conf then
      Tr.bind (backupIf sha o.hash (joinPath dest [o.path]) st) fun st => backupUpg sha dest fs st
    else backupUpg sha dest fs st

/-- String comparison. -/
def strLe : Str → Str → Bool
  | [], _ => true
  | _ :: _, [] => false
  | a :: s, b :: t => if a.toNat < b.toNat then true else if a = b then strLe s t else false

/-- `list.sort(key=lambda x: x.path)` -/
def sortFiles (l : List FileInfo) : List FileInfo := l.mergeSort (fun a b => strLe a.path b.path)

/-- The pairs `zip(upgrade_new, upgrade_old)`, pisi/op/install.py:253-261. -/
def overlapPairs (new old : List FileInfo) : List (FileInfo × FileInfo) :=
  let overlap := fun (x : FileInfo) => x.path ∈ new.map FileInfo.path ∧ x.path ∈ old.map FileInfo.path
  ((sortFiles new).filter (fun x => overlap x)).zip ((sortFiles old).filter (fun x => overlap x))

/-- Put the user's configuration files back, pisi/op/install.py:292-296. -/
def restore : FS → List Str → Tr FS
  | fs, [] => ([], .ok fs)
  | fs, p :: ps =>
    Tr.bind (if existsP fs (dotNew p) then Tr.atomic (unlink fs (dotNew p)) else ([], .ok fs)) fun fs =>
    Tr.bind (Tr.atomic (rename fs p (dotNew p))) fun fs =>
    Tr.bind (Tr.atomic (rename fs (dotOld p) p)) fun fs =>
    restore fs ps

/-- `Install.extract_install`, pisi/op/install.py:247-309.  `old` is the file list of the installed version, if this is a
reinstallation.  The loop over left-over files calls an unbound method with a wrong argument: it raises `TypeError` if
there is any. -/
def extractInstall (sha : Str → Str) (dest : Str) (old : Option (List FileInfo)) (new : List FileInfo)
    (es : List Entry) (fs : FS) : Tr FS :=
  Tr.bind (match old with
    | some old => backupUpg sha dest (overlapPairs new old) (fs, [])
    | none => backupNew sha dest new (fs, [])) fun st =>
  Tr.bind (extractAll st.1 es) fun fs =>
  Tr.bind (restore fs st.2) fun fs =>
  match old with
  | none => ([], .ok fs)
  | some old =>
    if old.all (fun f => f.path ∈ new.map FileInfo.path) then ([], .ok fs) else ([], .error .typeErr)

/-! ## Removal -/

/-- Remove emptied directories, pisi/op/remove.py:126-130. -/
def prune : Nat → FS → Str → Except FErr FS
  | 0, _, _ => .error .loop
  | n + 1, fs, d =>
    if d = ['/'] then .ok fs
    else match listdirEmpty fs d with
      | .error e => .error e
      | .ok false => .ok fs
      | .ok true => match rmdir fs d with
        | .error e => .error e
        | .ok fs => prune n fs (dirname d)

variable {α ι : Type} [DecidableEq α]

/-- `ctx.filesdb` records another package for the path, pisi/op/remove.py:100-104. -/
def otherOwner (db : DB.FilesDB Str α ι) (pkg : α) (p : Str) : Bool :=
  match db.get p with
  | some (o, _) => decide (o ≠ pkg)
  | none => false

/-- `Remove.remove_file`, pisi/op/remove.py:93-130. -/
def removeFile (sha : Str → Str) (dest : Str) (db : DB.FilesDB Str α ι) (pkg : α) (f : FileInfo) (fs : FS) :
    Except FErr FS :=
  let p := joinPath dest [f.path]
  if otherOwner db pkg p then .ok fs
  else if f.permanent then .ok fs
  else if f.conf then
    match sha1File sha fs p with
    | none => .ok fs
    | some h => if some h = f.hash then unlink fs p else .ok fs
  else if isFile fs p || isLink fs p then
    match unlink fs p with
    | .error e => .error e
    | .ok fs => prune (p.length + 1) fs (dirname p)
  else if isDir fs p then
    match listdirEmpty fs p with
    | .error e => .error e
    | .ok true => match rmdir fs p with
      | .error e => .error e
      | .ok fs => prune (p.length + 1) fs (dirname p)
    | .ok false => .ok fs
  else .ok fs

/-- The file removal loop of `Remove.run`, pisi/op/remove.py:70-71. -/
def removeFiles (sha : Str → Str) (dest : Str) (db : DB.FilesDB Str α ι) (pkg : α) : List FileInfo → FS → Except FErr FS
  | [], fs => .ok fs
  | f :: l, fs => match removeFile sha dest db pkg f fs with
    | .error e => .error e
    | .ok fs => removeFiles sha dest db pkg l fs

/-! ## Checking -/

/-- `check(package)`, pisi/op/check.py:32-44, over the recorded files.  A hash that is missing or empty is falsy. -/
def checkFiles (sha : Str → Str) (fs : FS) : List FileInfo → Except FErr (List FileInfo)
  | [] => .ok []
  | f :: l =>
    match f.hash with
    | some h =>
      if h ≠ [] ∧ f.conf = false ∧ isLink fs ('/' :: f.path) = false then
        match sha1File sha fs ('/' :: f.path) with
        | none => .error .file
        | some x => match checkFiles sha fs l with
          | .error e => .error e
          | .ok r => .ok (if h ≠ x then f :: r else r)
      else checkFiles sha fs l
    | none => checkFiles sha fs l

end Pisi.FS
