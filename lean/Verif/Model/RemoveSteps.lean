import Verif.Model.InstallFiles

/-!
# Removing the files of a package, step by step

The same code as in `Verif/Model/InstallFiles.lean`, with the file systems after each system call, which is what there is when pisi is
killed or the power fails.
-/
namespace Pisi.FS
open Pisi.Path

/-- Remove emptied directories, pisi/op/remove.py:126-130. -/
def pruneTr : Nat → FS → Str → Tr FS
  | 0, _, _ => ([], .error .loop)
  | n + 1, fs, d =>
    if d = ['/'] then ([], .ok fs)
    else match listdirEmpty fs d with
      | .error e => ([], .error e)
      | .ok false => ([], .ok fs)
      | .ok true => Tr.bind (Tr.atomic (rmdir fs d)) fun fs => pruneTr n fs (dirname d)

variable {α ι : Type} [DecidableEq α]

/-- `Remove.remove_file`, pisi/op/remove.py:93-130. -/
def removeFileTr (sha : Str → Str) (dest : Str) (db : DB.FilesDB Str α ι) (pkg : α) (f : FileInfo) (fs : FS) : Tr FS :=
  let p := joinPath dest [f.path]
  if otherOwner db pkg p then ([], .ok fs)
  else if f.permanent then ([], .ok fs)
  else if f.conf then
    match sha1File sha fs p with
    | none => ([], .ok fs)
    | some h => if some h = f.hash then Tr.atomic (unlink fs p) else ([], .ok fs)
  else if isFile fs p || isLink fs p then
    Tr.bind (Tr.atomic (unlink fs p)) fun fs => pruneTr (p.length + 1) fs (dirname p)
  else if isDir fs p then
    match listdirEmpty fs p with
    | .error e => ([], .error e)
    | .ok true => Tr.bind (Tr.atomic (rmdir fs p)) fun fs => pruneTr (p.length + 1) fs (dirname p)
    | .ok false => ([], .ok fs)
  else ([], .ok fs)

/-- The file removal loop of `Remove.run`, pisi/op/remove.py:70-71.  The databases are changed after it, lines 73-79. -/
def removeFilesTr (sha : Str → Str) (dest : Str) (db : DB.FilesDB Str α ι) (pkg : α) : List FileInfo → FS → Tr FS
  | [], fs => ([], .ok fs)
  | f :: l, fs => Tr.bind (removeFileTr sha dest db pkg f fs) fun fs => removeFilesTr sha dest db pkg l fs

end Pisi.FS
