import Verif.Model.Dict

/-!
# Model of pisi/db/files.py
-/
namespace Pisi.DB

/-- `FilesDB`: path → (package, file information without its path), pisi/db/files.py:18-30. -/
abbrev FilesDB (π α ι : Type) := Dict π (α × ι)

variable {π α ι : Type} [DecidableEq π]

namespace FilesDB

/-- `add_files`, pisi/db/files.py:23-30. -/
def addFiles (d : FilesDB π α ι) (pkg : α) (files : List (π × ι)) : FilesDB π α ι :=
  files.foldl (fun d x => d.put x.1 (pkg, x.2)) d

/-- `remove_files`, pisi/db/files.py:32-37; only the paths of the list are used. -/
def removeFiles (d : FilesDB π α ι) (files : List π) : FilesDB π α ι :=
  files.foldl (fun d x => if d.has x then d.del x else d) d

/-- `has_file`, pisi/db/files.py:39-40. -/
def hasFile (d : FilesDB π α ι) (path : π) : Bool := d.has path

/-- `get_file`, pisi/db/files.py:42-51; the path is put back into the result. -/
def getFile (d : FilesDB π α ι) (path : π) : Option (α × π × ι) :=
  if d.has path then
    match d.get path with
    | some (name, i) => some (name, path, i)
    | none => none
  else none

/-- `match_files`, pisi/db/files.py:53-68; the glob is an arbitrary predicate. -/
def matchFiles (d : FilesDB π α ι) (glob : π → Bool) : List (α × π × ι) :=
  (d.filter (fun e => glob e.1)).map (fun e => (e.2.1, e.1, e.2.2))

end FilesDB

/-- Updating operations.  `remove pkg` is `remove_files(files of pkg)`, called from pisi/op/remove.py:146; the
package is not an argument of the code. -/
inductive FileOp (π α ι : Type) where
  | add (pkg : α) (files : List (π × ι))
  | remove (pkg : α) (files : List π)

/-- One operation. -/
def FileOp.step (d : FilesDB π α ι) : FileOp π α ι → FilesDB π α ι
  | .add p fs => d.addFiles p fs
  | .remove _ fs => d.removeFiles fs

/-- The state after a history. -/
def FileOp.run (ops : List (FileOp π α ι)) : FilesDB π α ι := ops.foldl FileOp.step []

end Pisi.DB
