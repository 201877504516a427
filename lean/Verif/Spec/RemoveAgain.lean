import Verif.Model.RemoveSteps
import Verif.Spec.RoundTrip

/-!
# Removing a package again after interruptions

What a user expects: whenever pisi is killed or the power fails while the files of a package are removed, removing it again does what the
first removal would have done.
-/
namespace Pisi.FS
open Pisi.Path

variable {α ι : Type} [DecidableEq α]

/-- Any number of removals were started over `s`, and each was interrupted after one of its steps; `c` is what is there then. -/
inductive Stopped (sha : Str → Str) (dest : Str) (db : DB.FilesDB Str α ι) (pkg : α) (l : List FileInfo) (s : FS) : FS → Prop
  | start : Stopped sha dest db pkg l s s
  | again {c c' : FS} : Stopped sha dest db pkg l s c → c' ∈ (removeFilesTr sha dest db pkg l c).1 → Stopped sha dest db pkg l s c'

/-- `k` is `p` or a directory above it. -/
inductive UpFrom : Str → Str → Prop
  | here (p : Str) : UpFrom p p
  | up {p k : Str} : UpFrom (dirname p) k → UpFrom p k

/-- The node `n` at `k` is removed with the package. -/
def Goes (sha : Str → Str) (dest : Str) (db : DB.FilesDB Str α ι) (pkg : α) (l : List FileInfo) (k : Str) (n : Node) : Prop :=
  ∃ f ∈ l, joinPath dest [f.path] = k ∧ otherOwner db pkg k = false ∧ f.permanent = false ∧
    (f.conf = true → ∃ x, n = .file x ∧ f.hash = some (sha x))

end Pisi.FS
