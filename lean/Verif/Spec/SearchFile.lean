/-
What `pisi search-file` should show.
-/
import Verif.Model.SearchFile

namespace Pisi.SearchFileSpec
open Pisi.Act

variable {α ι : Type}

/-- The name under which the file at a place is recorded: the names on the way
from the root, with slashes between. -/
def recorded : Loc → Str
  | [] => []
  | [c] => c
  | c :: d :: l => c ++ '/' :: recorded (d :: l)

/-- A path leads to a place where something is. -/
def LeadsTo (fs : FS) (cwd path : Str) (p : Loc) : Prop :=
  resolve fs (absComps cwd path) = some p ∧ look fs p ≠ none

/-- The full statement: the package of every recorded file is found by its
path. -/
def SearchFull : Prop :=
  ∀ (fs : FS) (cwd : Str) (d : DB.FilesDB Str Nat Nat) (f : Str) (pkg i : Nat),
    d.get f = some (pkg, i) → (pkg, f, i) ∈ SearchFile.search fs cwd d false ('/' :: f)

end Pisi.SearchFileSpec
