import Verif.Model.Tar
import Verif.Spec.Unpack

/-!
# Installing the files of a package
-/
namespace Pisi.TarSpec
open Pisi.Unpack Pisi.PathSpec

/-- What was built: the paths in files.xml are distinct clean relative paths, each has something in the build directory `I`
of the file system `fs`, none of them lies below another, and the names of one inode have one content. -/
structure Built (fs : Files) (ino : Loc → Nat) (I : Loc) (paths : List Str) : Prop where
  clean : ∀ p ∈ paths, CleanName p ∧ segs p ≠ []
  distinct : paths.Pairwise (fun a b => segs a ≠ segs b)
  there : ∀ p ∈ paths, (fs (I ++ segs p)).isSome
  apart : ∀ p ∈ paths, ∀ q ∈ paths, segs p <+: segs q → segs p = segs q
  inode : ∀ p ∈ paths, ∀ q ∈ paths, ino (I ++ segs p) = ino (I ++ segs q) → fs (I ++ segs p) = fs (I ++ segs q)

/-- A place above one of the paths. -/
def Above (paths : List Str) (q : List Str) : Prop := q ≠ [] ∧ ∃ p ∈ paths, q <+: segs p ∧ q ≠ segs p

/-- The file system where the package is installed: what is there is in a directory, and nothing but directories is above
the paths of the package; the root is no link. -/
structure Ready (fs : Files) (T : Loc) (paths : List Str) : Prop where
  real : RealDir fs T
  tree : ∀ q c, q ≠ [] → (fs (T ++ (q ++ [c]))).isSome → ∃ m, fs (T ++ q) = some (.dir m)
  above : ∀ q, Above paths q → fs (T ++ q) = none ∨ ∃ m, fs (T ++ q) = some (.dir m)
  root : ∀ t, fs [] ≠ some (.link t)

/-- Every path has below `T` what it has in the build directory. -/
def InPlace (built : Files) (I : Loc) (fs : Files) (T : Loc) (paths : List Str) : Prop :=
  ∀ p ∈ paths, fs (T ++ segs p) = built (I ++ segs p)

/-- No directory is where the package has a file or a link. -/
def NoDirInTheWay (built : Files) (I : Loc) (fs : Files) (T : Loc) (paths : List Str) : Prop :=
  ∀ p ∈ paths, (∃ m, fs (T ++ segs p) = some (.dir m)) → ∃ m, built (I ++ segs p) = some (.dir m)

/-- From `fs` to `fs'` nothing was changed but the paths of the package and missing directories above them
(the root has no entry of its own). -/
def OnlyPaths (T : Loc) (paths : List Str) (fs fs' : Files) : Prop :=
  ∀ l, l ≠ [] → (∀ p ∈ paths, l ≠ T ++ segs p) →
  fs' l = fs l ∨ (fs l = none ∧ (∃ m, fs' l = some (.dir m)) ∧ ∃ q, Above paths q ∧ l = T ++ q)

end Pisi.TarSpec
