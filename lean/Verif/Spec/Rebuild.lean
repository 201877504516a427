import Verif.Model.FS
import Verif.Spec.Version
import Verif.Model.PkgName

/-!
# What is expected of rebuild-db and pisi clean
-/
namespace Pisi.Rebuild
open Pisi.Version Pisi.Version.Spec

/-- The directory is that of package `n` with version string `v`: `n-v`, or `n` without a version. -/
def DirOf (d n v : Str) : Prop := PkgName.parsePackageName d = .ok (n, v) ∧ (v = [] ∧ d = n ∨ v ≠ [] ∧ d = n ++ '-' :: v)

/-- `v` is not newer than `w`. -/
def NotNewer (v w : Str) : Prop := ∀ a b, VersionG v a → VersionG w b → ¬ Older b a

/-- The names end with `.lock`. -/
def IsLockName (p : Str) : Prop := ∃ q, p = q ++ ".lock".toList

end Pisi.Rebuild
