import Verif.Model.StatusCmds
import Verif.Spec.Session

/-!
# Specification: what list-upgrades and check are to show
-/
namespace Pisi.DB
open Pisi.PlanSpec Pisi.Plan
variable {α ρ : Type} [DecidableEq α]

/-- The package that the first repository with that name offers. -/
def Both.offer (b : Both α ρ) (x : α) : Option (Meta α) :=
  match b.sys.stores.pkg.getItem (b.sys.repos.order.getD []) x .repos with
  | .ok m => some m
  | .error _ => none

/-- The package `p` is newer than the installed `m`: by build if both have one and builds count, otherwise by release. -/
def NewerOf (ignoreBuild : Bool) (m p : Meta α) : Prop :=
  (UseBuilds ignoreBuild ⟨m.info.version, m.info.release, m.info.build⟩ p.info ∧ ∃ a b, m.info.build = some a ∧ p.info.build = some b ∧ a < b) ∨
  (¬ UseBuilds ignoreBuild ⟨m.info.version, m.info.release, m.info.build⟩ p.info ∧
    ∃ r s, Version.Spec.VersionG m.info.release r ∧ Version.Spec.VersionG p.info.release s ∧ Version.Spec.Older r s)

/-- Two packages whose releases are to be compared although one is no release at all. -/
def Incomparable (ignoreBuild : Bool) (m p : Meta α) : Prop :=
  ¬ UseBuilds ignoreBuild ⟨m.info.version, m.info.release, m.info.build⟩ p.info ∧
    ((¬ ∃ r, Version.Spec.VersionG m.info.release r) ∨ ¬ ∃ s, Version.Spec.VersionG p.info.release s)

/-- Of every package what there is to say: nothing of an intact one. -/
def checkLines (installed intact : α → Bool) (ps : List α) : List (CheckLine α) :=
  ps.filterMap (fun p => if installed p then (if intact p then none else some (.corrupt p)) else some (.notInstalled p))

end Pisi.DB

namespace Pisi

/-- The package or a bound has no blank in it. -/
def NoBlank (s : Str) : Prop := ' ' ∉ s

/-- The words of a dependency have no blanks in them, and it does not ask for one version or release. -/
structure Ranged (d : Dep Str) : Prop where
  package : NoBlank d.package
  versionFrom : ∀ b, d.versionFrom = some b → NoBlank b
  versionTo : ∀ b, d.versionTo = some b → NoBlank b
  releaseFrom : ∀ b, d.releaseFrom = some b → NoBlank b
  releaseTo : ∀ b, d.releaseTo = some b → NoBlank b
  noVersion : ∀ b, ¬ DepSpec.Given d.version b
  noRelease : ∀ b, ¬ DepSpec.Given d.release b

end Pisi
