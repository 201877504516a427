import Verif.Spec.Plan

/-! Specification vocabulary for replacing an installed package. -/
namespace Pisi.PlanSpec
open Pisi.Version Pisi.Version.Spec
variable {α : Type}

/-- Both strings are versions, the first the older one. -/
def OlderStr (a b : Str) : Prop := ∃ r s, VersionG a r ∧ VersionG b s ∧ Older r s

/-- Both strings are versions, and the same one. -/
def SameStr (a b : Str) : Prop := ∃ r s, VersionG a r ∧ VersionG b s ∧ Same r s

/-- Package `p` is newer than the installed one: by version, by release or by build. -/
def Newer (ignoreBuild : Bool) (i : InstRec) (p : PkgInfo α) : Prop :=
  OlderStr i.version p.version ∨ OlderStr i.release p.release ∨
    (UseBuilds ignoreBuild i p ∧ ∃ a b, i.build = some a ∧ p.build = some b ∧ a < b)

/-- Package `p` has the same release as the installed one, or the same build where builds are compared. -/
def SameRelease (mismatch ignoreBuild : Bool) (i : InstRec) (p : PkgInfo α) : Prop :=
  (UseBuilds ignoreBuild i p ∧ mismatch = false ∧ i.build = p.build) ∨
    ((¬ UseBuilds ignoreBuild i p ∨ mismatch = true) ∧ SameStr i.release p.release)

end Pisi.PlanSpec
