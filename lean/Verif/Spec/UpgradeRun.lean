import Verif.Spec.Plan

/-! Specification vocabulary for running an upgrade. -/
namespace Pisi.PlanSpec
variable {α : Type} [DecidableEq α]

/-- The databases say that `x` is installed exactly as `p` describes it. -/
def InstalledAs (w : World α) (x : α) (p : PkgInfo α) : Prop :=
  w.inst.get x = some ⟨p.version, p.release, p.build⟩ ∧ w.track.get x = some p

/-- Every dependency of every installed package is satisfied. -/
def Consistent (w : World α) : Prop :=
  ∀ x p, (∃ i, w.inst.get x = some i) → w.track.get x = some p → ∀ d ∈ p.deps, Satisfied w d

/-- The reverse dependencies recorded for the repositories are those of their packages. -/
def RevAgrees (w : World α) : Prop :=
  ∀ x rs r d, w.revRepo.get x = some rs → (r, d) ∈ rs → d.package = x ∧ RepoDep w r d

/-- Nothing installed can be upgraded. -/
def UpToDate (w : World α) (ignoreBuild : Bool) : Prop := ∀ x, ¬ Upgradable w ignoreBuild x

end Pisi.PlanSpec
