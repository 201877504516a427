import Verif.Spec.Dependency
import Verif.Spec.Graph
import Verif.Model.World
import Mathlib.Logic.Relation

/-! Specification vocabulary for the planners: satisfaction, need, reachability. -/
namespace Pisi.PlanSpec
open Pisi.Version Pisi.Version.Spec Pisi.DepSpec
variable {α : Type} [DecidableEq α]

/-- Package `p` meets the constraints of `d`. -/
def Meets (d : Dep α) (p : PkgInfo α) : Prop :=
  ∃ v r, VersionG p.version v ∧ VersionG p.release r ∧ Sat d v r

/-- The installed system satisfies `d`. -/
def Satisfied (w : World α) (d : Dep α) : Prop :=
  (∃ i, w.inst.get d.package = some i) ∧ ∃ p, w.track.get d.package = some p ∧ Meets d p

/-- The repositories offer a package meeting `d`. -/
def Offered (w : World α) (d : Dep α) : Prop := ∃ p, w.repo.get d.package = some p ∧ Meets d p

/-- The version strings involved in testing `d` against `p` are well-formed. -/
def Testable (d : Dep α) (p : PkgInfo α) : Prop :=
  (∃ v, VersionG p.version v) ∧ (∃ r, VersionG p.release r) ∧ WellFormed d

/-- Testing `d` against the installed system does not raise. -/
def TestableInstalled (w : World α) (d : Dep α) : Prop :=
  (∃ i, w.inst.get d.package = some i) → ∃ p, w.track.get d.package = some p ∧ Testable d p

/-- `x` (as offered by the repositories) has dependency `d`. -/
def RepoDep (w : World α) (x : α) (d : Dep α) : Prop := ∃ p, w.repo.get x = some p ∧ d ∈ p.deps

/-- `x` has a dependency on `y` that the installed system does not satisfy. -/
def Needs (w : World α) (x y : α) : Prop :=
  ∃ d, RepoDep w x d ∧ d.package = y ∧ ¬ Satisfied w d

/-- `x` is requested or needed, directly or not, by something requested. -/
def Reach (R : α → α → Prop) (A : List α) (x : α) : Prop := ∃ a ∈ A, Relation.ReflTransGen R a x

/-- `x` is available and its dependencies can be examined. -/
def Plannable (w : World α) (x : α) : Prop :=
  ∃ p, w.repo.get x = some p ∧ p.compDeps = [] ∧ ∀ d ∈ p.deps, TestableInstalled w d

/-- `y` is an installed package recorded as depending on `x`, and that dependency is currently satisfied. -/
def Dependent (w : World α) (x y : α) : Prop :=
  ∃ d, (∃ rs, w.revInst.get x = some rs ∧ (y, d) ∈ rs) ∧ (∃ p, w.track.get y = some p) ∧ Satisfied w d

/-- Removal of `x` can be examined: it is tracked, and so are the tests on its recorded dependents. -/
def Removable (w : World α) (x : α) : Prop :=
  (∃ p, w.track.get x = some p) ∧
    ∀ rs, w.revInst.get x = some rs → ∀ y d, (y, d) ∈ rs → (∃ p, w.track.get y = some p) → TestableInstalled w d

end Pisi.PlanSpec

namespace Pisi.PlanSpec
open Pisi.Version Pisi.Version.Spec Pisi.DepSpec
variable {α : Type} [DecidableEq α]

/-- Both sides carry a (non-zero) build number and builds are not to be ignored. -/
def UseBuilds (ignoreBuild : Bool) (i : InstRec) (p : PkgInfo α) : Prop :=
  ignoreBuild = false ∧ (∃ a, i.build = some a ∧ a ≠ 0) ∧ ∃ b, p.build = some b ∧ b ≠ 0

/-- The repository has a newer `x` than the one installed. -/
def Upgradable (w : World α) (ignoreBuild : Bool) (x : α) : Prop :=
  ∃ i p, w.inst.get x = some i ∧ w.repo.get x = some p ∧
    ((UseBuilds ignoreBuild i p ∧ ∃ a b, i.build = some a ∧ p.build = some b ∧ a < b) ∨
     (¬ UseBuilds ignoreBuild i p ∧ ∃ r s, VersionG i.release r ∧ VersionG p.release s ∧ Older r s))

/-- Upgrading must (or, when eager, may) change the package `d` is about. -/
def MustChange (w : World α) (eager : Bool) (d : Dep α) : Prop :=
  (∀ i, w.inst.get d.package ≠ some i) ∨
    (if eager then Upgradable w false d.package else ¬ Satisfied w d)

/-- `x` depends on `y`, and `y` must change. -/
def UpNeeds (w : World α) (eager : Bool) (x y : α) : Prop :=
  ∃ d, RepoDep w x d ∧ d.package = y ∧ MustChange w eager d

/-- `r` is recorded in the repositories as depending on `x`, and must be upgraded along with it. -/
def Drags (w : World α) (eager : Bool) (x r : α) : Prop :=
  ∃ d, (∃ rs, w.revRepo.get x = some rs ∧ (r, d) ∈ rs) ∧
    (if eager then Upgradable w false r else (∃ i, w.inst.get r = some i) ∧ ¬ Satisfied w d)

/-- Packages found through reverse dependencies starting from `A`, not entering the forward part. -/
inductive Dragged (w : World α) (eager : Bool) (A : List α) : α → Prop
  | start {x : α} (h : x ∈ A) : Dragged w eager A x
  | step {x y : α} (hx : Dragged w eager A x) (h : Drags w eager x y)
      (hy : ¬ Reach (UpNeeds w eager) A y) : Dragged w eager A y

/-- The repository history of `x` has a security update newer than the installed release. -/
def HasSecurityUpdate (w : World α) (x : α) : Prop :=
  ∃ i p u, w.inst.get x = some i ∧ w.repo.get x = some p ∧ u ∈ p.history ∧ u.security = true ∧
    ∃ r s, VersionG i.release r ∧ VersionG u.release s ∧ Older r s

/-- Some version string compared while planning an upgrade is malformed. -/
def Malformed (w : World α) : Prop :=
  (∃ d p, ((∃ x, RepoDep w x d) ∨ ∃ x r rs, w.revRepo.get x = some rs ∧ (r, d) ∈ rs) ∧
    (w.repo.get d.package = some p ∨ w.track.get d.package = some p) ∧ ¬ Testable d p) ∨
  ∃ x i p, w.inst.get x = some i ∧ w.repo.get x = some p ∧
    ((¬ ∃ r, VersionG i.release r) ∨ ¬ ∃ s, VersionG p.release s)

/-- What each error of the upgrade planner means. -/
def UpgradeFails (w : World α) (eager : Bool) (A : List α) : PErr α → Prop
  | .notFound x => w.repo.get x = none ∨ (w.inst.has x = true ∧ w.track.get x = none)
  | .value => Malformed w
  | .typeErr => ∃ x p, Reach (UpNeeds w eager) A x ∧ w.repo.get x = some p ∧ p.compDeps ≠ []
  | .unsat x d => ¬ Offered w d ∧ ((Reach (UpNeeds w eager) A x ∧ RepoDep w x d) ∨
      (eager = false ∧ ∃ y rs, Dragged w eager A y ∧ w.revRepo.get y = some rs ∧ (x, d) ∈ rs ∧
        (∃ i, w.inst.get x = some i) ∧ ¬ Satisfied w d))
  | .cycle _ => Graph.Spec.Cyclic (fun x y => Reach (UpNeeds w eager) A x ∧ UpNeeds w eager x y)
  | _ => False

end Pisi.PlanSpec
