import Verif.Spec.Plan

/-! Specification vocabulary for installing package files. -/
namespace Pisi.PlanSpec
open Pisi.DepSpec
variable {α : Type} [DecidableEq α]

/-- The last file given for package `x` has the metadata `p`. -/
inductive LastFile : List (α × PkgInfo α) → α → PkgInfo α → Prop
  | last (l : List (α × PkgInfo α)) (x : α) (p : PkgInfo α) : LastFile (l ++ [(x, p)]) x p
  | skip (l : List (α × PkgInfo α)) (x y : α) (p q : PkgInfo α) (h : LastFile l x p) (hne : y ≠ x) :
      LastFile (l ++ [(y, q)]) x p

/-- One of the given files meets the dependency. -/
def GivenMeets (l : List (α × PkgInfo α)) (d : Dep α) : Prop := ∃ p, LastFile l d.package p ∧ Meets d p

/-- Given package `x` has a dependency on `y` that the given file of `y` meets. -/
def FileNeeds (l : List (α × PkgInfo α)) (x y : α) : Prop :=
  ∃ p d, LastFile l x p ∧ d ∈ p.deps ∧ d.package = y ∧ GivenMeets l d

/-- The dependencies of given package `x` can be examined against the given files. -/
def FileExaminable (l : List (α × PkgInfo α)) (x : α) : Prop :=
  ∀ p, LastFile l x p → p.compDeps = [] ∧ ∀ d ∈ p.deps, ∀ q, LastFile l d.package q → Testable d q

end Pisi.PlanSpec
