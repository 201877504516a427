import Verif.Model.GraphCmd
import Verif.Spec.Plan

/-!
# What `graph` is to show
-/
namespace Pisi.PlanSpec
open Pisi.Plan Pisi.DB

/-- `m` is the record of `x` in the place the options name: the installed packages, the given
repository, or the first repository that has `x`. -/
def Holds (y : GraphSys) (o : GraphOpts) (x : Str) (m : Meta Str) : Prop :=
  ∃ s, y.pkg.get x = some s ∧
    if o.installed = true then s.get .installed = some m
    else match o.repository with
      | some (c :: r) => s.get (.repo (c :: r)) = some m
      | _ => ∃ l r l', y.repos = l ++ r :: l' ∧ s.get (.repo r) = some m ∧
          ∀ r' ∈ l, s.get (.repo r') = none

/-- The packages to start from: those named, or all there are. -/
def Asked (y : GraphSys) (o : GraphOpts) (args : List Str) (x : Str) : Prop :=
  if args ≠ [] then x ∈ args else ∃ m, Holds y o x m

/-- `x` depends on `z`, by a dependency that is to be shown. -/
def ShowsDep (y : GraphSys) (o : GraphOpts) (x z : Str) : Prop :=
  ∃ m d, Holds y o x m ∧ d ∈ m.info.deps ∧ d.package = z ∧
    (o.ignoreInstalled = true → ¬ Satisfied y.world d)

/-- `x` is to be in the graph. -/
def ToShow (y : GraphSys) (o : GraphOpts) (args : List Str) (x : Str) : Prop :=
  ∃ a, Asked y o args a ∧ Relation.ReflTransGen (ShowsDep y o) a x

/-- `x` conflicts with `z`. -/
def Clashes (y : GraphSys) (o : GraphOpts) (x z : Str) : Prop :=
  ∃ m, Holds y o x m ∧ z ∈ m.info.conflicts

/-- The record of `x` is there and its dependencies can be examined. -/
def Examinable (y : GraphSys) (o : GraphOpts) (x : Str) : Prop :=
  ∃ m, Holds y o x m ∧ m.info.compDeps = [] ∧
    (o.ignoreInstalled = true → ∀ d ∈ m.info.deps, TestableInstalled y.world d)

/-- A node shows the name, the version and the release of its package. -/
def Labelled (y : GraphSys) (o : GraphOpts) (label : Str → Str) : Prop :=
  ∀ x m, Holds y o x m → label x = x ++ ['('] ++ m.info.version ++ [','] ++ m.info.release ++ [')']

/-- The databases are consistent: one record for a package, at least one store for each and one entry
for a store; stores are those of the repositories; installed packages are tracked. -/
structure GraphSys.Sound (y : GraphSys) : Prop where
  uniq : y.pkg.keys.Nodup
  inner : ∀ x s, y.pkg.get x = some s → s ≠ [] ∧ s.keys.Nodup
  known : ∀ x s r, y.pkg.get x = some s → (s.get (.repo r)).isSome → r ∈ y.repos
  tracked : ∀ x, (∃ i, y.world.inst.get x = some i) ↔
    ∃ s, y.pkg.get x = some s ∧ (s.get .installed).isSome
  instUniq : y.world.inst.keys.Nodup

end Pisi.PlanSpec
