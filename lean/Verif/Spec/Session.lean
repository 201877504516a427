import Verif.Model.Session
import Verif.Spec.Plan
import Verif.Lemmas.InstallPlan

/-!
# Specification: installed packages whose dependencies are met

A system is given by what is installed under each name.
-/
namespace Pisi.DB
open Pisi.PlanSpec Pisi.Plan
variable {α ρ : Type} [DecidableEq α]

/-- Package `y` is installed and has the dependency `d`. -/
def NeedsDep (f : α → Option (Meta α)) (y : α) (d : Dep α) : Prop := ∃ m, f y = some m ∧ d ∈ m.info.deps

/-- Every dependency of every installed package is met by an installed package. -/
def Consistent (f : α → Option (Meta α)) : Prop :=
  ∀ y d, NeedsDep f y d → ∃ m, f d.package = some m ∧ Meets d m.info

/-- The installed package `y` depends on `x`. -/
def DependsDirectly (f : α → Option (Meta α)) (x y : α) : Prop := ∃ d, NeedsDep f y d ∧ d.package = x

/-- Another installed package depends on `x`. -/
def Depended (f : α → Option (Meta α)) (x : α) : Prop := ∃ y, y ≠ x ∧ DependsDirectly f x y

/-- Commands without `--ignore-dependency` on sets of names. -/
def Plain : Cmd α ρ → Prop
  | .install _ _ ig => ig = false
  | .remove σ o _ A => σ.Legal ∧ o.ignoreDep = false ∧ A.Nodup
  | .conflict _ => True
  | .other op => match op with
    | .install _ _ => False
    | .remove _ => False
    | _ => True

/-- The packages that are to be removed: the named ones that are installed and, unless the safety switch is off, not part of
`system.base`. -/
def Asked (f : α → Option (Meta α)) (o : RemoveOpts) (base : Option (List α)) (A : List α) (x : α) : Prop :=
  x ∈ A ∧ (∃ m, f x = some m) ∧ (o.bypassSafety = false → ∀ b, base = some b → x ∉ b)

/-- A package that may be installed: it is part of a component, depends on no component, and its dependencies are met, unless they are to
be ignored. -/
def Accepted (f : α → Option (Meta α)) (m : Meta α) (ignoreDep : Bool) : Prop :=
  (m.info.compDeps = [] ∧ m.partOf.isSome) ∧
    (ignoreDep = true ∨ ∀ d ∈ m.info.deps, ∃ k, f d.package = some k ∧ Meets d k.info)

/-- Everything that goes with the packages that are to be removed. -/
def Goes (f : α → Option (Meta α)) (o : RemoveOpts) (base : Option (List α)) (A : List α) (x : α) : Prop :=
  ∃ a, Asked f o base A a ∧ Relation.ReflTransGen (DependsDirectly f) a x

/-- The package meets what the other installed packages, and it itself, ask of its name. -/
def Suits (f : α → Option (Meta α)) (m : Meta α) : Prop :=
  (∀ y d, y ≠ m.name → NeedsDep f y d → d.package = m.name → Meets d m.info) ∧ (∀ d ∈ m.info.deps, d.package = m.name → Meets d m.info)

/-- At some time the package was replaced while another installed package depended on it. -/
def Forgotten (cs : List (Cmd α ρ)) (x : α) : Prop :=
  ∃ pre m later ig post, cs = pre ++ .install m later ig :: post ∧ m.name = x ∧ Accepted (Cmd.run pre).getInstalled m ig ∧
    Depended (Cmd.run pre).getInstalled x

/-- A package that replaces another suits the others; nothing is removed because of a conflict that another package depends on, and
nothing that another package depends on and that was replaced while it was depended on. -/
def Gentle (F : α → Prop) (f : α → Option (Meta α)) : Cmd α ρ → Prop
  | .install m _ _ => Accepted f m false → Suits f m
  | .remove _ o base A => ∀ x, Goes f o base A x → F x → ¬ Depended f x
  | .conflict p => ¬ Depended f p
  | .other _ => True

end Pisi.DB
