import Verif.Model.ConflictRun
import Verif.Spec.Session

/-! # Packages in conflict with each other -/
namespace Pisi.DB
open Pisi.Plan
variable {α ρ : Type} [DecidableEq α]

/-- `x` is installed in a version that declares a conflict with `y`, which is installed. -/
def Clash (f : α → Option (Meta α)) (x y : α) : Prop := ∃ m k, f x = some m ∧ f y = some k ∧ y ∈ m.info.conflicts

/-- No installed package declares a conflict with an installed one. -/
def Peaceful (f : α → Option (Meta α)) : Prop := ∀ x y, ¬ Clash f x y

/-- Packages are installed by requests whose conflicts are checked, without the two options that switch the check off; an order has no
package twice. -/
def Watched : HCmd α ρ → Prop
  | .batch t => t.ignoreConf = false ∧ t.ignoreDep = false ∧ t.σ.Legal ∧ (t.order.map (·.name)).Nodup
  | .cmd (.install _ _ _) => False
  | .cmd (.other (.install _ _)) => False
  | .cmd _ => True

/-- The packages that have ever been requested. -/
def Requested (cs : List (HCmd α ρ)) (m : Meta α) : Prop := ∃ t, HCmd.batch t ∈ cs ∧ m ∈ t.order

/-- Conflicts are declared by both sides. -/
def MutualDecl (cs : List (HCmd α ρ)) : Prop :=
  ∀ m k, Requested cs m → Requested cs k → k.name ∈ m.info.conflicts → m.name ∈ k.info.conflicts

/-- A component of that name, and its members, in some repository. -/
def MemberOf (b : Both α ρ) (c y : α) : Prop :=
  ∃ repo ∈ b.sys.repos.order.getD [], ∃ u, b.sys.stores.comp.getItem [] c (.one (.repo repo)) = .ok u ∧ y ∈ u.packages

/-- The packages declared as conflicts may be removed: none has the name of a component, and none is in `system.base`, unless the safety
switch is off. -/
def Removable (b : Both α ρ) (t : Batch α) : Prop := ∀ m ∈ t.order, ∀ y ∈ m.info.conflicts,
  (∀ repo ∈ b.sys.repos.order.getD [], ∀ u, b.sys.stores.comp.getItem [] y (.one (.repo repo)) ≠ .ok u) ∧
    (t.o.bypassSafety = true ∨ ¬ MemberOf b t.sysbase y)

/-- So it is for all requests of a history. -/
def AllRemovable (cs : List (HCmd α ρ)) : Prop := ∀ pre t post, cs = pre ++ .batch t :: post → Removable (HCmd.run pre) t

/-- `y` came when `x` was there already: a request has brought the installed `y`, and before it `x` was installed as it is now. -/
def CameLater (cs : List (HCmd α ρ)) (x y : α) : Prop := ∃ pre t post m k, cs = pre ++ .batch t :: post ∧
  (HCmd.run pre).getInstalled x = some m ∧ (HCmd.run cs).getInstalled x = some m ∧
  k ∈ t.order ∧ k.name = y ∧ (HCmd.run cs).getInstalled y = some k

end Pisi.DB
