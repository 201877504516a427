import Verif.Model.Installed

/-!
# Specification: the installed packages
-/
namespace Pisi.DB
variable {α ρ : Type} [DecidableEq α]

/-- What is installed after an operation: a package that is part of a component and depends on no component replaces what has its
name, a removal removes, and nothing else has an effect. -/
def installedStep (f : α → Option (Meta α)) : BothOp α ρ → α → Option (Meta α)
  | .install m _ => fun p => if m.info.compDeps = [] ∧ m.partOf.isSome then (if p = m.name then some m else f p) else f p
  | .remove q => fun p => if p = q then none else f p
  | _ => f

/-- What is installed after a history. -/
def InstalledAfter (ops : List (BothOp α ρ)) : α → Option (Meta α) := ops.foldl installedStep (fun _ => none)

end Pisi.DB
