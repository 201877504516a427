/-! # When two plans say the same (C177) -/
namespace Pisi.PlanSpec

/-- Two planners agree: both have a plan or none has, and the plans have the same packages, each as often as the other. -/
def Agree {α ε : Type} (a b : Except ε (List α)) : Prop :=
  ((∃ l, a = .ok l) ↔ ∃ l, b = .ok l) ∧ ∀ l l', a = .ok l → b = .ok l' → l.Perm l'

end Pisi.PlanSpec
