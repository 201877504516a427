import Verif.Spec.FetchPar

/-!
# What deleting the cache while files are fetched is to give (C234)
-/
namespace Pisi.FetchPar

/-- Nothing is at the destination. -/
def Gone (s : State) : Prop := s.dest = none

/-- Any processes take steps in any order, and delete-cache removes files at any time. -/
def RunWipe (c : Str) (lens : Bool) : State → State → Prop :=
  Relation.ReflTransGen fun s t => Wipe s t ∨ ∃ q, Step c lens q s t

/-- A process begins only while all others rest; delete-cache removes files at any time at which `ok` holds. -/
def RunWipeAlone (c : Str) (lens : Bool) (ok : State → Prop) : State → State → Prop :=
  Relation.ReflTransGen fun s t => (Wipe s t ∧ ok s) ∨
    ∃ q, Step c lens q s t ∧ (s.ph q = .idle → ∀ q', q' ≠ q → AtRest s q')

/-- No process has asked for the rest of a partial file that it has not opened yet. -/
def NoneAsked (s : State) : Prop := ∀ q n, s.ph q ≠ .asked n

end Pisi.FetchPar
