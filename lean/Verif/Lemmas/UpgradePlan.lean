import Verif.Model.UpgradePlan
import Verif.Props.InstallPlan
import Verif.Props.RemovePlan

/-! Lemmas for the upgrade planner. -/
set_option linter.unusedSectionVars false

namespace Pisi.Plan
open Pisi.Graph Pisi.PlanSpec Pisi.Version Pisi.Version.Spec
variable {α : Type} [DecidableEq α]

theorem verLess_true (a b : Str) : (verLess a b : Except (PErr α) Bool) = .ok true ↔
    ∃ r s, VersionG a r ∧ VersionG b s ∧ Older r s := by
  unfold verLess
  simp only [← version_grammar]
  cases ha : parse a with
  | none => simp
  | some va =>
    cases hb : parse b with
    | none => simp
    | some vb => simp [(version_operators va vb).1]

theorem verLess_error (a b : Str) (e : PErr α) : verLess a b = .error e ↔
    e = .value ∧ ((¬ ∃ r, VersionG a r) ∨ ¬ ∃ s, VersionG b s) := by
  unfold verLess
  simp only [← version_grammar]
  cases ha : parse a with
  | none => simp [eq_comm]
  | some va =>
    cases hb : parse b with
    | none => simp [eq_comm]
    | some vb => simp

theorem newerInRepo_builds {ign : Bool} {i : InstRec} {p : PkgInfo α} (h : UseBuilds ign i p) :
    ∃ a b, i.build = some a ∧ p.build = some b ∧ newerInRepo ign i p = .ok (decide (a < b)) := by
  obtain ⟨rfl, ⟨a, ha, ha0⟩, b, hb, hb0⟩ := h
  exact ⟨a, b, ha, hb, by simp [newerInRepo, ha, hb, ha0, hb0]⟩

theorem newerInRepo_release {ign : Bool} {i : InstRec} {p : PkgInfo α} (h : ¬ UseBuilds ign i p) :
    newerInRepo ign i p = verLess i.release p.release := by
  unfold newerInRepo
  split
  · next a b ha hb =>
    split
    · rfl
    · next hn =>
      simp only [Bool.or_eq_true, decide_eq_true_eq, not_or, Bool.not_eq_true] at hn
      exact absurd ⟨hn.1.1, ⟨a, ha, hn.1.2⟩, b, hb, hn.2⟩ h
  · rfl

theorem newerInRepo_true (ign : Bool) (i : InstRec) (p : PkgInfo α) : newerInRepo ign i p = .ok true ↔
    ((UseBuilds ign i p ∧ ∃ a b, i.build = some a ∧ p.build = some b ∧ a < b) ∨
     (¬ UseBuilds ign i p ∧ ∃ r s, VersionG i.release r ∧ VersionG p.release s ∧ Older r s)) := by
  by_cases h : UseBuilds ign i p
  · obtain ⟨a, b, ha, hb, he⟩ := newerInRepo_builds h
    simp [he, h, ha, hb]
  · simp [newerInRepo_release h, h, verLess_true]

theorem upRev_mem (w : World α) (x : α) (rd : α × Dep α) :
    rd ∈ w.revDepsRepo x ↔ ∃ rs, w.revRepo.get x = some rs ∧ rd ∈ rs := by
  unfold World.revDepsRepo
  cases w.revRepo.get x <;> simp

end Pisi.Plan
