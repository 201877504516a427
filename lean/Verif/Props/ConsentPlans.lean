import Verif.Props.Consent
import Verif.Props.InstallPlan
import Verif.Props.RemovePlan
import Verif.Props.UpgradePlan

/-! # The plans pisi makes are fair in the sense of C176 -/
namespace Pisi.Consent
open ConsentSpec Pisi.Plan Pisi.PlanSpec

/-- The plans of Model/InstallPlan, Model/UpgradePlan and Model/RemovePlan have what is to be treated, and nothing twice; so C176 is about them. -/
theorem plans_fair {σ : Type} (w : σ → World Str) (k : σ → Sched Str) (hk : ∀ s, (k s).Legal) (eager : Bool) (f : PErr Str → Err)
    (m : Machine σ) (expand : ∀ A, (m.expand A).Nodup) (select : ∀ s A l, m.select s A = .ok l → l.Sublist A)
    (files : ∀ l d, m.readFiles l = .ok d → ∀ e ∈ d, e.2 ∈ l) (plan : ∀ s d l, m.planFiles s d = .ok l → ∀ x ∈ l, ∃ e ∈ d, e.1 = x)
    (hi : ∀ s A, m.planInstall s A = (Plan.planInstall (w s) (k s) A).mapError f)
    (hu : ∀ s A, m.planUpgrade s A = (Plan.planUpgrade (w s) (k s) eager A).mapError f)
    (hr : ∀ s A, m.planRemove s A = (Plan.planRemove (w s) (k s) A).mapError f) : Fair m := by
  have ok : ∀ {r : Except (PErr Str) (List Str)} {l : List Str}, r.mapError f = .ok l → r = .ok l := by
    intro r l h
    cases r with
    | error e => cases h
    | ok a => cases h; rfl
  refine ⟨expand, fun s A l hA h => ?_, fun s A l hA h => ?_, fun s A l hA h => ?_, select, files, plan⟩
  · rw [hi] at h
    have := install_plan_closed_minimal (w s) (k s) (hk s) A hA l (ok h)
    exact ⟨this.1, fun x hx => (this.2 x).mpr ⟨x, hx, .refl⟩⟩
  · rw [hu] at h
    have := planUpgrade_ok (w s) (k s) (hk s) eager A hA l (ok h)
    exact ⟨this.1, fun x hx => (this.2.1 x).mpr (.inl ⟨x, hx, .refl⟩)⟩
  · rw [hr] at h
    have := planRemove_ok (w s) (k s) (hk s) A hA l (ok h)
    exact ⟨this.1, fun x hx => (this.2.1 x).mpr ⟨x, hx, .refl⟩⟩

end Pisi.Consent
