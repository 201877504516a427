import Verif.Lemmas.UpgradePlan

/-!
# C16-C18: upgrades
-/
set_option linter.unusedSectionVars false

namespace Pisi.Plan
open Pisi.Graph Pisi.PlanSpec Pisi.Version Pisi.Version.Spec
variable {α : Type} [DecidableEq α]

/-! ## C17 -/

/-- **C17.** `is_upgradable` answers true exactly when the package is installed, available, and the
repository has a greater release, or a greater build when both carry one and builds are not ignored. -/
theorem is_upgradable_iff (w : World α) (ign : Bool) (x : α) :
    isUpgradable w ign x = .ok true ↔ Upgradable w ign x := by
  unfold isUpgradable Upgradable
  cases hi : w.inst.get x with
  | none => simp
  | some i =>
    cases hp : w.repo.get x with
    | none => simp
    | some p => simp [newerInRepo_true]

/-- It raises only for malformed release strings of a package that is installed and available. -/
theorem is_upgradable_error (w : World α) (ign : Bool) (x : α) (e : PErr α) :
    isUpgradable w ign x = .error e ↔ e = .value ∧ ∃ i p, w.inst.get x = some i ∧ w.repo.get x = some p ∧
      ¬ UseBuilds ign i p ∧ ((¬ ∃ r, VersionG i.release r) ∨ ¬ ∃ s, VersionG p.release s) := by
  unfold isUpgradable
  cases hi : w.inst.get x with
  | none => simp
  | some i =>
    cases hp : w.repo.get x with
    | none => simp
    | some p =>
      by_cases h : UseBuilds ign i p
      · obtain ⟨a, b, ha, hb, he⟩ := newerInRepo_builds h
        simp [he, h]
      · simp [newerInRepo_release h, h, verLess_error]

/-- **C17.** Installing the repository version of a package makes it no longer upgradable, and does not change
whether other packages are. -/
theorem upgrade_settles (w : World α) (x : α) (p : PkgInfo α) (hp : w.repo.get x = some p) (ign : Bool) :
    ¬ Upgradable (World.install w x p) ign x ∧
    ∀ y, y ≠ x → (Upgradable (World.install w x p) ign y ↔ Upgradable w ign y) := by
  constructor
  · rintro ⟨i, q, hi, hq, h⟩
    rw [(install_get_inst w x x p).1] at hi
    simp only [if_true, Option.some.injEq] at hi
    subst hi
    have hq' : w.repo.get x = some q := hq
    rw [hp] at hq'; cases hq'
    rcases h with ⟨_, a, b, ha, hb, hlt⟩ | ⟨_, r, s, hr, hs, ho⟩
    · have ha' : p.build = some a := ha
      rw [ha'] at hb; cases hb; omega
    · have := version_grammar_unique _ _ _ hr hs
      subst this
      rw [older_iff] at ho
      obtain ⟨n, _, hn⟩ := ho
      have := (itemBefore_iff _ _).mpr hn
      rcases this with h | ⟨_, h⟩
      · omega
      · generalize (comp r n).val = v at h
        cases h <;> simp_all
  · intro y hy
    unfold Upgradable
    have : (World.install w x p).inst.get y = w.inst.get y := by
      rw [(install_get_inst w x y p).1]; simp [Ne.symm hy]
    rw [this]
    exact Iff.rfl

/-! ## C16 -/

theorem upFwd_deps_ok (w : World α) (eager : Bool) (x : α) (ds : List (Dep α)) :
    (upFwdLoop w eager).deps x = .ok ds ↔ ∃ p, w.repo.get x = some p ∧ p.compDeps = [] ∧ ds = p.deps :=
  installLoop_deps_ok w x ds

theorem upFwd_keep (w : World α) (eager : Bool) (x : α) (d : Dep α) (b : Bool)
    (h : (upFwdLoop w eager).keep x d = .ok b) : Offered w d ∧ (b = true ↔ MustChange w eager d) := by
  simp only [upFwdLoop] at h
  cases hr : w.repoSatisfies d with
  | error e => simp [hr] at h
  | ok c =>
    cases c with
    | false => simp [hr] at h
    | true =>
      refine ⟨(repoSatisfies_true w d).mp hr, ?_⟩
      simp only [hr] at h
      unfold MustChange
      cases hi : w.inst.get d.package with
      | none =>
        have : w.isInstalled d.package = false := by simp [World.isInstalled, Dict.has, hi]
        simp only [this, Bool.false_eq_true, if_false, Except.ok.injEq] at h
        subst h
        simp
      | some i =>
        have : w.isInstalled d.package = true := by simp [World.isInstalled, Dict.has, hi]
        simp only [this, if_true] at h
        cases eager with
        | true =>
          simp only [if_true] at h
          simp only [ne_eq, Option.some.injEq, forall_eq', false_or, if_true,
            ← is_upgradable_iff, h, Except.ok.injEq]
        | false =>
          simp only [Bool.false_eq_true, if_false] at h
          cases hs : w.installedSatisfies d with
          | error e => simp [hs] at h
          | ok c =>
            simp only [hs, Except.ok.injEq] at h
            subst h
            simp only [ne_eq, Option.some.injEq, forall_eq', false_or,
              Bool.false_eq_true, if_false, ← installedSatisfies_true, hs, Except.ok.injEq]
            cases c <;> simp

theorem upFwd_R (w : World α) (eager : Bool) {x y : α} (h : (upFwdLoop w eager).R x y) :
    UpNeeds w eager x y := by
  obtain ⟨ds, d, h1, h2, h3, rfl⟩ := h
  obtain ⟨p, hp, hc, rfl⟩ := (upFwd_deps_ok w eager x ds).mp h1
  exact ⟨d, ⟨p, hp, h2⟩, rfl, ((upFwd_keep w eager x d true h3).2).mp rfl⟩

theorem upFwd_R_iff (w : World α) (eager : Bool) {x : α} (hc : (upFwdLoop w eager).Clean x) (y : α) :
    (upFwdLoop w eager).R x y ↔ UpNeeds w eager x y := by
  refine ⟨upFwd_R w eager, ?_⟩
  rintro ⟨d, ⟨p, hp, hd⟩, rfl, hm⟩
  obtain ⟨ds, h1, h2⟩ := hc
  obtain ⟨p', hp', hcd, rfl⟩ := (upFwd_deps_ok w eager x ds).mp h1
  rw [hp] at hp'; cases hp'
  obtain ⟨b, hb⟩ := h2 d hd
  have := ((upFwd_keep w eager x d b hb).2).mpr hm
  subst this
  exact ⟨p.deps, d, h1, hd, hb, rfl⟩

theorem upRev_deps_ok (w : World α) (eager : Bool) (x : α) (ds) :
    (upRevLoop w eager).deps x = .ok ds ↔ (∃ p, w.repo.get x = some p) ∧ ds = w.revDepsRepo x := by
  simp only [upRevLoop, World.getRepo]
  cases w.repo.get x <;> simp [eq_comm]

theorem upRev_keep (w : World α) (eager : Bool) (x r : α) (d : Dep α) (b : Bool)
    (h : (upRevLoop w eager).keep x (r, d) = .ok b) :
    (b = true ↔ if eager then Upgradable w false r else (∃ i, w.inst.get r = some i) ∧ ¬ Satisfied w d) ∧
    (eager = false → b = true → Offered w d) := by
  simp only [upRevLoop] at h
  cases eager with
  | true =>
    simp only [if_true] at h
    simp [← is_upgradable_iff, h]
  | false =>
    simp only [Bool.false_eq_true, if_false, World.isInstalled] at h
    simp only [Bool.false_eq_true, if_false, ← installedSatisfies_true, ← has_iff]
    cases hi : w.inst.has r with
    | false => simp [hi] at h; simp [h]
    | true =>
      simp only [hi, if_true] at h
      cases hs : w.installedSatisfies d with
      | error e => simp [hs] at h
      | ok c =>
        cases c with
        | true => simp [hs] at h; simp [h]
        | false =>
          simp only [hs] at h
          cases hr : w.repoSatisfies d with
          | error e => simp [hr] at h
          | ok c => cases c with
            | false => simp [hr] at h
            | true => simp [hr] at h; simp [← h, (repoSatisfies_true w d).mp hr]

theorem upRev_R (w : World α) (eager : Bool) {x y : α} (h : (upRevLoop w eager).R x y) :
    Drags w eager x y := by
  obtain ⟨ds, ⟨r, d⟩, h1, h2, h3, rfl⟩ := h
  obtain ⟨hp, rfl⟩ := (upRev_deps_ok w eager x ds).mp h1
  exact ⟨d, (upRev_mem w x _).mp h2, ((upRev_keep w eager x r d true h3).1).mp rfl⟩

theorem upRev_R_iff (w : World α) (eager : Bool) {x : α} (hc : (upRevLoop w eager).Clean x) (y : α) :
    (upRevLoop w eager).R x y ↔ Drags w eager x y := by
  refine ⟨upRev_R w eager, ?_⟩
  rintro ⟨d, hm, hk⟩
  obtain ⟨ds, h1, h2⟩ := hc
  obtain ⟨hp, rfl⟩ := (upRev_deps_ok w eager x ds).mp h1
  have hmem := (upRev_mem w x (y, d)).mpr hm
  obtain ⟨b, hb⟩ := h2 _ hmem
  have := ((upRev_keep w eager x y d b hb).1).mpr hk
  subst this
  exact ⟨_, (y, d), h1, hmem, hb, rfl⟩

theorem dragged_iff (w : World α) (eager : Bool) (A V : List α)
    (hV : ∀ x, x ∈ V ↔ Reach (UpNeeds w eager) A x)
    (hclean : ∀ x, (upRevLoop w eager).Exp V A x → (upRevLoop w eager).Clean x) (x : α) :
    (upRevLoop w eager).Exp V A x ↔ Dragged w eager A x := by
  constructor
  · intro h
    induction h with
    | base h => exact .start h
    | step _ h hy ih => exact .step ih (upRev_R w eager h) (fun hr => hy ((hV _).mpr hr))
  · intro h
    induction h with
    | start h => exact .base h
    | step _ h hy ih => exact .step ih ((upRev_R_iff w eager (hclean _ ih) _).mpr h) (fun hv => hy ((hV _).mp hv))

/-- Everything known when planning an upgrade succeeds. -/
theorem planUpgrade_ok (w : World α) (σ : Sched α) (hσ : σ.Legal) (eager : Bool) (A : List α) (hA : A.Nodup)
    (order : List α) (h : planUpgrade w σ eager A = .ok order) :
    order.Nodup ∧
    (∀ x, x ∈ order ↔ Reach (UpNeeds w eager) A x ∨ Dragged w eager A x) ∧
    (∀ x, Reach (UpNeeds w eager) A x → ∀ d, RepoDep w x d → Offered w d ∧
      (MustChange w eager d → Spec.Before order d.package x)) ∧
    (∀ u, u ∈ order → ¬ Reach (UpNeeds w eager) A u →
      ∃ v, Dragged w eager A v ∧ Drags w eager v u ∧ Spec.Before order v u) ∧
    (eager = false → ∀ x, Dragged w eager A x → ∀ r d, (∃ rs, w.revRepo.get x = some rs ∧ (r, d) ∈ rs) →
      (∃ i, w.inst.get r = some i) → ¬ Satisfied w d → Offered w d ∧ r ∈ order) := by
  unfold planUpgrade at h
  cases h0 : addPackages w.getRepo (σ.front A) Digraph.empty with
  | error e => simp [h0] at h
  | ok g0 =>
    simp only [h0] at h
    obtain ⟨hw0, hv0, hadj0, hpres⟩ := planInstall_graph w σ hσ A hA g0 h0
    cases h1 : (upFwdLoop w eager).closure .fuel σ.front (w.repo.keys.length + 1) A g0 with
    | error e => simp [h1] at h
    | ok g1 =>
      simp only [h1] at h
      obtain ⟨k1, k2, k3, k4, k5, k6, _⟩ :=
        closure_exp (upFwdLoop w eager) hσ.front hw0 (fun x hx => (hv0 x).mpr hx) h1
      have hexp := exp_reach (upFwdLoop w eager) g0.verts A hv0
      have hclean : ∀ x, Reach (upFwdLoop w eager).R A x → (upFwdLoop w eager).Clean x :=
        fun x hx => k3 x ((hexp x).mpr hx)
      have hcongr := reach_congr (R := (upFwdLoop w eager).R) (R' := UpNeeds w eager) (A := A)
        (fun x hx y => upFwd_R_iff w eager (hclean x hx) y)
      have hall1 : ∀ x, x ∈ g1.verts ↔ Reach (UpNeeds w eager) A x := by
        intro x
        rw [k2 x, hexp x, hv0 x, hcongr x]
        exact ⟨fun h => h.elim (fun h => ⟨x, h, .refl⟩) id, Or.inr⟩
      have hAg1 : ∀ x ∈ A, x ∈ g1.verts := fun x hx => (hall1 x).mpr ⟨x, hx, .refl⟩
      cases h2 : (upRevLoop w eager).closure .fuel σ.front (w.repo.keys.length + 1) A g1 with
      | error e => simp [h2] at h
      | ok g2 =>
        simp only [h2] at h
        obtain ⟨m1, m2, m3, m4, m5, _, m7, m8, m9⟩ :=
          closure_exp (upRevLoop w eager) hσ.front k1 hAg1 h2
        have hdrag := dragged_iff w eager A g1.verts hall1 m3
        cases h3 : liftErr (topologicalSort (σ.graph g2)) with
        | error e => simp [h3] at h
        | ok l =>
          simp only [h3, Except.ok.injEq] at h
          subst h
          have ht := sort_ok hσ m1 h3
          have hall : ∀ x, x ∈ g2.verts ↔ Reach (UpNeeds w eager) A x ∨ Dragged w eager A x := by
            intro x; rw [m2 x, hall1 x, hdrag x]
          refine ⟨List.nodup_reverse.mpr ht.once, fun x => ?_, ?_, ?_, ?_⟩
          · rw [List.mem_reverse, ht.all x]; exact hall x
          · rintro x hx d ⟨p, hp, hd⟩
            have hx' := (hcongr x).mpr hx
            obtain ⟨ds, c1, c2⟩ := hclean x hx'
            obtain ⟨p', hp', hcd, rfl⟩ := (upFwd_deps_ok w eager x ds).mp c1
            rw [hp] at hp'; cases hp'
            obtain ⟨b, hb⟩ := c2 d hd
            obtain ⟨ho, hbm⟩ := upFwd_keep w eager x d b hb
            refine ⟨ho, fun hmc => ?_⟩
            apply before_reverse
            apply ht.forward
            apply m9
            rw [k6 rfl x d.package]
            exact Or.inr ⟨(hexp x).mpr hx', (upFwd_R_iff w eager (hclean x hx') _).mpr ⟨d, ⟨p, hp, hd⟩, rfl, hmc⟩⟩
          · intro u hu hn
            rw [List.mem_reverse, ht.all u, hall u] at hu
            have hu' := (hdrag u).mpr (hu.resolve_left hn)
            obtain ⟨v, hv, hR, hadj⟩ := m8 rfl u hu' (fun hm => hn ((hall1 u).mp hm))
            exact ⟨v, (hdrag v).mp hv, upRev_R w eager hR, before_reverse (ht.forward u v hadj)⟩
          · intro he x hx r d hm hi hs
            have hx' := (hdrag x).mpr hx
            obtain ⟨ds, c1, c2⟩ := m3 x hx'
            obtain ⟨hp, rfl⟩ := (upRev_deps_ok w eager x ds).mp c1
            have hmem := (upRev_mem w x (r, d)).mpr hm
            obtain ⟨b, hb⟩ := c2 _ hmem
            have hkk := upRev_keep w eager x r d b hb
            have : b = true := by
              apply hkk.1.mpr
              simp only [he, Bool.false_eq_true, if_false]
              exact ⟨hi, hs⟩
            refine ⟨hkk.2 he this, ?_⟩
            rw [List.mem_reverse, ht.all r]
            subst this
            exact m4 x r hx' ⟨_, (r, d), c1, hmem, hb, rfl⟩

/-- **C16.** A successful upgrade plan contains, without duplicates, exactly the requested packages, the packages
reached forward through dependencies that must change, and those dragged in backwards; for every package
of the forward part each dependency is satisfiable from the repositories and, if it must change, comes
before the package; every package dragged in comes after the one that dragged it in. -/
theorem upgrade_plan_sound (w : World α) (σ : Sched α) (hσ : σ.Legal) (eager : Bool) (A : List α) (hA : A.Nodup)
    (order : List α) (h : planUpgrade w σ eager A = .ok order) :
    order.Nodup ∧ (∀ x ∈ A, x ∈ order) ∧
    (∀ x, x ∈ order ↔ Reach (UpNeeds w eager) A x ∨ Dragged w eager A x) ∧
    (∀ x, Reach (UpNeeds w eager) A x → ∀ d, RepoDep w x d → Offered w d ∧
      (MustChange w eager d → d.package ∈ order ∧ Spec.Before order d.package x)) ∧
    (∀ u, u ∈ order → ¬ Reach (UpNeeds w eager) A u →
      ∃ v ∈ order, Drags w eager v u ∧ Spec.Before order v u) := by
  obtain ⟨a, b, c, d, _⟩ := planUpgrade_ok w σ hσ eager A hA order h
  refine ⟨a, fun x hx => (b x).mpr (Or.inl ⟨x, hx, .refl⟩), b, fun x hx dep hd => ?_, fun u hu hn => ?_⟩
  · obtain ⟨e, f⟩ := c x hx dep hd
    refine ⟨e, fun hm => ⟨?_, f hm⟩⟩
    obtain ⟨y, hy, hr⟩ := hx
    exact (b _).mpr (Or.inl ⟨y, hy, hr.tail ⟨dep, hd, rfl, hm⟩⟩)
  · obtain ⟨v, hv, hd, hb⟩ := d u hu hn
    exact ⟨v, (b v).mpr (Or.inr hv), hd, hb⟩

/-- **C16 (non-eager, reverse dependencies).** Every installed package recorded as depending on a package of the
backward part through a dependency the installed system does not satisfy is in the plan, and that
dependency is satisfiable from the repositories. -/
theorem upgrade_plan_revdeps (w : World α) (σ : Sched α) (hσ : σ.Legal) (A : List α) (hA : A.Nodup)
    (order : List α) (h : planUpgrade w σ false A = .ok order) (x : α) (hx : x ∈ A ∨ Dragged w false A x)
    (r : α) (d : Dep α) (hrec : ∃ rs, w.revRepo.get x = some rs ∧ (r, d) ∈ rs)
    (hi : ∃ i, w.inst.get r = some i) (hs : ¬ Satisfied w d) : Offered w d ∧ r ∈ order := by
  obtain ⟨_, _, _, _, e⟩ := planUpgrade_ok w σ hσ false A hA order h
  exact e rfl x (hx.elim .start id) r d hrec hi hs

/-- **C16 (failures).** If planning an upgrade fails then a package met is missing, a version string is malformed,
component dependencies are met, a followed dependency cannot be satisfied from the repositories, or the
dependencies that must change form a cycle.  Packages dragged in backwards never cause a cycle. -/
theorem upgrade_plan_failure (w : World α) (σ : Sched α) (hσ : σ.Legal) (eager : Bool) (A : List α)
    (hA : A.Nodup) (e : PErr α) (h : planUpgrade w σ eager A = .error e) :
    UpgradeFails w eager A e := by
  have hrs : ∀ d e, ((∃ x, RepoDep w x d) ∨ ∃ x r rs, w.revRepo.get x = some rs ∧ (r, d) ∈ rs) →
      w.repoSatisfies d = .error e → UpgradeFails w eager A e := by
    intro d e hd he
    unfold World.repoSatisfies at he
    cases hr : w.repo.get d.package with
    | none => simp [hr] at he
    | some p =>
      simp only [hr] at he
      obtain ⟨rfl, hn⟩ := (testDep_error d p e).mp he
      exact Or.inl ⟨d, p, hd, Or.inl hr, hn⟩
  have his : ∀ d e, ((∃ x, RepoDep w x d) ∨ ∃ x r rs, w.revRepo.get x = some rs ∧ (r, d) ∈ rs) →
      w.installedSatisfies d = .error e → UpgradeFails w eager A e := by
    intro d e hd he
    rcases installedSatisfies_error w d _ he with ⟨rfl, hi, ht⟩ | ⟨rfl, hi, q, ht, hn⟩
    · exact Or.inr ⟨hi, ht⟩
    · exact Or.inl ⟨d, q, hd, Or.inr ht, hn⟩
  have hup : ∀ x e, isUpgradable w false x = .error e → UpgradeFails w eager A e := by
    intro x e he
    obtain ⟨rfl, i, p, hi, hp, _, hn⟩ := (is_upgradable_error w false x e).mp he
    exact Or.inr ⟨x, i, p, hi, hp, hn⟩
  have hfetch : ∀ y, (match w.getRepo y with
      | .ok _ => Except.ok ()
      | .error e => Except.error e) = Except.ok () → y ∈ w.repo.keys := by
    intro y hy
    unfold World.getRepo at hy
    cases hr : w.repo.get y with
    | none => simp [hr] at hy
    | some p => exact mem_of_getRepo hr
  unfold planUpgrade at h
  cases h0 : addPackages w.getRepo (σ.front A) Digraph.empty with
  | error e' =>
    have := addPackages_spec w.getRepo (σ.front A) Digraph.empty empty_wf
      ((hσ.front A).nodup_iff.mpr hA) (by simp [Digraph.empty])
    rw [h0] at this
    obtain ⟨x, hx, hg⟩ := this
    simp only [h0, Except.error.injEq] at h
    subst h
    obtain ⟨hn, rfl⟩ := (getRepo_error w x _).mp hg
    exact Or.inl hn
  | ok g0 =>
    simp only [h0] at h
    obtain ⟨hw0, hv0, hadj0, hpres⟩ := planInstall_graph w σ hσ A hA g0 h0
    have hexp := exp_reach (upFwdLoop w eager) g0.verts A hv0
    cases h1 : (upFwdLoop w eager).closure .fuel σ.front (w.repo.keys.length + 1) A g0 with
    | error e' =>
      simp only [h1, Except.error.injEq] at h
      subst h
      obtain ⟨x, hx, hf⟩ := closure_err (upFwdLoop w eager) .fuel σ.front hσ.front w.repo.keys
        hfetch A g0 hw0 (fun x hx => (hv0 x).mpr hx) _ h1
      have hreach : Reach (UpNeeds w eager) A x :=
        reach_mono (fun _ _ => upFwd_R w eager) ((hexp x).mp hx)
      rcases hf with hf | ⟨ds, d, hd1, hd2, hk⟩ | ⟨y, hR, hyn, hfe⟩
      · simp only [upFwdLoop, World.getRepo] at hf
        cases hr : w.repo.get x with
        | none =>
          simp only [hr, Except.error.injEq] at hf
          subst hf
          exact Or.inl hr
        | some p =>
          simp only [hr, PkgInfo.runtimeDeps] at hf
          split at hf
          · simp at hf
          · next hc =>
            simp only [Except.error.injEq] at hf
            subst hf
            exact ⟨x, p, hreach, hr, hc⟩
      · obtain ⟨p, hp, hc, rfl⟩ := (upFwd_deps_ok w eager x ds).mp hd1
        simp only [upFwdLoop] at hk
        cases hr : w.repoSatisfies d with
        | error e2 =>
          simp only [hr, Except.error.injEq] at hk
          subst hk; exact hrs d _ (Or.inl ⟨x, p, hp, hd2⟩) hr
        | ok c =>
          cases c with
          | false =>
            simp only [hr, Except.error.injEq] at hk
            subst hk
            refine ⟨?_, Or.inl ⟨hreach, p, hp, hd2⟩⟩
            rw [← repoSatisfies_true, hr]; simp
          | true =>
            simp only [hr] at hk
            split at hk
            · split at hk
              · exact hup _ _ hk
              · cases hi : w.installedSatisfies d with
                | ok b => simp [hi] at hk
                | error e2 =>
                  simp only [hi, Except.error.injEq] at hk
                  subst hk
                  exact his d _ (Or.inl ⟨x, p, hp, hd2⟩) hi
            · simp at hk
      · have hfe' : w.getRepo y = .error e' := by
          simp only [upFwdLoop] at hfe
          cases hi : w.getRepo y with
          | ok b => simp [hi] at hfe
          | error e2 => simp only [hi, Except.error.injEq] at hfe; rw [hfe]
        obtain ⟨hn, rfl⟩ := (getRepo_error w y _).mp hfe'
        exact Or.inl hn
    | ok g1 =>
      simp only [h1] at h
      obtain ⟨k1, k2, k3, k4, k5, k6, _⟩ :=
        closure_exp (upFwdLoop w eager) hσ.front hw0 (fun x hx => (hv0 x).mpr hx) h1
      have hcongr := reach_congr (R := (upFwdLoop w eager).R) (R' := UpNeeds w eager) (A := A)
        (fun x hx y => upFwd_R_iff w eager (k3 x ((hexp x).mpr hx)) y)
      have hall1 : ∀ x, x ∈ g1.verts ↔ Reach (UpNeeds w eager) A x := by
        intro x
        rw [k2 x, hexp x, hv0 x, hcongr x]
        exact ⟨fun h => h.elim (fun h => ⟨x, h, .refl⟩) id, Or.inr⟩
      have hAg1 : ∀ x ∈ A, x ∈ g1.verts := fun x hx => (hall1 x).mpr ⟨x, hx, .refl⟩
      cases h2 : (upRevLoop w eager).closure .fuel σ.front (w.repo.keys.length + 1) A g1 with
      | error e' =>
        simp only [h2, Except.error.injEq] at h
        subst h
        obtain ⟨x, hx, hf⟩ := closure_err (upRevLoop w eager) .fuel σ.front hσ.front w.repo.keys
          hfetch A g1 k1 hAg1 _ h2
        have hdr : Dragged w eager A x := by
          clear hf
          induction hx with
          | base h => exact .start h
          | step _ h hy ih => exact .step ih (upRev_R w eager h) (fun hr => hy ((hall1 _).mpr hr))
        rcases hf with hf | ⟨ds, ⟨r, d⟩, hd1, hd2, hk⟩ | ⟨y, hR, hyn, hfe⟩
        · simp only [upRevLoop] at hf
          cases hr : w.getRepo x with
          | ok p => simp [hr] at hf
          | error e2 =>
            simp only [hr, Except.error.injEq] at hf
            subst hf
            obtain ⟨hn, rfl⟩ := (getRepo_error w x _).mp hr
            exact Or.inl hn
        · obtain ⟨hp, rfl⟩ := (upRev_deps_ok w eager x ds).mp hd1
          obtain ⟨rs, hrs1, hm⟩ := (upRev_mem w x _).mp hd2
          simp only [upRevLoop] at hk
          split at hk
          · exact hup _ _ hk
          · next he =>
            simp only [Bool.not_eq_true] at he
            split at hk
            · next hins =>
              cases hi : w.installedSatisfies d with
              | error e2 =>
                simp only [hi, Except.error.injEq] at hk
                subst hk
                exact his d _ (Or.inr ⟨x, r, rs, hrs1, hm⟩) hi
              | ok b =>
                cases b with
                | true => simp [hi] at hk
                | false =>
                  simp only [hi] at hk
                  cases hr : w.repoSatisfies d with
                  | error e2 =>
                    simp only [hr, Except.error.injEq] at hk
                    subst hk; exact hrs d _ (Or.inr ⟨x, r, rs, hrs1, hm⟩) hr
                  | ok c =>
                    cases c with
                    | true => simp [hr] at hk
                    | false =>
                      simp only [hr, Except.error.injEq] at hk
                      subst hk
                      refine ⟨?_, Or.inr ⟨he, x, rs, hdr, hrs1, hm, (has_iff _ _).mp hins, ?_⟩⟩
                      · rw [← repoSatisfies_true, hr]; simp
                      · rw [← installedSatisfies_true, hi]; simp
            · simp at hk
        · have hfe' : w.getRepo y = .error e' := by
            simp only [upRevLoop] at hfe
            cases hi : w.getRepo y with
            | ok b => simp [hi] at hfe
            | error e2 => simp only [hi, Except.error.injEq] at hfe; rw [hfe]
          obtain ⟨hn, rfl⟩ := (getRepo_error w y _).mp hfe'
          exact Or.inl hn
      | ok g2 =>
        simp only [h2] at h
        obtain ⟨m1, m2, m3, m4, m5, _, m7, m8, m9⟩ :=
          closure_exp (upRevLoop w eager) hσ.front k1 hAg1 h2
        cases h3 : liftErr (topologicalSort (σ.graph g2)) with
        | ok l => simp [h3] at h
        | error e' =>
          simp only [h3, Except.error.injEq] at h
          subst h
          obtain ⟨⟨p, rfl⟩, x, hx⟩ := sort_err hσ m1 h3
          -- edges inside the forward part stay there; other edges go back in time
          have hstep : ∀ u v, v ∈ g2.adj u →
              (Reach (UpNeeds w eager) A u ∧ UpNeeds w eager u v ∧ Reach (UpNeeds w eager) A v) ∨
              (¬ Reach (UpNeeds w eager) A u ∧ Pos g2.verts v u) := by
            intro u v huv
            rcases m7 rfl u v huv with h' | ⟨_, hn, _, _, hp⟩
            · rw [k6 rfl u v, hadj0 u] at h'
              rcases h' with h' | ⟨hu, hR⟩
              · simp at h'
              · left
                have hu' := (hcongr u).mp ((hexp u).mp hu)
                have hn := upFwd_R w eager hR
                obtain ⟨a, ha, hr⟩ := hu'
                exact ⟨⟨a, ha, hr⟩, hn, a, ha, hr.tail hn⟩
            · exact Or.inr ⟨fun hr => hn ((hall1 u).mpr hr), hp⟩
          have hfwd : ∀ u v, Relation.TransGen (fun u v => v ∈ g2.adj u) u v → Reach (UpNeeds w eager) A u →
              Relation.TransGen (fun x y => Reach (UpNeeds w eager) A x ∧ UpNeeds w eager x y) u v ∧
              Reach (UpNeeds w eager) A v := by
            intro u v huv hu
            induction huv with
            | single h' =>
              rcases hstep _ _ h' with ⟨h1, h2, h3⟩ | ⟨hn, _⟩
              · exact ⟨.single ⟨h1, h2⟩, h3⟩
              · exact absurd hu hn
            | tail _ h' ih =>
              rcases hstep _ _ h' with ⟨h1, h2, h3⟩ | ⟨hn, _⟩
              · exact ⟨ih.1.tail ⟨h1, h2⟩, h3⟩
              · exact absurd ih.2 hn
          have hback : ∀ u v, Relation.TransGen (fun u v => v ∈ g2.adj u) u v →
              ¬ Reach (UpNeeds w eager) A v → Pos g2.verts v u ∧ ¬ Reach (UpNeeds w eager) A u := by
            intro u v huv
            induction huv with
            | single h' =>
              intro hv
              rcases hstep _ _ h' with ⟨h1, h2, h3⟩ | ⟨hn, hp⟩
              · exact absurd h3 hv
              · exact ⟨hp, hn⟩
            | tail _ h' ih =>
              intro hv
              rcases hstep _ _ h' with ⟨h1, h2, h3⟩ | ⟨hn, hp⟩
              · exact absurd h3 hv
              · obtain ⟨i1, i2⟩ := ih hn
                exact ⟨Pos.trans m1.nodup hp i1, i2⟩
          by_cases hF : Reach (UpNeeds w eager) A x
          · exact ⟨x, (hfwd x x hx hF).1⟩
          · exact absurd (hback x x hx hF).1 (Pos.irrefl m1.nodup x)

/-! ## C18 -/

theorem newerUpdates_mem (release : Str) (us l : List Upd) (h : newerUpdates (α := α) release us = .ok l) (u : Upd) :
    u ∈ l ↔ u ∈ us ∧ ∃ r s, VersionG release r ∧ VersionG u.release s ∧ Older r s := by
  induction us generalizing l with
  | nil => simp [newerUpdates] at h; simp [h]
  | cons v us ih =>
    simp only [newerUpdates] at h
    cases hv : parse v.release with
    | none => simp [hv] at h
    | some vu =>
      cases hr : parse release with
      | none => simp [hv, hr] at h
      | some vr =>
        simp only [hv, hr] at h
        cases hn : newerUpdates (α := α) release us with
        | error e => simp [hn] at h
        | ok l' =>
          simp only [hn, Except.ok.injEq] at h
          have hi := ih l' hn
          have hdec : (∃ r s, VersionG release r ∧ VersionG v.release s ∧ Older r s) ↔ vgt vu vr = true := by
            simp only [← version_grammar, hr, hv, Option.some.injEq]
            rw [(version_operators vu vr).2.1]
            constructor
            · rintro ⟨r, s, rfl, rfl, h⟩; exact h
            · intro h; exact ⟨vr, vu, rfl, rfl, h⟩
          subst h
          by_cases hg : vgt vu vr = true
          · simp only [hg, if_true, List.mem_cons, hi]
            constructor
            · rintro (rfl | ⟨h1, h2⟩)
              · exact ⟨Or.inl rfl, hdec.mpr hg⟩
              · exact ⟨Or.inr h1, h2⟩
            · rintro ⟨rfl | h1, h2⟩
              · exact Or.inl rfl
              · exact Or.inr ⟨h1, h2⟩
          · simp only [hg, Bool.false_eq_true, if_false, List.mem_cons, hi]
            constructor
            · rintro ⟨h1, h2⟩; exact ⟨Or.inr h1, h2⟩
            · rintro ⟨rfl | h1, h2⟩
              · exact absurd (hdec.mp h2) hg
              · exact ⟨h1, h2⟩

/-- Selecting one package. -/
theorem selectOne_spec (w : World α) (sec ign : Bool) (x : α) (o : Option (α ⊕ Upd))
    (h : selectOne w sec ign x = .ok o) :
    (o.isSome = true ↔ Upgradable w ign x ∧ (sec = true → HasSecurityUpdate w x)) ∧
    (∀ e, o = some e → if sec then ∃ u, e = .inr u else e = .inl x) := by
  unfold selectOne at h
  cases hi : w.inst.get x with
  | none => simp only [hi, Except.ok.injEq] at h; subst h; simp [Upgradable, hi]
  | some i =>
    cases hp : w.repo.get x with
    | none => simp only [hi, hp, Except.ok.injEq] at h; subst h; simp [Upgradable, hp]
    | some p =>
      have hU : Upgradable w ign x ↔ newerInRepo ign i p = .ok true := by
        rw [newerInRepo_true]; simp [Upgradable, hi, hp]
      simp only [hi, hp] at h
      cases sec with
      | false =>
        simp only [Bool.false_eq_true, if_false] at h
        cases hn : newerInRepo ign i p with
        | error e => simp [hn] at h
        | ok b =>
          simp only [hn, Except.ok.injEq] at h
          subst h
          cases b <;> simp [hU, hn]
      | true =>
        simp only [if_true] at h
        cases hu : newerUpdates (α := α) i.release p.history with
        | error e => simp [hu] at h
        | ok us =>
          simp only [hu] at h
          have hS : HasSecurityUpdate w x ↔ us.any (fun u => u.security) = true := by
            simp only [HasSecurityUpdate, hi, hp, Option.some.injEq, List.any_eq_true]
            constructor
            · rintro ⟨_, _, u, rfl, rfl, h1, h2, h3⟩
              exact ⟨u, (newerUpdates_mem _ _ _ hu u).mpr ⟨h1, h3⟩, h2⟩
            · rintro ⟨u, h1, h2⟩
              obtain ⟨h3, h4⟩ := (newerUpdates_mem _ _ _ hu u).mp h1
              exact ⟨i, p, u, rfl, rfl, h3, h2, h4⟩
          by_cases ha : us.any (fun u => u.security) = true
          · simp only [ha, if_true] at h
            cases hn : newerInRepo ign i p with
            | error e => simp [hn] at h
            | ok b =>
              simp only [hn, Except.ok.injEq] at h
              subst h
              have hlast : ∃ u, p.history.getLast? = some u := by
                obtain ⟨u, h1, _⟩ := List.any_eq_true.mp ha
                have := ((newerUpdates_mem _ _ _ hu u).mp h1).1
                cases hh : p.history with
                | nil => rw [hh] at this; simp at this
                | cons a t => exact ⟨_, List.getLast?_eq_some_getLast (by simp)⟩
              obtain ⟨u, hu'⟩ := hlast
              cases b <;> simp [hU, hn, hu', hS, ha]
          · simp only [ha, Bool.false_eq_true, if_false, Except.ok.injEq] at h
            subst h
            simp [hS, ha]

/-- **C18, full statement**: with the security option, the packages selected are exactly the requested packages that are
upgradable and have a newer security update. -/
def SecuritySelection : Prop :=
  ∀ (w : World Nat) (ign : Bool) (A : List Nat) (l : List (Nat ⊕ Upd)),
    selectUpgrades w true ign A = .ok l →
    ∀ x, .inl x ∈ l ↔ x ∈ A ∧ Upgradable w ign x ∧ HasSecurityUpdate w x

/-- Package 1 installed with release 1; the repository has release 2, a security update. -/
def secWorld : World Nat where
  repo := [(1, { version := ['1'], release := ['2'], history := [⟨['2'], true⟩, ⟨['1'], false⟩] })]
  inst := [(1, ⟨['1'], ['1'], none⟩)]
  track := []

/-- **C18 is false of the code**: the comprehension overwrites the loop variable, so an `Update` object is queued
instead of the package. -/
theorem security_selection_refuted : ¬ SecuritySelection := by
  intro h
  have := (h secWorld false [1] [.inr ⟨['1'], false⟩] (by rfl) 1).mpr ⟨by simp, ?_, ?_⟩
  · simp at this
  · exact (is_upgradable_iff _ _ _).mp (by rfl)
  · have := (selectOne_spec secWorld true false 1 (some (.inr ⟨['1'], false⟩)) (by rfl)).1.mp rfl
    exact this.2 rfl

/-- **C18, proved part**: without the option the selected packages are exactly the requested upgradable ones; with it, an
entry is queued exactly for the upgradable packages with a newer security update, but (missing) the
entry is never the package name, so no package is ever upgraded with the security option. -/
theorem security_selection_partial (w : World α) (sec ign : Bool) (A : List α) (l : List (α ⊕ Upd))
    (h : selectUpgrades w sec ign A = .ok l) :
    (sec = false → ∀ x, .inl x ∈ l ↔ x ∈ A ∧ Upgradable w ign x) ∧
    (sec = true → (∀ x, Sum.inl x ∉ l) ∧ ∃ sel : List α, sel.Sublist A ∧ sel.length = l.length ∧
      (∀ x ∈ sel, Upgradable w ign x ∧ HasSecurityUpdate w x) ∧
      ∀ x ∈ A, Upgradable w ign x → HasSecurityUpdate w x → x ∈ sel) := by
  induction A generalizing l with
  | nil =>
    simp only [selectUpgrades, Except.ok.injEq] at h
    subst h
    exact ⟨by simp, fun _ => ⟨by simp, [], by simp, rfl, by simp, by simp⟩⟩
  | cons a A ih =>
    simp only [selectUpgrades] at h
    cases ha : selectOne w sec ign a with
    | error e => simp [ha] at h
    | ok o =>
      simp only [ha] at h
      cases hl : selectUpgrades w sec ign A with
      | error e => simp [hl] at h
      | ok l' =>
        simp only [hl, Except.ok.injEq] at h
        obtain ⟨i1, i2⟩ := ih l' hl
        obtain ⟨s1, s2⟩ := selectOne_spec w sec ign a o ha
        constructor
        · intro hs x
          have i3 := i1 hs
          clear i1 i2
          subst hs
          cases o with
          | none =>
            simp only at h; subst h
            rw [i3 x]
            simp only [Option.isSome_none, Bool.false_eq_true, false_implies, and_true, false_iff] at s1
            constructor
            · rintro ⟨h1, h2⟩; exact ⟨by simp [h1], h2⟩
            · rintro ⟨h1, h2⟩
              rcases List.mem_cons.mp h1 with rfl | h1
              · exact absurd h2 s1
              · exact ⟨h1, h2⟩
          | some e =>
            simp only at h; subst h
            have he : e = .inl a := by simpa using s2 e rfl
            subst he
            simp only [Option.isSome_some, Bool.false_eq_true, false_implies, and_true, true_iff] at s1
            simp only [List.mem_cons, Sum.inl.injEq, i3 x]
            constructor
            · rintro (rfl | ⟨h1, h2⟩)
              · exact ⟨Or.inl rfl, s1⟩
              · exact ⟨Or.inr h1, h2⟩
            · rintro ⟨rfl | h1, h2⟩
              · exact Or.inl rfl
              · exact Or.inr ⟨h1, h2⟩
        · intro hs
          obtain ⟨j1, sel, j2, j3, j4, j5⟩ := i2 hs
          subst hs
          cases o with
          | none =>
            simp only at h; subst h
            simp only [Option.isSome_none, Bool.false_eq_true, true_implies, false_iff] at s1
            refine ⟨j1, sel, j2.cons a, j3, j4, ?_⟩
            intro x hx hu hsx
            rcases List.mem_cons.mp hx with rfl | hx
            · exact absurd ⟨hu, hsx⟩ s1
            · exact j5 x hx hu hsx
          | some e =>
            simp only at h; subst h
            obtain ⟨u, hu⟩ : ∃ u, e = .inr u := by simpa using s2 e rfl
            subst hu
            simp only [Option.isSome_some, true_implies, true_iff] at s1
            refine ⟨by simpa using j1, a :: sel, j2.cons_cons a, by simp [j3], ?_, ?_⟩
            · intro x hx
              rcases List.mem_cons.mp hx with rfl | hx
              · exact s1
              · exact j4 x hx
            · intro x hx hu hsx
              rcases List.mem_cons.mp hx with rfl | hx
              · simp
              · simp [j5 x hx hu hsx]

/-! ### Non-vacuity -/

/-- 1 (upgradable) depends on 2 from release 2; 3 is installed and depends on exactly release 1 of 1. -/
def upWorld : World Nat where
  repo := [(1, { version := ['1'], release := ['2'], deps := [{ package := 2, releaseFrom := some ['2'] }] }),
           (2, { version := ['1'], release := ['2'] }),
           (3, { version := ['1'], release := ['2'], deps := [{ package := 1, releaseFrom := some ['2'] }] })]
  inst := [(1, ⟨['1'], ['1'], none⟩), (2, ⟨['1'], ['1'], none⟩), (3, ⟨['1'], ['1'], none⟩)]
  track := [(1, { version := ['1'], release := ['1'] }), (2, { version := ['1'], release := ['1'] }),
            (3, { version := ['1'], release := ['1'] })]
  revRepo := [(1, [(3, { package := 1, releaseFrom := some ['2'] })]),
              (2, [(1, { package := 2, releaseFrom := some ['2'] })])]

example : planUpgrade upWorld Sched.plain false [1] = .ok [2, 1, 3] := by rfl
example : planUpgrade upWorld Sched.plain true [2] = .ok [2, 1, 3] := by rfl
example : isUpgradable upWorld false 1 = .ok true := by rfl
example : selectUpgrades upWorld false false [1, 2, 4] = .ok [.inl 1, .inl 2] := by rfl
example : upgradeBase upWorld Sched.plain false false false (some [2]) [1] = .ok [2, 1, 3] := by rfl

/-- Which packages a filter by `is_upgradable` keeps. -/
theorem filterUpgradable_mem (w : World α) (ib : Bool) (l r : List α) (h : filterUpgradable w ib l = .ok r) :
    r.Sublist l ∧ ∀ x, x ∈ r ↔ x ∈ l ∧ isUpgradable w ib x = .ok true := by
  induction l generalizing r with
  | nil => cases h; exact ⟨List.Sublist.refl _, by simp⟩
  | cons y l ih =>
    unfold filterUpgradable at h
    cases hy : isUpgradable w ib y with
    | error e => rw [hy] at h; cases h
    | ok b =>
      rw [hy] at h
      cases hl : filterUpgradable w ib l with
      | error e => rw [hl] at h; cases h
      | ok r' =>
        rw [hl] at h
        obtain ⟨h1, h2⟩ := ih r' hl
        cases b with
        | true =>
          cases h
          refine ⟨h1.cons_cons y, fun x => ?_⟩
          rw [if_pos rfl, List.mem_cons, List.mem_cons, h2]
          constructor
          · rintro (rfl | ⟨h3, h4⟩)
            · exact ⟨Or.inl rfl, hy⟩
            · exact ⟨Or.inr h3, h4⟩
          · rintro ⟨rfl | h3, h4⟩
            · exact Or.inl rfl
            · exact Or.inr ⟨h3, h4⟩
        | false =>
          cases h
          refine ⟨h1.cons y, fun x => ?_⟩
          rw [if_neg Bool.false_ne_true, h2, List.mem_cons]
          constructor
          · rintro ⟨h3, h4⟩; exact ⟨Or.inr h3, h4⟩
          · rintro ⟨rfl | h3, h4⟩
            · rw [hy] at h4; cases h4
            · exact ⟨h3, h4⟩

/-- C16, C19: the packages of the base component that are missing are planned for installation and those that can be upgraded for
upgrading, unless the safety switch is off or there is no such component, when nothing is added. -/
theorem upgradeBase_covers (w : World α) (σ : Sched α) (hσ : σ.Legal) (eager bypass ib : Bool) (base : Option (List α))
    (hb : ∀ b, base = some b → b.Nodup) (A r : List α) (h : upgradeBase w σ eager bypass ib base A = .ok r) :
    ((bypass = true ∨ base = none) → r = []) ∧
    (bypass = false → ∀ b, base = some b → ∀ x ∈ b, (x ∉ A → w.isInstalled x = false → x ∈ r) ∧
      (isUpgradable w ib x = .ok true → x ∈ r)) := by
  unfold upgradeBase at h
  cases bypass with
  | true => cases h; exact ⟨fun _ => rfl, fun h => by cases h⟩
  | false =>
    cases base with
    | none => cases h; exact ⟨fun _ => rfl, fun _ b hb' => by cases hb'⟩
    | some b =>
      refine ⟨?_, ?_⟩
      · rintro (h | h) <;> cases h
      rintro - b' hb' x hx
      cases hb'
      have hnd := hb b rfl
      simp only [Bool.false_eq_true, if_false] at h
      have hex : ((σ.front (b.filter (fun x => x ∉ A))).filter (fun x => !w.isInstalled x)).Nodup :=
        (((hσ.front _).nodup_iff).mpr (hnd.filter _)).filter _
      cases hp : planInstall w σ ((σ.front (b.filter (fun x => x ∉ A))).filter (fun x => !w.isInstalled x)) with
      | error e => rw [hp] at h; cases h
      | ok o =>
        rw [hp] at h
        dsimp only at h
        obtain ⟨_, hmem, _, _⟩ := planInstall_ok w σ hσ _ hex o hp
        cases hf : filterUpgradable w ib (σ.front (b.filter (fun x => x ∉ o))) with
        | error e => rw [hf] at h; cases h
        | ok u =>
          rw [hf] at h
          obtain ⟨hsub, hu⟩ := filterUpgradable_mem w ib _ u hf
          have hnd2 : u.Nodup := hsub.nodup (((hσ.front _).nodup_iff).mpr (hnd.filter _))
          have key : (∀ y ∈ o, y ∈ r) ∧ ∀ y ∈ u, y ∈ r := by
            cases u with
            | nil => cases h; exact ⟨fun y hy => hy, fun y hy => by cases hy⟩
            | cons y us =>
              dsimp only at h
              cases hpu : planUpgrade w σ eager (y :: us) with
              | error e => rw [hpu] at h; cases h
              | ok uo =>
                rw [hpu] at h
                cases h
                obtain ⟨_, hm, _⟩ := planUpgrade_ok w σ hσ eager _ hnd2 uo hpu
                exact ⟨fun z hz => List.mem_append_left _ hz,
                  fun z hz => List.mem_append_right _ ((hm z).2 (Or.inl ⟨z, hz, .refl⟩))⟩
          constructor
          · intro hA hi
            refine key.1 x ((hmem x).2 ⟨x, ?_, .refl⟩)
            rw [List.mem_filter, (hσ.front _).mem_iff, List.mem_filter]
            exact ⟨⟨hx, by simpa using hA⟩, by simp [hi]⟩
          · intro hup
            by_cases ho : x ∈ o
            · exact key.1 x ho
            · refine key.2 x ((hu x).2 ⟨?_, hup⟩)
              rw [(hσ.front _).mem_iff, List.mem_filter]
              exact ⟨hx, by simpa using ho⟩

end Pisi.Plan
