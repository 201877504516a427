import Verif.Model.UpgradeRun
import Verif.Spec.UpgradeRun
import Verif.Props.InstallPlan
import Verif.Props.UpgradePlan

/-!
# C154-C156: running an upgrade
-/
set_option linter.unusedSectionVars false

namespace Pisi.Plan
open Pisi.Graph Pisi.PlanSpec Pisi.Version Pisi.Version.Spec
variable {α : Type} [DecidableEq α]

/-- Installing one package: the databases afterwards. -/
theorem installOne_recorded (w w' : World α) (x : α) (h : installOne w x = .ok w') :
    ∃ p, w.repo.get x = some p ∧ p.compDeps = [] ∧ w' = World.install w x p := by
  unfold installOne at h
  cases hp : w.getRepo x with
  | error e => simp [hp] at h
  | ok p =>
    simp only [hp] at h
    by_cases hc : p.compDeps = []
    · simp only [PkgInfo.runtimeDeps, hc, if_true] at h
      cases hs : installOne.satDeps w p.deps with
      | error e => simp [hs] at h
      | ok b =>
        cases b with
        | false => simp [hs] at h
        | true =>
          simp only [hs, Except.ok.injEq] at h
          exact ⟨p, (getRepo_ok w x p).mp hp, hc, h.symm⟩
    · simp [PkgInfo.runtimeDeps, hc] at h

/-- What a completed run did: the packages of the order are installed as the repositories describe them, and
the records of all others are as before. -/
theorem execInstall_ok (order : List α) : ∀ (w w' : World α), execInstall w order = .ok w' →
    w'.repo = w.repo ∧
    (∀ y ∈ order, ∃ p, w.repo.get y = some p ∧ InstalledAs w' y p) ∧
    (∀ y, y ∉ order → w'.inst.get y = w.inst.get y ∧ w'.track.get y = w.track.get y) := by
  induction order with
  | nil => intro w w' h; simp only [execInstall, Except.ok.injEq] at h; subst h; simp
  | cons x xs ih =>
    intro w w' h
    simp only [execInstall] at h
    cases h1 : installOne w x with
    | error e => simp [h1] at h
    | ok w1 =>
      simp only [h1] at h
      obtain ⟨p, hp, _, rfl⟩ := installOne_recorded w w1 x h1
      obtain ⟨a, b, c⟩ := ih _ _ h
      have hrepo : (World.install w x p).repo = w.repo := rfl
      rw [hrepo] at a b
      refine ⟨a, ?_, ?_⟩
      · intro y hy
        by_cases hys : y ∈ xs
        · exact b y hys
        · have hyx : y = x := by simpa [hys] using hy
          subst hyx
          obtain ⟨c1, c2⟩ := c y hys
          exact ⟨p, hp, by rw [c1]; simp [(install_get_inst w y y p).1],
            by rw [c2]; simp [(install_get_inst w y y p).2]⟩
      · intro y hy
        simp only [List.mem_cons, not_or] at hy
        obtain ⟨c1, c2⟩ := c y hy.2
        have : x ≠ y := fun e => hy.1 e.symm
        exact ⟨by rw [c1]; simp [(install_get_inst w x y p).1, this],
          by rw [c2]; simp [(install_get_inst w x y p).2, this]⟩

/-- Packages in an order that are before others in it have been dealt with first. -/
theorem before_done {order done rest : List α} {x y : α} (hnd : order.Nodup) (ho : order = done ++ x :: rest)
    (h : Spec.Before order y x) : y ∈ done := by
  obtain ⟨a, b, c, hb⟩ := h
  have hxa : x ∉ a ++ y :: b := by
    intro hm
    have : order = (a ++ y :: b) ++ x :: c := by simp [hb]
    rw [this, List.nodup_append] at hnd
    exact hnd.2.2 x hm x (by simp) rfl
  have hxd : x ∉ done := by
    intro hm
    rw [ho, List.nodup_append] at hnd
    exact hnd.2.2 x hm x (by simp) rfl
  have he : done ++ x :: rest = (a ++ y :: b) ++ x :: c := by rw [← ho, hb]; simp
  have : done = a ++ y :: b := by
    rcases List.append_eq_append_iff.mp he with ⟨m, m1, m2⟩ | ⟨m, m1, m2⟩
    · cases m with
      | nil => simpa using m1.symm
      | cons z m =>
        simp only [List.cons_append, List.cons.injEq] at m2
        exact absurd (by rw [m1, ← m2.1]; simp) hxa
    · cases m with
      | nil => simpa using m1
      | cons z m =>
        simp only [List.cons_append, List.cons.injEq] at m2
        exact absurd (by rw [m1, ← m2.1]; simp) hxd
  rw [this]; simp

/-- An order runs to the end when each dependency of each package in it is satisfied at the start or on an earlier
package, and those on packages of the order are met by the repositories. -/
theorem execInstall_runs (w : World α) (order : List α) (hnd : order.Nodup)
    (hall : ∀ x ∈ order, ∃ p, w.repo.get x = some p ∧ p.compDeps = [] ∧ ∀ d ∈ p.deps,
      (d.package ∈ order → Offered w d) ∧ (Satisfied w d ∨ Spec.Before order d.package x)) :
    ∃ w', execInstall w order = .ok w' := by
  have key : ∀ (rest done : List α) (w1 : World α), order = done ++ rest →
      execInstall w done = .ok w1 → ∃ w2, execInstall w1 rest = .ok w2 := by
    intro rest
    induction rest with
    | nil => intro done w1 _ _; exact ⟨w1, rfl⟩
    | cons x rest ih =>
      intro done w1 ho hex
      obtain ⟨hr, h1, h2⟩ := execInstall_ok done w w1 hex
      have hx : x ∈ order := by rw [ho]; simp
      obtain ⟨p, hp, hcd, hdeps⟩ := hall x hx
      have hsat : ∀ d ∈ p.deps, Satisfied w1 d := by
        intro d hd
        obtain ⟨ho1, ho2⟩ := hdeps d hd
        by_cases hdone : d.package ∈ done
        · obtain ⟨q, hq, hi, ht⟩ := h1 _ hdone
          obtain ⟨q', hq', hm⟩ := ho1 (by rw [ho]; simp [hdone])
          rw [hq] at hq'; cases hq'
          exact ⟨⟨_, hi⟩, q, ht, hm⟩
        · rcases ho2 with ⟨⟨i, hi⟩, q, ht, hm⟩ | hb
          · obtain ⟨e1, e2⟩ := h2 _ hdone
            exact ⟨⟨i, by rw [e1, hi]⟩, q, by rw [e2, ht], hm⟩
          · exact absurd (before_done hnd ho hb) hdone
      have hstep : installOne w1 x = .ok (World.install w1 x p) := by
        unfold installOne
        have : w1.getRepo x = .ok p := by rw [getRepo_ok, hr, hp]
        simp only [this, PkgInfo.runtimeDeps, hcd, if_true, satDeps_true w1 p.deps hsat]
      have happ : ∀ (l : List α) (u v : World α), execInstall u l = .ok v →
          execInstall u (l ++ [x]) = execInstall v [x] := by
        intro l
        induction l with
        | nil => intro u v h; simp only [execInstall, Except.ok.injEq] at h; subst h; rfl
        | cons z l ihl =>
          intro u v h
          simp only [execInstall, List.cons_append] at h ⊢
          cases hz : installOne u z with
          | error e => simp [hz] at h
          | ok u' => simp only [hz] at h ⊢; exact ihl u' v h
      obtain ⟨w2, hw2⟩ := ih (done ++ [x]) (World.install w1 x p) (by simp [ho])
        (by rw [happ done w w1 hex]; simp [execInstall, hstep])
      exact ⟨w2, by simp only [execInstall, hstep, hw2]⟩
  exact key order [] w (by simp) rfl

/-- Packages reached forward by a successful upgrade plan are in the repositories and have no component
dependencies. -/
theorem planUpgrade_clean (w : World α) (σ : Sched α) (hσ : σ.Legal) (eager : Bool) (A : List α) (hA : A.Nodup)
    (order : List α) (h : planUpgrade w σ eager A = .ok order) :
    ∀ x, Reach (UpNeeds w eager) A x → ∃ p, w.repo.get x = some p ∧ p.compDeps = [] := by
  unfold planUpgrade at h
  cases h0 : addPackages w.getRepo (σ.front A) Digraph.empty with
  | error e => simp [h0] at h
  | ok g0 =>
    simp only [h0] at h
    obtain ⟨hw0, hv0, hadj0, hpres⟩ := planInstall_graph w σ hσ A hA g0 h0
    cases h1 : (upFwdLoop w eager).closure .fuel σ.front (w.repo.keys.length + 1) A g0 with
    | error e => simp [h1] at h
    | ok g1 =>
      obtain ⟨k1, k2, k3, k4, k5, k6, _⟩ :=
        closure_exp (upFwdLoop w eager) hσ.front hw0 (fun x hx => (hv0 x).mpr hx) h1
      have hexp := exp_reach (upFwdLoop w eager) g0.verts A hv0
      have hclean : ∀ x, Reach (upFwdLoop w eager).R A x → (upFwdLoop w eager).Clean x :=
        fun x hx => k3 x ((hexp x).mpr hx)
      have hcongr := reach_congr (R := (upFwdLoop w eager).R) (R' := UpNeeds w eager) (A := A)
        (fun x hx y => upFwd_R_iff w eager (hclean x hx) y)
      intro x hx
      obtain ⟨ds, c1, _⟩ := hclean x ((hcongr x).mpr hx)
      obtain ⟨p, hp, hc, _⟩ := (upFwd_deps_ok w eager x ds).mp c1
      exact ⟨p, hp, hc⟩

/-! ## C155: the plan runs -/

/-- The packages found only through reverse dependencies can be installed: each of their dependencies is offered by
the repositories and either satisfied already or on the one package that dragged them in. -/
def DraggedFine (w : World α) (eager : Bool) (A order : List α) : Prop :=
  ∀ u ∈ order, ¬ Reach (UpNeeds w eager) A u → ∃ p, w.repo.get u = some p ∧ p.compDeps = [] ∧
    ∀ d ∈ p.deps, Offered w d ∧ (Satisfied w d ∨ ∀ v, Drags w eager v u → v = d.package)

/-- With `eager`, what is not upgraded must do: dependencies of the packages planned forward on installed packages
that are not upgradable are satisfied. -/
def EagerFine (w : World α) (eager : Bool) (A : List α) : Prop :=
  eager = true → ∀ x, Reach (UpNeeds w true) A x → ∀ d, RepoDep w x d → MustChange w true d ∨ Satisfied w d

/-- **C155, full statement**: an upgrade that was planned in a system whose dependencies are all satisfied runs to
the end. -/
def UpgradeRuns : Prop :=
  ∀ (w : World Nat) (σ : Sched Nat) (_ : σ.Legal) (eager : Bool) (A order : List Nat), A.Nodup →
    Consistent w → RevAgrees w → (∀ x ∈ A, Upgradable w false x) →
    planUpgrade w σ eager A = .ok order → ∃ w', execInstall w order = .ok w'

/-- **C155, proved part**: it runs to the end when the packages dragged in through reverse dependencies have no
further unsatisfied dependencies and, with `--eager`, packages that are not upgradable meet the dependencies on them.
Missing: neither is checked when planning. -/
theorem upgrade_runs_partial (w : World α) (σ : Sched α) (hσ : σ.Legal) (eager : Bool) (A order : List α)
    (hA : A.Nodup) (h : planUpgrade w σ eager A = .ok order) (hd : DraggedFine w eager A order)
    (he : EagerFine w eager A) :
    ∃ w', execInstall w order = .ok w' := by
  obtain ⟨hnd, hmem, hfwd, hrev, _⟩ := planUpgrade_ok w σ hσ eager A hA order h
  apply execInstall_runs w order hnd
  intro x hx
  by_cases hr : Reach (UpNeeds w eager) A x
  · obtain ⟨p, hp, hc⟩ := planUpgrade_clean w σ hσ eager A hA order h x hr
    refine ⟨p, hp, hc, fun d hdm => ?_⟩
    obtain ⟨ho, hb⟩ := hfwd x hr d ⟨p, hp, hdm⟩
    refine ⟨fun _ => ho, ?_⟩
    cases eager with
    | true =>
      rcases he rfl x hr d ⟨p, hp, hdm⟩ with hm | hs
      · exact Or.inr (hb hm)
      · exact Or.inl hs
    | false =>
      by_cases hs : Satisfied w d
      · exact Or.inl hs
      · exact Or.inr (hb (Or.inr (by simpa using hs)))
  · obtain ⟨p, hp, hc, hdeps⟩ := hd x hx hr
    refine ⟨p, hp, hc, fun d hdm => ?_⟩
    obtain ⟨ho, hs⟩ := hdeps d hdm
    refine ⟨fun _ => ho, ?_⟩
    rcases hs with hs | hone
    · exact Or.inl hs
    · obtain ⟨v, _, hdr, hb⟩ := hrev x hx hr
      rw [← hone v hdr]
      exact Or.inr hb

/-- Packages 1 and 2 installed; in the repositories 1 has release 2, and the new 2 needs it and also package 3,
which is not installed. -/
def draggedWorld : World Nat where
  repo := [(1, { version := ['1'], release := ['2'] }),
    (2, { version := ['1'], release := ['2'],
          deps := [{ package := 1, releaseFrom := some ['2'] }, { package := 3 }] }),
    (3, { version := ['1'], release := ['1'] })]
  inst := [(1, ⟨['1'], ['1'], none⟩), (2, ⟨['1'], ['1'], none⟩)]
  track := [(1, { version := ['1'], release := ['1'] }),
    (2, { version := ['1'], release := ['1'], deps := [{ package := 1 }] })]
  revRepo := [(1, [(2, { package := 1, releaseFrom := some ['2'] })]), (3, [(2, { package := 3 })])]

theorem draggedWorld_consistent : Consistent draggedWorld := by
  rintro x p ⟨i, hi⟩ hp d hd
  by_cases h1 : x = 1
  · subst h1
    simp [draggedWorld, Dict.get] at hp
    subst hp; simp at hd
  · by_cases h2 : x = 2
    · subst h2
      simp [draggedWorld, Dict.get] at hp
      subst hp
      simp only [List.mem_singleton] at hd
      subst hd
      exact (installedSatisfies_true _ _).mp (by rfl)
    · have h1' : (1 : Nat) ≠ x := fun e => h1 e.symm
      have h2' : (2 : Nat) ≠ x := fun e => h2 e.symm
      simp [draggedWorld, Dict.get, h1', h2'] at hi

theorem draggedWorld_revAgrees : RevAgrees draggedWorld := by
  intro x rs r d hx hm
  by_cases h1 : x = 1
  · subst h1
    simp [draggedWorld, Dict.get] at hx
    subst hx
    simp only [List.mem_singleton, Prod.mk.injEq] at hm
    obtain ⟨rfl, rfl⟩ := hm
    exact ⟨rfl, _, rfl, by simp⟩
  · by_cases h2 : x = 3
    · subst h2
      simp [draggedWorld, Dict.get] at hx
      subst hx
      simp only [List.mem_singleton, Prod.mk.injEq] at hm
      obtain ⟨rfl, rfl⟩ := hm
      exact ⟨rfl, _, rfl, by simp⟩
    · have h1' : (1 : Nat) ≠ x := fun e => h1 e.symm
      have h2' : (3 : Nat) ≠ x := fun e => h2 e.symm
      simp [draggedWorld, Dict.get, h1', h2'] at hx

/-- **C155 is false of the code**: the package dragged in is planned without looking at what else it needs, and the
upgrade stops half way, package 1 being upgraded already. -/
theorem upgrade_runs_refuted : ¬ UpgradeRuns := by
  intro h
  obtain ⟨w', hw'⟩ := h draggedWorld Sched.plain Sched.plain_legal false [1] [1, 2] (by simp)
    draggedWorld_consistent draggedWorld_revAgrees
    (by
      intro x hx
      simp only [List.mem_singleton] at hx
      subst hx
      exact (is_upgradable_iff _ _ _).mp (by rfl))
    (by rfl)
  have : (match execInstall draggedWorld [1, 2] with | .ok _ => true | .error _ => false) = false := by rfl
  rw [hw'] at this
  simp at this

/-- The same world with package 3 installed. -/
def fineWorld : World Nat :=
  { draggedWorld with
    inst := (3, ⟨['1'], ['1'], none⟩) :: draggedWorld.inst
    track := (3, { version := ['1'], release := ['1'] }) :: draggedWorld.track }

/-- The hypotheses of `upgrade_runs_partial` hold of it with a package dragged in. -/
theorem fineWorld_fine : planUpgrade fineWorld Sched.plain false [1] = .ok [1, 2] ∧
    ¬ Reach (UpNeeds fineWorld false) [1] 2 ∧
    DraggedFine fineWorld false [1] [1, 2] ∧ EagerFine fineWorld false [1] := by
  have hp : planUpgrade fineWorld Sched.plain false [1] = .ok [1, 2] := by rfl
  have h1 : ∀ x, Reach (UpNeeds fineWorld false) [1] x → x = 1 := by
    rintro x ⟨a, ha, hr⟩
    simp only [List.mem_singleton] at ha
    subst ha
    induction hr with
    | refl => rfl
    | tail _ hs ih =>
      subst ih
      obtain ⟨d, ⟨p, hp, hd⟩, _⟩ := hs
      simp [fineWorld, draggedWorld, Dict.get] at hp
      subst hp
      simp at hd
  refine ⟨hp, fun h => by simpa using h1 2 h, ?_, fun h => by simp at h⟩
  intro u hu hn
  have hu2 : u = 2 := by
    rcases List.mem_cons.mp hu with rfl | hu
    · exact absurd ⟨1, by simp, .refl⟩ hn
    · simpa using hu
  subst hu2
  refine ⟨_, rfl, rfl, ?_⟩
  intro d hd
  simp only [List.mem_cons, List.not_mem_nil, or_false] at hd
  rcases hd with rfl | rfl
  · refine ⟨(repoSatisfies_true _ _).mp (by rfl), Or.inr ?_⟩
    rintro v ⟨d, ⟨rs, hrs, hm⟩, hi⟩
    by_cases hv : v = 1
    · exact hv
    · exfalso
      by_cases hv3 : v = 3
      · subst hv3
        simp [fineWorld, draggedWorld, Dict.get] at hrs
        subst hrs
        simp only [List.mem_singleton, Prod.mk.injEq] at hm
        obtain ⟨_, rfl⟩ := hm
        simp only [Bool.false_eq_true, if_false] at hi
        exact hi.2 ((installedSatisfies_true _ _).mp (by rfl))
      · have a : (1 : Nat) ≠ v := fun e => hv e.symm
        have b : (3 : Nat) ≠ v := fun e => hv3 e.symm
        simp [fineWorld, draggedWorld, Dict.get, a, b] at hrs
  · exact ⟨(repoSatisfies_true _ _).mp (by rfl), Or.inl ((installedSatisfies_true _ _).mp (by rfl))⟩

/-! ## C156: dependencies afterwards -/

/-- **C156, full statement**: an upgrade that runs to the end leaves every dependency of every installed package
satisfied, if they were before. -/
def UpgradeKeeps : Prop :=
  ∀ (w w' : World Nat) (σ : Sched Nat) (_ : σ.Legal) (eager : Bool) (A order : List Nat), A.Nodup →
    Consistent w → RevAgrees w → (∀ x ∈ A, Upgradable w false x) →
    planUpgrade w σ eager A = .ok order → execInstall w order = .ok w' → Consistent w'

/-- After a run, a dependency is satisfied if the package it is about was changed to one that meets it, or was not
changed and met it. -/
theorem satisfied_after (w w' : World α) (order : List α) (h : execInstall w order = .ok w') (d : Dep α) :
    Satisfied w' d ↔ if d.package ∈ order then Offered w d else Satisfied w d := by
  obtain ⟨_, h1, h2⟩ := execInstall_ok order w w' h
  by_cases hd : d.package ∈ order
  · rw [if_pos hd]
    obtain ⟨p, hp, hi, ht⟩ := h1 _ hd
    constructor
    · rintro ⟨_, q, hq, hm⟩
      rw [ht] at hq; cases hq
      exact ⟨p, hp, hm⟩
    · rintro ⟨q, hq, hm⟩
      rw [hp] at hq; cases hq
      exact ⟨⟨_, hi⟩, p, ht, hm⟩
  · rw [if_neg hd]
    obtain ⟨e1, e2⟩ := h2 _ hd
    simp only [Satisfied, e1, e2]

/-- **C156, proved part**: every dependency of what is installed afterwards is satisfied, provided that the
repositories meet the dependencies, on upgraded packages, of the installed packages that are not part of
the upgrade, and the packages dragged in have no further unmet dependencies.  Missing: the planner looks at what the repositories say about a package that stays, not
at what is installed, and only starts from the requested packages. -/
theorem upgrade_keeps_partial (w w' : World α) (σ : Sched α) (hσ : σ.Legal) (eager : Bool) (A order : List α)
    (hA : A.Nodup) (h : planUpgrade w σ eager A = .ok order) (hrun : execInstall w order = .ok w')
    (hc : Consistent w) (hd : DraggedFine w eager A order) (he : EagerFine w eager A)
    (hstay : ∀ x p, x ∉ order → (∃ i, w.inst.get x = some i) → w.track.get x = some p →
      ∀ d ∈ p.deps, d.package ∈ order → Offered w d) :
    Consistent w' := by
  obtain ⟨hnd, hmem, hfwd, hrev, _⟩ := planUpgrade_ok w σ hσ eager A hA order h
  obtain ⟨_, h1, h2⟩ := execInstall_ok order w w' hrun
  have hin : ∀ u v, Spec.Before order u v → u ∈ order := by
    rintro u v ⟨a, b, c, rfl⟩
    simp
  intro x p ⟨i, hi⟩ hp d hdm
  rw [satisfied_after w w' order hrun d]
  by_cases hx : x ∈ order
  · obtain ⟨q, hq, _, hqt⟩ := h1 x hx
    rw [hp] at hqt; cases hqt
    by_cases hr : Reach (UpNeeds w eager) A x
    · obtain ⟨ho, hb⟩ := hfwd x hr d ⟨p, hq, hdm⟩
      by_cases hdo : d.package ∈ order
      · rw [if_pos hdo]; exact ho
      · rw [if_neg hdo]
        apply Classical.byContradiction
        intro hs
        have hm : MustChange w eager d := by
          cases eager with
          | true => exact (he rfl x hr d ⟨p, hq, hdm⟩).resolve_right hs
          | false => exact Or.inr (by simpa using hs)
        exact hdo (hin _ _ (hb hm))
    · obtain ⟨p', hp', _, hdeps⟩ := hd x hx hr
      rw [hq] at hp'; cases hp'
      obtain ⟨ho, hs⟩ := hdeps d hdm
      by_cases hdo : d.package ∈ order
      · rw [if_pos hdo]; exact ho
      · rw [if_neg hdo]
        rcases hs with hs | hone
        · exact hs
        · obtain ⟨v, _, hdr, hb⟩ := hrev x hx hr
          rw [← hone v hdr] at hdo
          exact absurd (hin _ _ hb) hdo
  · obtain ⟨e1, e2⟩ := h2 x hx
    rw [e1] at hi; rw [e2] at hp
    by_cases hdo : d.package ∈ order
    · rw [if_pos hdo]; exact hstay x p hx ⟨i, hi⟩ hp d hdm hdo
    · rw [if_neg hdo]; exact hc x p ⟨i, hi⟩ hp d hdm

/-- Exactly when the installed packages that are not part of the upgrade keep their dependencies. -/
theorem upgrade_keeps_stay_iff (w w' : World α) (order : List α) (hrun : execInstall w order = .ok w')
    (hc : Consistent w) (x : α) (hx : x ∉ order) (p : PkgInfo α) (hi : ∃ i, w.inst.get x = some i)
    (hp : w.track.get x = some p) :
    (∀ d ∈ p.deps, Satisfied w' d) ↔ ∀ d ∈ p.deps, d.package ∈ order → Offered w d := by
  constructor
  · intro h d hd ho
    have := (satisfied_after w w' order hrun d).mp (h d hd)
    rwa [if_pos ho] at this
  · intro h d hd
    rw [satisfied_after w w' order hrun d]
    by_cases ho : d.package ∈ order
    · rw [if_pos ho]; exact h d hd ho
    · rw [if_neg ho]; exact hc x p hi hp d hd

/-- Packages 1 and 2 installed, 2 needing 1 in release 1; 1 has release 2 in the repositories, 2 is there as
installed. -/
def pinnedWorld : World Nat where
  repo := [(1, { version := ['1'], release := ['2'] }),
    (2, { version := ['1'], release := ['1'], deps := [{ package := 1, releaseTo := some ['1'] }] })]
  inst := [(1, ⟨['1'], ['1'], none⟩), (2, ⟨['1'], ['1'], none⟩)]
  track := [(1, { version := ['1'], release := ['1'] }),
    (2, { version := ['1'], release := ['1'], deps := [{ package := 1, releaseTo := some ['1'] }] })]
  revRepo := [(1, [(2, { package := 1, releaseTo := some ['1'] })])]

theorem pinnedWorld_ok : Consistent pinnedWorld ∧ RevAgrees pinnedWorld := by
  constructor
  · rintro x p ⟨i, hi⟩ hp d hd
    by_cases h1 : x = 1
    · subst h1
      simp [pinnedWorld, Dict.get] at hp
      subst hp; simp at hd
    · by_cases h2 : x = 2
      · subst h2
        simp [pinnedWorld, Dict.get] at hp
        subst hp
        simp only [List.mem_singleton] at hd
        subst hd
        exact (installedSatisfies_true _ _).mp (by rfl)
      · have h1' : (1 : Nat) ≠ x := fun e => h1 e.symm
        have h2' : (2 : Nat) ≠ x := fun e => h2 e.symm
        simp [pinnedWorld, Dict.get, h1', h2'] at hi
  · intro x rs r d hx hm
    by_cases h1 : x = 1
    · subst h1
      simp [pinnedWorld, Dict.get] at hx
      subst hx
      simp only [List.mem_singleton, Prod.mk.injEq] at hm
      obtain ⟨rfl, rfl⟩ := hm
      exact ⟨rfl, _, rfl, by simp⟩
    · have h1' : (1 : Nat) ≠ x := fun e => h1 e.symm
      simp [pinnedWorld, Dict.get, h1'] at hx

/-- **C156 is false of the code**: package 1 is upgraded although the installed package 2 does not accept the new
release; that dependency is only looked at while the old one is installed, which satisfies it. -/
theorem upgrade_keeps_refuted : ¬ UpgradeKeeps := by
  intro h
  have hp : planUpgrade pinnedWorld Sched.plain false [1] = .ok [1] := by rfl
  have hx : ∃ w', execInstall pinnedWorld [1] = .ok w' := ⟨_, rfl⟩
  obtain ⟨w', hw'⟩ := hx
  have hc := h pinnedWorld w' Sched.plain Sched.plain_legal false [1] [1] (by simp) pinnedWorld_ok.1 pinnedWorld_ok.2
    (by
      intro x hx
      simp only [List.mem_singleton] at hx
      subst hx
      exact (is_upgradable_iff _ _ _).mp (by rfl)) hp hw'
  obtain ⟨_, _, h2⟩ := execInstall_ok [1] pinnedWorld w' hw'
  obtain ⟨e1, e2⟩ := h2 2 (by simp)
  have := hc 2 _ ⟨_, e1⟩ e2 { package := 1, releaseTo := some ['1'] } (by simp)
  rw [satisfied_after pinnedWorld w' [1] hw'] at this
  rw [if_pos (by simp), ← repoSatisfies_true] at this
  have hf : (match pinnedWorld.repoSatisfies { package := 1, releaseTo := some ['1'] } with
    | .ok b => b | .error _ => true) = false := by rfl
  rw [this] at hf
  simp at hf

/-! ## C154: what was asked for is upgraded -/

theorem mem_chosenNames (l : List (α ⊕ Upd)) (x : α) : x ∈ chosenNames l ↔ .inl x ∈ l := by
  induction l with
  | nil => simp [chosenNames]
  | cons a l ih => cases a <;> simp [chosenNames, ih]

theorem unionInto_spec (A B : List α) : (∀ x, x ∈ unionInto A B ↔ x ∈ A ∨ x ∈ B) ∧ (A.Nodup → (unionInto A B).Nodup) := by
  constructor
  · intro x
    unfold unionInto
    simp only [List.mem_append, List.mem_filter, List.mem_dedup, decide_not, Bool.not_eq_eq_eq_not, Bool.not_true,
      decide_eq_false_iff_not]
    by_cases h : x ∈ A <;> simp [h]
  · intro hA
    unfold unionInto
    rw [List.nodup_append]
    refine ⟨hA, (List.nodup_dedup B).filter _, ?_⟩
    intro a ha b hb e
    subst e
    simp [ha] at hb

theorem selectUpgrades_names (w : World α) (ign : Bool) (A : List α) (l : List (α ⊕ Upd))
    (h : selectUpgrades w false ign A = .ok l) :
    (∀ x, x ∈ chosenNames l ↔ x ∈ A ∧ Upgradable w ign x) ∧ (A.Nodup → (chosenNames l).Nodup) := by
  refine ⟨fun x => ?_, ?_⟩
  · rw [mem_chosenNames]; exact (security_selection_partial w false ign A l h).1 rfl x
  · intro hA
    have : (chosenNames l).Sublist A := by
      clear hA
      induction A generalizing l with
      | nil => simp only [selectUpgrades, Except.ok.injEq] at h; subst h; simp [chosenNames]
      | cons a A ih =>
        simp only [selectUpgrades] at h
        cases ha : selectOne w false ign a with
        | error e => simp [ha] at h
        | ok o =>
          simp only [ha] at h
          cases hl : selectUpgrades w false ign A with
          | error e => simp [hl] at h
          | ok l' =>
            simp only [hl, Except.ok.injEq] at h
            obtain ⟨_, s2⟩ := selectOne_spec w false ign a o ha
            cases o with
            | none => simp only at h; subst h; exact (ih l' hl).cons _
            | some e =>
              simp only at h; subst h
              have he : e = .inl a := by simpa using s2 e rfl
              subst he
              exact (ih l' hl).cons_cons _
    exact hA.sublist this

/-- What a run of `pisi upgrade` that does not fail did: nothing, when there is nothing to upgrade, on a dry run and
when the extra packages were declined; otherwise it executed a plan containing every requested package that can
be upgraded. -/
theorem upgradeRun_cases (w w' : World α) (σ : Sched α) (hσ : σ.Legal) (o : UpOpts) (base : Option (List α))
    (A : List α) (h : upgradeRun w σ o base A = .ok w') :
    (w' = w ∧ ((∀ x ∈ A, ¬ Upgradable w o.ignoreBuild x) ∨ o.dryRun = true ∨ o.confirm = false)) ∨
    (o.dryRun = false ∧ ∃ A' order, (A.Nodup → A'.Nodup) ∧
      (∀ x ∈ A, Upgradable w o.ignoreBuild x → x ∈ A') ∧
      planUpgrade w σ o.eager A' = .ok order ∧ execInstall w order = .ok w' ∧
      (o.confirm = true ∨ order.length ≤ A.length)) := by
  unfold upgradeRun at h
  have hperm := hσ.front A
  cases h1 : selectUpgrades w false o.ignoreBuild (σ.front A) with
  | error e => simp [h1] at h
  | ok l =>
    simp only [h1] at h
    obtain ⟨hn, hnd⟩ := selectUpgrades_names w o.ignoreBuild _ l h1
    cases hl : chosenNames l with
    | nil =>
      simp only [hl, Except.ok.injEq] at h
      refine Or.inl ⟨h.symm, Or.inl fun x hx hu => ?_⟩
      have := (hn x).mpr ⟨hperm.mem_iff.mpr hx, hu⟩
      rw [hl] at this; simp at this
    | cons x xs =>
      simp only [hl] at h
      cases hb : upgradeBase w σ o.eager o.bypassSafety o.ignoreBuild base (x :: xs) with
      | error e => simp [hb] at h
      | ok extra =>
        simp only [hb] at h
        cases hp : planUpgrade w σ o.eager (unionInto (x :: xs) extra) with
        | error e => simp [hp] at h
        | ok order =>
          simp only [hp] at h
          cases hdr : o.dryRun with
          | true => simp only [hdr, if_true, Except.ok.injEq] at h; exact Or.inl ⟨h.symm, Or.inr (Or.inl rfl)⟩
          | false =>
            simp only [hdr, Bool.false_eq_true, if_false] at h
            by_cases hcf : (decide (order.length > A.length) && !o.confirm) = true
            · rw [if_pos hcf] at h
              simp only [Except.ok.injEq] at h
              simp only [Bool.and_eq_true, Bool.not_eq_true'] at hcf
              exact Or.inl ⟨h.symm, Or.inr (Or.inr hcf.2)⟩
            · rw [if_neg hcf] at h
              refine Or.inr ⟨rfl, unionInto (x :: xs) extra, order, ?_, ?_, hp, h, ?_⟩
              · intro hA
                apply (unionInto_spec _ _).2
                rw [← hl]
                exact hnd (hperm.nodup_iff.mpr hA)
              · intro y hy hu
                rw [(unionInto_spec _ _).1, ← hl]
                exact Or.inl ((hn y).mpr ⟨hperm.mem_iff.mpr hy, hu⟩)
              · cases hc : o.confirm with
                | true => exact Or.inl rfl
                | false =>
                  right
                  simp [hc] at hcf
                  exact hcf

/-- Being installed as the repositories have it, a package is not upgradable. -/
theorem installedAs_not_upgradable (w : World α) (x : α) (p : PkgInfo α) (hp : w.repo.get x = some p)
    (hi : InstalledAs w x p) (ign : Bool) : ¬ Upgradable w ign x := by
  have h := (upgrade_settles w x p hp ign).1
  intro hu
  apply h
  obtain ⟨i, q, h1, h2, h3⟩ := hu
  refine ⟨i, q, ?_, h2, h3⟩
  rw [hi.1] at h1
  rw [(install_get_inst w x x p).1]
  simpa using h1

/-- **C154.** A run of `pisi upgrade` that is not a dry run, was not declined and did not fail leaves each requested package
that could be upgraded installed exactly as the repositories describe it, so that none of the requested packages
can be upgraded any more; no package can be upgraded that could not before. -/
theorem upgrade_upgrades (w w' : World α) (σ : Sched α) (hσ : σ.Legal) (o : UpOpts) (base : Option (List α))
    (A : List α) (hA : A.Nodup) (h : upgradeRun w σ o base A = .ok w') (hd : o.dryRun = false) (hc : o.confirm = true) :
    w'.repo = w.repo ∧
    (∀ x ∈ A, Upgradable w o.ignoreBuild x → ∃ p, w.repo.get x = some p ∧ InstalledAs w' x p) ∧
    (∀ x ∈ A, ¬ Upgradable w' o.ignoreBuild x) ∧
    (∀ x ign, Upgradable w' ign x → Upgradable w ign x) := by
  rcases upgradeRun_cases w w' σ hσ o base A h with ⟨rfl, hn⟩ | ⟨_, A', order, hnd, hsub, hp, hx, _⟩
  · have hn' : ∀ x ∈ A, ¬ Upgradable w' o.ignoreBuild x := by
      rcases hn with hn | hn | hn
      · exact hn
      · rw [hd] at hn; cases hn
      · rw [hc] at hn; cases hn
    exact ⟨rfl, fun x hx hu => absurd hu (hn' x hx), hn', fun _ _ h => h⟩
  · obtain ⟨a, b, c⟩ := execInstall_ok order w w' hx
    obtain ⟨_, hmem, _⟩ := planUpgrade_ok w σ hσ o.eager A' (hnd hA) order hp
    have hin : ∀ x ∈ A', x ∈ order := fun x hx => (hmem x).mpr (Or.inl ⟨x, hx, .refl⟩)
    have hno : ∀ x ign, x ∈ order → ¬ Upgradable w' ign x := by
      intro x ign hx
      obtain ⟨p, hp, hi⟩ := b x hx
      exact installedAs_not_upgradable w' x p (by rw [a]; exact hp) hi ign
    have hback : ∀ x ign, Upgradable w' ign x → Upgradable w ign x := by
      intro x ign hu
      have hxo : x ∉ order := fun hx => hno x ign hx hu
      obtain ⟨i, q, h1, h2, h3⟩ := hu
      rw [(c x hxo).1] at h1
      rw [a] at h2
      exact ⟨i, q, h1, h2, h3⟩
    refine ⟨a, fun x hx hu => b x (hin x (hsub x hx hu)), fun x hx hu => ?_, hback⟩
    exact hno x _ (hin x (hsub x hx (hback x _ hu))) hu

/-- **C154 (idempotence).** After `pisi upgrade` of everything installed nothing can be upgraded, and running it again changes
nothing. -/
theorem upgrade_settles_all (w w' : World α) (σ τ : Sched α) (hσ : σ.Legal) (o : UpOpts)
    (base : Option (List α)) (A : List α) (hA : A.Nodup) (hall : ∀ x i, w.inst.get x = some i → x ∈ A)
    (h : upgradeRun w σ o base A = .ok w') (hd : o.dryRun = false) (hc : o.confirm = true) :
    UpToDate w' o.ignoreBuild ∧
    ∀ B w'', upgradeRun w' τ o base B = .ok w'' → w'' = w' := by
  obtain ⟨a, b, c, d⟩ := upgrade_upgrades w w' σ hσ o base A hA h hd hc
  have hu : UpToDate w' o.ignoreBuild := by
    intro x hx
    obtain ⟨i, _, hi, _⟩ := d x _ hx
    exact c x (hall x i hi) hx
  refine ⟨hu, fun B w'' h2 => ?_⟩
  unfold upgradeRun at h2
  cases h1 : selectUpgrades w' false o.ignoreBuild (τ.front B) with
  | error e => simp [h1] at h2
  | ok l =>
    simp only [h1] at h2
    cases hl : chosenNames l with
    | nil => simp only [hl, Except.ok.injEq] at h2; exact h2.symm
    | cons x xs =>
      have := ((selectUpgrades_names w' o.ignoreBuild _ l h1).1 x).mp (by rw [hl]; simp)
      exact absurd this.2 (hu x)

/-- **C154 (nothing done).** A dry run changes nothing, and neither does declining, unless the upgrade needs no more
packages than were requested. -/
theorem upgrade_declined (w w' : World α) (σ : Sched α) (hσ : σ.Legal) (o : UpOpts) (base : Option (List α))
    (A : List α) (h : upgradeRun w σ o base A = .ok w') (hn : w' ≠ w) :
    o.dryRun = false ∧ ∃ A' order, planUpgrade w σ o.eager A' = .ok order ∧ execInstall w order = .ok w' ∧
      (o.confirm = true ∨ order.length ≤ A.length) := by
  rcases upgradeRun_cases w w' σ hσ o base A h with ⟨rfl, _⟩ | ⟨hd, A', order, _, _, hp, hx, hc⟩
  · exact absurd rfl hn
  · exact ⟨hd, A', order, hp, hx, hc⟩

/-- Upgrading everything in `fineWorld`: packages 1 and 2 end up with release 2, package 3 stays. -/
example : ∃ w', upgradeRun fineWorld Sched.plain {} (some [3]) [1, 2, 3] = .ok w' ∧
    w'.inst.get 1 = some ⟨['1'], ['2'], none⟩ ∧ w'.inst.get 2 = some ⟨['1'], ['2'], none⟩ ∧
    w'.inst.get 3 = some ⟨['1'], ['1'], none⟩ ∧ w' ≠ fineWorld := by
  refine ⟨_, rfl, rfl, rfl, rfl, ?_⟩
  intro h
  have : (fineWorld.inst.get 1) = some ⟨['1'], ['2'], none⟩ := by rw [← h]; rfl
  revert this
  decide

/-- Asking for package 1 only needs package 2 as well: declining changes nothing. -/
example : upgradeRun fineWorld Sched.plain { confirm := false } none [1] = .ok fineWorld := by rfl

/-- `fineWorld` meets the hypotheses of `upgrade_keeps_partial`. -/
example : ∃ w', execInstall fineWorld [1, 2] = .ok w' ∧
    ∀ x p, x ∉ [1, 2] → (∃ i, fineWorld.inst.get x = some i) → fineWorld.track.get x = some p →
      ∀ d ∈ p.deps, d.package ∈ [1, 2] → Offered fineWorld d := by
  refine ⟨_, rfl, ?_⟩
  intro x p hx _ hp d hd _
  exfalso
  simp only [List.mem_cons, List.not_mem_nil, or_false, not_or] at hx
  have h1 : (1 : Nat) ≠ x := fun e => hx.1 e.symm
  have h2 : (2 : Nat) ≠ x := fun e => hx.2 e.symm
  by_cases h3 : 3 = x
  · subst h3
    simp [fineWorld, draggedWorld, Dict.get] at hp
    subst hp; simp at hd
  · simp [fineWorld, draggedWorld, Dict.get, h1, h2, h3] at hp

end Pisi.Plan
