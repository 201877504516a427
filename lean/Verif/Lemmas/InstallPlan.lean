import Verif.Model.InstallPlan
import Verif.Spec.Plan
import Verif.Lemmas.Plan
import Verif.Props.Dependency

/-! Lemmas connecting the planners with the specification vocabulary. -/
set_option linter.unusedSectionVars false

namespace Pisi.Plan
open Pisi.Graph Pisi.PlanSpec
variable {α δ ε : Type} [DecidableEq α]

/-- Arbitrary but legal iteration orders. -/
structure Sched.Legal (σ : Sched α) : Prop where
  front : ∀ l, (σ.front l).Perm l
  graph : ∀ g, Shuffle g (σ.graph g)

theorem testDep_true (d : Dep α) (p : PkgInfo α) : testDep d p = .ok true ↔ Meets d p := by
  unfold testDep Meets
  rw [← satisfies_iff]
  cases d.satisfies p.version p.release <;> simp

theorem testDep_error (d : Dep α) (p : PkgInfo α) (e : PErr α) :
    testDep d p = .error e ↔ e = .value ∧ ¬ Testable d p := by
  unfold testDep Testable
  rw [← satisfies_error_iff]
  cases d.satisfies p.version p.release <;> simp [eq_comm]

theorem testDep_ok (d : Dep α) (p : PkgInfo α) : (∃ b, testDep d p = .ok b) ↔ Testable d p := by
  unfold testDep Testable
  rw [← not_iff_not, ← satisfies_error_iff]
  cases d.satisfies p.version p.release <;> simp

theorem has_iff {κ ν : Type} [DecidableEq κ] (d : Dict κ ν) (k : κ) : d.has k = true ↔ ∃ v, d.get k = some v := by
  unfold Dict.has; exact Option.isSome_iff_exists

theorem installedSatisfies_true (w : World α) (d : Dep α) :
    w.installedSatisfies d = .ok true ↔ Satisfied w d := by
  unfold World.installedSatisfies Satisfied World.isInstalled World.getTrack
  rw [← has_iff]
  cases h : w.inst.has d.package <;> simp
  cases h' : w.track.get d.package <;> simp [testDep_true]

theorem installedSatisfies_ok (w : World α) (d : Dep α) :
    (∃ b, w.installedSatisfies d = .ok b) ↔ TestableInstalled w d := by
  unfold World.installedSatisfies TestableInstalled World.isInstalled World.getTrack
  rw [← has_iff]
  cases h : w.inst.has d.package <;> simp
  cases h' : w.track.get d.package with
  | none => simp
  | some p => simpa using testDep_ok d p

theorem installedSatisfies_error (w : World α) (d : Dep α) (e : PErr α)
    (h : w.installedSatisfies d = .error e) :
    (e = .notFound d.package ∧ w.inst.has d.package = true ∧ w.track.get d.package = none) ∨
    (e = .value ∧ w.inst.has d.package = true ∧ ∃ p, w.track.get d.package = some p ∧ ¬ Testable d p) := by
  unfold World.installedSatisfies World.isInstalled World.getTrack at h
  cases hi : w.inst.has d.package
  · simp [hi] at h
  · simp only [hi, if_true] at h
    cases ht : w.track.get d.package with
    | none => simp [ht] at h; exact Or.inl ⟨h.symm, rfl, rfl⟩
    | some p =>
      simp only [ht] at h
      obtain ⟨rfl, hn⟩ := (testDep_error d p e).mp h
      exact Or.inr ⟨rfl, rfl, p, rfl, hn⟩

theorem repoSatisfies_true (w : World α) (d : Dep α) : w.repoSatisfies d = .ok true ↔ Offered w d := by
  unfold World.repoSatisfies Offered
  cases h : w.repo.get d.package <;> simp [testDep_true]

theorem getRepo_ok (w : World α) (x : α) (p : PkgInfo α) : w.getRepo x = .ok p ↔ w.repo.get x = some p := by
  unfold World.getRepo; cases w.repo.get x <;> simp

theorem getRepo_error (w : World α) (x : α) (e : PErr α) :
    w.getRepo x = .error e ↔ w.repo.get x = none ∧ e = .notFound x := by
  unfold World.getRepo; cases w.repo.get x <;> simp [eq_comm]

/-- With the start vertices as the only vertices, expansion is reachability. -/
theorem exp_reach (L : Loop α δ ε) (V A : List α) (hV : ∀ x, x ∈ V ↔ x ∈ A) (x : α) :
    L.Exp V A x ↔ Reach L.R A x := by
  constructor
  · intro h
    induction h with
    | base h => exact ⟨_, h, .refl⟩
    | step _ hR _ ih => obtain ⟨a, ha, hr⟩ := ih; exact ⟨a, ha, hr.tail hR⟩
  · rintro ⟨a, ha, h⟩
    induction h with
    | refl => exact .base ha
    | @tail y z _ hR ih =>
      by_cases hz : z ∈ V
      · exact .base ((hV z).mp hz)
      · exact .step ih hR hz

theorem reach_mono {R R' : α → α → Prop} {A : List α} (h : ∀ x y, R x y → R' x y) {x : α}
    (hx : Reach R A x) : Reach R' A x := by
  obtain ⟨a, ha, hr⟩ := hx
  exact ⟨a, ha, Relation.ReflTransGen.mono h _ _ hr⟩

/-- Two relations that agree on reachable sources have the same reachable set. -/
theorem reach_congr {R R' : α → α → Prop} {A : List α}
    (h : ∀ x, Reach R A x → ∀ y, R x y ↔ R' x y) (x : α) : Reach R A x ↔ Reach R' A x := by
  constructor
  · rintro ⟨a, ha, hr⟩
    have : ∀ z, Relation.ReflTransGen R a z → Relation.ReflTransGen R' a z := by
      intro z hz
      induction hz with
      | refl => exact .refl
      | tail h1 h2 ih => exact ih.tail ((h _ ⟨a, ha, h1⟩ _).mp h2)
    exact ⟨a, ha, this x hr⟩
  · rintro ⟨a, ha, hr⟩
    have : ∀ z, Relation.ReflTransGen R' a z → Relation.ReflTransGen R a z := by
      intro z hz
      induction hz with
      | refl => exact .refl
      | tail _ h2 ih => exact ih.tail ((h _ ⟨a, ha, ih⟩ _).mpr h2)
    exact ⟨a, ha, this x hr⟩

theorem installLoop_deps_ok (w : World α) (x : α) (ds : List (Dep α)) :
    (installLoop w).deps x = .ok ds ↔ ∃ p, w.repo.get x = some p ∧ p.compDeps = [] ∧ ds = p.deps := by
  simp only [installLoop, World.getRepo]
  cases w.repo.get x with
  | none => simp
  | some p => simp [PkgInfo.runtimeDeps]; split <;> simp_all [eq_comm]

theorem installLoop_keep_true (w : World α) (x : α) (d : Dep α) :
    (installLoop w).keep x d = .ok true ↔ w.installedSatisfies d = .ok false := by
  simp only [installLoop]
  cases w.installedSatisfies d <;> simp

theorem installLoop_keep_ok (w : World α) (x : α) (d : Dep α) :
    (∃ b, (installLoop w).keep x d = .ok b) ↔ TestableInstalled w d := by
  rw [← installedSatisfies_ok]
  simp only [installLoop]
  cases w.installedSatisfies d <;> simp

theorem installLoop_clean (w : World α) (x : α) : (installLoop w).Clean x ↔ Plannable w x := by
  unfold Loop.Clean Plannable
  constructor
  · rintro ⟨ds, h1, h2⟩
    obtain ⟨p, hp, hc, rfl⟩ := (installLoop_deps_ok w x ds).mp h1
    exact ⟨p, hp, hc, fun d hd => (installLoop_keep_ok w x d).mp (h2 d hd)⟩
  · rintro ⟨p, hp, hc, h⟩
    exact ⟨p.deps, (installLoop_deps_ok w x _).mpr ⟨p, hp, hc, rfl⟩,
      fun d hd => (installLoop_keep_ok w x d).mpr (h d hd)⟩

theorem installLoop_R_needs (w : World α) {x y : α} (h : (installLoop w).R x y) : Needs w x y := by
  obtain ⟨ds, d, h1, h2, h3, rfl⟩ := h
  obtain ⟨p, hp, hc, rfl⟩ := (installLoop_deps_ok w x ds).mp h1
  refine ⟨d, ⟨p, hp, h2⟩, rfl, ?_⟩
  rw [← installedSatisfies_true, (installLoop_keep_true w x d).mp h3]
  simp

theorem installLoop_R_iff (w : World α) {x : α} (hc : Plannable w x) (y : α) :
    (installLoop w).R x y ↔ Needs w x y := by
  refine ⟨installLoop_R_needs w, ?_⟩
  rintro ⟨d, ⟨p, hp, hd⟩, rfl, hn⟩
  obtain ⟨p', hp', hcd, hw⟩ := hc
  rw [hp] at hp'; cases hp'
  refine ⟨p.deps, d, (installLoop_deps_ok w x _).mpr ⟨p, hp, hcd, rfl⟩, hd, ?_, rfl⟩
  rw [installLoop_keep_true]
  obtain ⟨b, hb⟩ := (installedSatisfies_ok w d).mpr (hw d hd)
  rw [← installedSatisfies_true, hb] at hn
  cases b
  · exact hb
  · simp at hn

theorem mem_of_getRepo {w : World α} {x : α} {p : PkgInfo α} (h : w.repo.get x = some p) : x ∈ w.repo.keys :=
  (Dict.mem_keys _ _).mpr (by simp [h])

/-- What a topological sort of the shuffled graph gives. -/
theorem sort_ok {σ : Sched α} (hσ : σ.Legal) {g : Digraph α} (hg : g.WF) {l : List α}
    (h : liftErr (topologicalSort (σ.graph g)) = .ok l) :
    Spec.IsTopo (· ∈ g.verts) (fun u v => v ∈ g.adj u) l := by
  cases ht : topologicalSort (σ.graph g) with
  | error e => rw [ht] at h; cases e <;> simp [liftErr] at h
  | ok l' =>
    rw [ht] at h
    simp only [liftErr, Except.ok.injEq] at h
    subst h
    have hs := hσ.graph g
    have := topo_of_dfs _ (hs.wf hg) _ ht
    exact ⟨this.once, fun x => (this.all x).trans hs.verts.mem_iff,
      fun u v huv => this.forward u v ((hs.adj u).mem_iff.mpr huv)⟩

theorem sort_err {σ : Sched α} (hσ : σ.Legal) {g : Digraph α} (hg : g.WF) {e : PErr α}
    (h : liftErr (topologicalSort (σ.graph g)) = .error e) :
    (∃ p, e = .cycle p) ∧ Spec.Cyclic (fun u v => v ∈ g.adj u) := by
  have hs := hσ.graph g
  have hd := dfs_spec _ (hs.wf hg)
  unfold topologicalSort at h
  generalize dfs (σ.graph g) = r at hd h
  match r, hd with
  | .error .fuel, hf => exact hf.elim
  | .error .assertion, hf => exact hf.elim
  | .ok s, _ => simp [liftErr] at h
  | .error (.cycle p), hcp =>
    simp only [liftErr, Except.error.injEq] at h
    refine ⟨⟨p, h.symm⟩, ?_⟩
    exact (cyclic_congr (fun u v => (hs.adj u).mem_iff)).mp (cyclePath_cyclic hcp)

/-- The graph a successful `addPackages` + forward closure yields. -/
theorem planInstall_graph (w : World α) (σ : Sched α) (hσ : σ.Legal) (A : List α) (hA : A.Nodup)
    (g0 : Digraph α) (h0 : addPackages w.getRepo (σ.front A) Digraph.empty = .ok g0) :
    g0.WF ∧ (∀ x, x ∈ g0.verts ↔ x ∈ A) ∧ (∀ u, g0.adj u = []) ∧ ∀ x ∈ A, ∃ p, w.repo.get x = some p := by
  have := addPackages_spec w.getRepo (σ.front A) Digraph.empty empty_wf
    ((hσ.front A).nodup_iff.mpr hA) (by simp [Digraph.empty])
  rw [h0] at this
  obtain ⟨a, b, c, d⟩ := this
  refine ⟨a, fun x => ?_, fun u => by rw [c u]; rfl, fun x hx => ?_⟩
  · rw [b]; simp [Digraph.empty, (hσ.front A).mem_iff]
  · obtain ⟨p, hp⟩ := d x ((hσ.front A).mem_iff.mpr hx)
    exact ⟨p, (getRepo_ok w x p).mp hp⟩

/-- Everything the planner knows when it succeeds. -/
theorem planInstall_ok (w : World α) (σ : Sched α) (hσ : σ.Legal) (A : List α) (hA : A.Nodup)
    (order : List α) (h : planInstall w σ A = .ok order) :
    order.Nodup ∧ (∀ x, x ∈ order ↔ Reach (Needs w) A x) ∧ (∀ x, Reach (Needs w) A x → Plannable w x) ∧
    (∀ x y, Reach (Needs w) A x → Needs w x y → Spec.Before order y x) := by
  unfold planInstall at h
  cases h0 : addPackages w.getRepo (σ.front A) Digraph.empty with
  | error e => simp [h0] at h
  | ok g0 =>
    simp only [h0] at h
    obtain ⟨hw0, hv0, hadj0, hpres⟩ := planInstall_graph w σ hσ A hA g0 h0
    cases h1 : (installLoop w).closure .fuel σ.front (w.repo.keys.length + 1) A g0 with
    | error e => simp [h1] at h
    | ok g1 =>
      simp only [h1] at h
      cases h2 : liftErr (topologicalSort (σ.graph g1)) with
      | error e => simp [h2] at h
      | ok l =>
        simp only [h2, Except.ok.injEq] at h
        subst h
        obtain ⟨k1, k2, k3, k4, k5, k6, _⟩ :=
          closure_exp (installLoop w) hσ.front hw0 (fun x hx => (hv0 x).mpr hx) h1
        have hexp := exp_reach (installLoop w) g0.verts A hv0
        have hclean : ∀ x, Reach (installLoop w).R A x → Plannable w x := fun x hx =>
          (installLoop_clean w x).mp (k3 x ((hexp x).mpr hx))
        have hcongr := reach_congr (R := (installLoop w).R) (R' := Needs w) (A := A)
          (fun x hx y => installLoop_R_iff w (hclean x hx) y)
        have ht := sort_ok hσ k1 h2
        have hall : ∀ x, x ∈ g1.verts ↔ Reach (Needs w) A x := by
          intro x
          rw [k2 x, hexp x, hv0 x, hcongr x]
          exact ⟨fun h => h.elim (fun h => ⟨x, h, .refl⟩) id, Or.inr⟩
        refine ⟨List.nodup_reverse.mpr ht.once, fun x => ?_, fun x hx => ?_, fun x y hx hxy => ?_⟩
        · rw [List.mem_reverse, ht.all x]; exact hall x
        · exact hclean x ((hcongr x).mpr hx)
        · apply before_reverse
          apply ht.forward
          rw [k6 rfl x y]
          right
          have hx' := (hcongr x).mpr hx
          exact ⟨(hexp x).mpr hx', (installLoop_R_iff w (hclean x hx') y).mpr hxy⟩

end Pisi.Plan
