import Verif.Model.RemovePlan
import Verif.Lemmas.InstallPlan
import Verif.Props.InstallPlan

/-!
# C13-C15, C19: planning removals
-/
set_option linter.unusedSectionVars false

namespace Pisi.Plan
open Pisi.Graph Pisi.PlanSpec
variable {α : Type} [DecidableEq α]

theorem getTrack_ok (w : World α) (x : α) (p : PkgInfo α) : w.getTrack x = .ok p ↔ w.track.get x = some p := by
  unfold World.getTrack; cases w.track.get x <;> simp

theorem getTrack_error (w : World α) (x : α) (e : PErr α) :
    w.getTrack x = .error e ↔ w.track.get x = none ∧ e = .notFound x := by
  unfold World.getTrack; cases w.track.get x <;> simp [eq_comm]

theorem removeLoop_deps_ok (w : World α) (x : α) (ds) :
    (removeLoop w).deps x = .ok ds ↔ (∃ p, w.track.get x = some p) ∧ ds = w.revDepsInst x := by
  simp only [removeLoop, World.getTrack]
  cases w.track.get x <;> simp [eq_comm]

theorem mem_revDepsInst (w : World α) (x : α) (rd : α × Dep α) :
    rd ∈ w.revDepsInst x ↔ ∃ rs, w.revInst.get x = some rs ∧ rd ∈ rs := by
  unfold World.revDepsInst
  cases w.revInst.get x <;> simp

theorem removeLoop_R_iff (w : World α) (x y : α) :
    (removeLoop w).R x y ↔ (∃ p, w.track.get x = some p) ∧ Dependent w x y := by
  constructor
  · rintro ⟨ds, ⟨y', d⟩, h1, h2, h3, rfl⟩
    obtain ⟨hp, rfl⟩ := (removeLoop_deps_ok w x ds).mp h1
    refine ⟨hp, d, (mem_revDepsInst w x _).mp h2, ?_⟩
    simp only [removeLoop] at h3
    split at h3
    · next ht => exact ⟨(has_iff _ _).mp ht, (installedSatisfies_true w d).mp h3⟩
    · simp at h3
  · rintro ⟨hp, d, hm, ht, hs⟩
    refine ⟨w.revDepsInst x, (y, d), (removeLoop_deps_ok w x _).mpr ⟨hp, rfl⟩,
      (mem_revDepsInst w x _).mpr hm, ?_, rfl⟩
    simp only [removeLoop, (has_iff _ _).mpr ht, if_true]
    exact (installedSatisfies_true w d).mpr hs

theorem planRemove_graph (w : World α) (σ : Sched α) (hσ : σ.Legal) (A : List α) (hA : A.Nodup)
    (g0 : Digraph α) (h0 : addPackages w.getTrack (σ.front A) Digraph.empty = .ok g0) :
    g0.WF ∧ (∀ x, x ∈ g0.verts ↔ x ∈ A) ∧ (∀ u, g0.adj u = []) ∧ ∀ x ∈ A, ∃ p, w.track.get x = some p := by
  have := addPackages_spec w.getTrack (σ.front A) Digraph.empty empty_wf
    ((hσ.front A).nodup_iff.mpr hA) (by simp [Digraph.empty])
  rw [h0] at this
  obtain ⟨a, b, c, d⟩ := this
  refine ⟨a, fun x => ?_, fun u => by rw [c u]; rfl, fun x hx => ?_⟩
  · rw [b]; simp [Digraph.empty, (hσ.front A).mem_iff]
  · obtain ⟨p, hp⟩ := d x ((hσ.front A).mem_iff.mpr hx)
    exact ⟨p, (getTrack_ok w x p).mp hp⟩

theorem Pos.trans {l : List α} (hn : l.Nodup) {u v x : α} (h1 : Pos l u v) (h2 : Pos l v x) : Pos l u x := by
  obtain ⟨a, b, rfl, hu, hv⟩ := h1
  obtain ⟨a', b', he, hv', hx⟩ := h2
  have hvb : v ∉ a := fun hm => (List.nodup_append.mp hn).2.2 v hm v hv rfl
  rcases List.append_eq_append_iff.mp he with ⟨m, m1, m2⟩ | ⟨m, m1, m2⟩
  · exact ⟨a', b', he, by rw [m1]; simp [hu], hx⟩
  · exact absurd (by rw [m1]; simp [hv']) hvb

theorem Pos.irrefl {l : List α} (hn : l.Nodup) (u : α) : ¬ Pos l u u := by
  rintro ⟨a, b, rfl, h1, h2⟩
  exact (List.nodup_append.mp hn).2.2 u h1 u h2 rfl

/-- The graph built for a removal never has a cycle. -/
theorem removeGraph_acyclic (w : World α) {sched : List α → List α} (hs : ∀ l, (sched l).Perm l) {n : Nat}
    {B : List α} {g g' : Digraph α} (hg : g.WF) (hB : ∀ x ∈ B, x ∈ g.verts) (hadj : ∀ u, g.adj u = [])
    (h : (removeLoop w).closure .fuel sched n B g = .ok g') : ¬ Spec.Cyclic (fun u v => v ∈ g'.adj u) := by
  obtain ⟨k1, _, _, _, _, _, k7, _⟩ := closure_exp (removeLoop w) hs hg hB h
  rintro ⟨x, hx⟩
  have : ∀ u v, Relation.TransGen (fun u v => v ∈ g'.adj u) u v → Pos g'.verts v u := by
    intro u v huv
    have hstep : ∀ u v, v ∈ g'.adj u → Pos g'.verts v u := by
      intro u v h'
      rcases k7 rfl u v h' with h' | ⟨_, _, _, _, hp⟩
      · rw [hadj u] at h'; simp at h'
      · exact hp
    induction huv with
    | single h' => exact hstep _ _ h'
    | tail _ h' ih => exact Pos.trans k1.nodup (hstep _ _ h') ih
  exact Pos.irrefl k1.nodup x (this x x hx)

/-- Everything known when planning a removal succeeds. -/
theorem planRemove_ok (w : World α) (σ : Sched α) (hσ : σ.Legal) (A : List α) (hA : A.Nodup)
    (order : List α) (h : planRemove w σ A = .ok order) :
    order.Nodup ∧ (∀ x, x ∈ order ↔ Reach (Dependent w) A x) ∧
    (∀ u, u ∈ order → u ∉ A → ∃ v, v ∈ order ∧ Dependent w v u ∧ Spec.Before order u v) ∧
    (∀ x, Reach (Dependent w) A x → Removable w x) := by
  unfold planRemove at h
  cases h0 : addPackages w.getTrack (σ.front A) Digraph.empty with
  | error e => simp [h0] at h
  | ok g0 =>
    simp only [h0] at h
    obtain ⟨hw0, hv0, hadj0, hpres⟩ := planRemove_graph w σ hσ A hA g0 h0
    cases h1 : (removeLoop w).closure .fuel σ.front (w.track.keys.length + 1) A g0 with
    | error e => simp [h1] at h
    | ok g1 =>
      simp only [h1] at h
      obtain ⟨k1, k2, k3, k4, k5, _, k7, k8, _⟩ :=
        closure_exp (removeLoop w) hσ.front hw0 (fun x hx => (hv0 x).mpr hx) h1
      have hexp := exp_reach (removeLoop w) g0.verts A hv0
      have htrack : ∀ x, Reach (removeLoop w).R A x → ∃ p, w.track.get x = some p := by
        intro x hx
        obtain ⟨ds, hd, _⟩ := k3 x ((hexp x).mpr hx)
        exact ((removeLoop_deps_ok w x ds).mp hd).1
      have hcongr := reach_congr (R := (removeLoop w).R) (R' := Dependent w) (A := A)
        (fun x hx y => by rw [removeLoop_R_iff]; exact ⟨fun h => h.2, fun h => ⟨htrack x hx, h⟩⟩)
      have ht := sort_ok hσ k1 h
      have hall : ∀ x, x ∈ g1.verts ↔ Reach (Dependent w) A x := by
        intro x
        rw [k2 x, hexp x, hv0 x, hcongr x]
        exact ⟨fun h => h.elim (fun h => ⟨x, h, .refl⟩) id, Or.inr⟩
      refine ⟨ht.once, fun x => ?_, ?_, ?_⟩
      · rw [ht.all x]; exact hall x
      · intro u hu hnA
        have hu' : (removeLoop w).Exp g0.verts A u := (hexp u).mpr ((hcongr u).mpr ((hall u).mp ((ht.all u).mp hu)))
        obtain ⟨v, hv, hR, hadj⟩ := k8 rfl u hu' (fun hm => hnA ((hv0 u).mp hm))
        refine ⟨v, ?_, ((removeLoop_R_iff w v u).mp hR).2, ht.forward u v hadj⟩
        rw [ht.all v]
        exact (hall v).mpr ((hcongr v).mp ((hexp v).mp hv))
      · intro x hx
        have hx' := (hcongr x).mpr hx
        refine ⟨htrack x hx', fun rs hrs y d hm hy => ?_⟩
        obtain ⟨ds, hd, hk⟩ := k3 x ((hexp x).mpr hx')
        obtain ⟨_, rfl⟩ := (removeLoop_deps_ok w x ds).mp hd
        obtain ⟨b, hb⟩ := hk (y, d) ((mem_revDepsInst w x _).mpr ⟨rs, hrs, hm⟩)
        simp only [removeLoop, (has_iff _ _).mpr hy, if_true] at hb
        exact (installedSatisfies_ok w d).mp ⟨b, hb⟩

/-- **C13.** A successful removal plan lists, without duplicates, exactly the requested packages and everything
from which they are reachable through recorded, installed, currently satisfied dependencies. -/
theorem remove_plan_exact (w : World α) (σ : Sched α) (hσ : σ.Legal) (A : List α) (hA : A.Nodup)
    (order : List α) (h : planRemove w σ A = .ok order) :
    order.Nodup ∧ ∀ x, x ∈ order ↔ Reach (Dependent w) A x :=
  let ⟨a, b, _⟩ := planRemove_ok w σ hσ A hA order h
  ⟨a, b⟩

/-- **C13 (no dangling dependents).** No installed package outside the plan has a recorded satisfied dependency on
a package in the plan. -/
theorem remove_plan_no_dangling (w : World α) (σ : Sched α) (hσ : σ.Legal) (A : List α) (hA : A.Nodup)
    (order : List α) (h : planRemove w σ A = .ok order) (x y : α) (hx : x ∈ order) (hd : Dependent w x y) :
    y ∈ order := by
  obtain ⟨_, b, _⟩ := planRemove_ok w σ hσ A hA order h
  obtain ⟨a, ha, hr⟩ := (b x).mp hx
  exact (b y).mpr ⟨a, ha, hr.tail hd⟩

/-- **C15.** Removal planning never reports a dependency cycle and always terminates; it fails only if a package to
remove is not tracked, a needed tracking record is missing, or a version string is malformed. -/
theorem remove_plan_failure (w : World α) (σ : Sched α) (hσ : σ.Legal) (A : List α) (hA : A.Nodup)
    (e : PErr α) (h : planRemove w σ A = .error e) :
    match e with
    | .notFound x => (x ∈ A ∧ w.track.get x = none) ∨
        (∃ z, Reach (Dependent w) A z ∧ ∃ rs, w.revInst.get z = some rs ∧ ∃ y d, (y, d) ∈ rs ∧
          (∃ p, w.track.get y = some p) ∧ d.package = x ∧ w.inst.has x = true ∧ w.track.get x = none)
    | .value => ∃ z, Reach (Dependent w) A z ∧ ∃ rs, w.revInst.get z = some rs ∧ ∃ y d, (y, d) ∈ rs ∧
          (∃ p, w.track.get y = some p) ∧ ∃ p, w.inst.has d.package = true ∧
          w.track.get d.package = some p ∧ ¬ Testable d p
    | _ => False := by
  unfold planRemove at h
  cases h0 : addPackages w.getTrack (σ.front A) Digraph.empty with
  | error e' =>
    have := addPackages_spec w.getTrack (σ.front A) Digraph.empty empty_wf
      ((hσ.front A).nodup_iff.mpr hA) (by simp [Digraph.empty])
    rw [h0] at this
    obtain ⟨x, hx, hg⟩ := this
    simp only [h0, Except.error.injEq] at h
    subst h
    obtain ⟨hn, rfl⟩ := (getTrack_error w x _).mp hg
    exact Or.inl ⟨(hσ.front A).mem_iff.mp hx, hn⟩
  | ok g0 =>
    simp only [h0] at h
    obtain ⟨hw0, hv0, hadj0, hpres⟩ := planRemove_graph w σ hσ A hA g0 h0
    have hexp := exp_reach (removeLoop w) g0.verts A hv0
    cases h1 : (removeLoop w).closure .fuel σ.front (w.track.keys.length + 1) A g0 with
    | ok g1 =>
      simp only [h1] at h
      obtain ⟨k1, _⟩ := closure_exp (removeLoop w) hσ.front hw0 (fun x hx => (hv0 x).mpr hx) h1
      exact absurd (sort_err hσ k1 h).2 (removeGraph_acyclic w hσ.front hw0 (fun x hx => (hv0 x).mpr hx) hadj0 h1)
    | error e' =>
      simp only [h1, Except.error.injEq] at h
      subst h
      obtain ⟨x, hx, hf⟩ := closure_err (removeLoop w) .fuel σ.front hσ.front w.track.keys
        (by
          intro y hy
          simp only [removeLoop, World.getTrack] at hy
          cases hr : w.track.get y with
          | none => simp [hr] at hy
          | some p => exact (Dict.mem_keys _ _).mpr (by simp [hr]))
        A g0 hw0 (fun x hx => (hv0 x).mpr hx) _ h1
      have htr : ∃ p, w.track.get x = some p := by
        rcases hx with hx | ⟨_, hR, _⟩
        · exact hpres _ hx
        · exact ((removeLoop_R_iff w _ _).mp hR).2.choose_spec.2.1
      rcases hf with hf | ⟨ds, ⟨y, d⟩, hd1, hd2, hk⟩ | ⟨y, hR, hyn, hfe⟩
      · obtain ⟨p, hp⟩ := htr
        simp [removeLoop, World.getTrack, hp] at hf
      · simp only [removeLoop] at hk
        obtain ⟨_, rfl⟩ := (removeLoop_deps_ok w x ds).mp hd1
        obtain ⟨rs, hrs, hm⟩ := (mem_revDepsInst w x _).mp hd2
        have hre : Reach (Dependent w) A x :=
          reach_mono (fun a b hab => ((removeLoop_R_iff w a b).mp hab).2) ((hexp x).mp hx)
        split at hk
        · next hty =>
          have hty := (has_iff _ _).mp hty
          rcases installedSatisfies_error w d e' hk with ⟨rfl, hi, ht⟩ | ⟨rfl, hi, q, ht, hn⟩
          · exact Or.inr ⟨x, hre, rs, hrs, y, d, hm, hty, rfl, hi, ht⟩
          · exact ⟨x, hre, rs, hrs, y, d, hm, hty, q, hi, ht, hn⟩
        · simp at hk
      · obtain ⟨_, d, _, ⟨p, hp⟩, _⟩ := (removeLoop_R_iff w x y).mp hR
        simp [removeLoop, World.getTrack, hp] at hfe

/-- **C15 (exactly when).** Planning succeeds iff the packages met are tracked and the recorded dependencies on them
can be tested; cycles among the installed packages do not matter. -/
theorem remove_plan_succeeds_iff (w : World α) (σ : Sched α) (hσ : σ.Legal) (A : List α) (hA : A.Nodup) :
    (∃ order, planRemove w σ A = .ok order) ↔ ∀ x, Reach (Dependent w) A x → Removable w x := by
  refine ⟨fun ⟨order, h⟩ => (planRemove_ok w σ hσ A hA order h).2.2.2, fun hrem => ?_⟩
  cases h : planRemove w σ A with
  | ok order => exact ⟨order, rfl⟩
  | error e =>
    exfalso
    have := remove_plan_failure w σ hσ A hA e h
    cases e with
    | notFound x =>
      rcases this with ⟨hx, hn⟩ | ⟨z, hz, rs, hrs, y, d, hm, hy, rfl, hi, hn⟩
      · obtain ⟨p, hp⟩ := (hrem x ⟨x, hx, .refl⟩).1; simp [hn] at hp
      · obtain ⟨p, hp, _⟩ := (hrem z hz).2 rs hrs y d hm hy ((has_iff _ _).mp hi); simp [hn] at hp
    | value =>
      obtain ⟨z, hz, rs, hrs, y, d, hm, hy, p, hi, ht, hn⟩ := this
      obtain ⟨q, hq, ht'⟩ := (hrem z hz).2 rs hrs y d hm hy ((has_iff _ _).mp hi)
      rw [ht] at hq; cases hq
      exact hn ht'
    | _ => exact this

/-- **C14, full statement**: dependents are removed before what they depend on (if dependencies are acyclic). -/
def RemovalOrdered : Prop :=
  ∀ (w : World Nat) (σ : Sched Nat), σ.Legal → ∀ (A : List Nat), A.Nodup →
    ¬ Spec.Cyclic (Dependent w) → ∀ order, planRemove w σ A = .ok order →
    ∀ x y, x ∈ order → Dependent w x y → Spec.Before order y x

/-- Witness: 2 depends on 1, both are to be removed. -/
def pairWorld : World Nat where
  repo := []
  inst := [(1, ⟨['1'], ['1'], none⟩), (2, ⟨['1'], ['1'], none⟩)]
  track := [(1, { version := ['1'], release := ['1'] }),
            (2, { version := ['1'], release := ['1'], deps := [{ package := 1 }] })]
  revInst := [(1, [(2, { package := 1 })])]

/-- **C14 is false of the code**: no edge is recorded towards a package already in the graph. -/
theorem removal_order_refuted : ¬ RemovalOrdered := by
  intro h
  have hdep : ∀ x y, Dependent pairWorld x y → x = 1 ∧ y = 2 := by
    rintro x y ⟨d, ⟨rs, hr, hm⟩, _⟩
    simp only [pairWorld, Dict.get] at hr
    split at hr
    · next e => cases hr; simp only [List.mem_singleton, Prod.mk.injEq] at hm; exact ⟨e.symm, hm.1⟩
    · simp at hr
  have hac : ¬ Spec.Cyclic (Dependent pairWorld) := by
    rintro ⟨x, hx⟩
    have key : ∀ u v, Relation.TransGen (Dependent pairWorld) u v → u = 1 ∧ v = 2 := by
      intro u v huv
      induction huv with
      | single h' => exact hdep _ _ h'
      | tail _ h' ih => have := hdep _ _ h'; omega
    have := key x x hx
    omega
  have hd : Dependent pairWorld 1 2 := by
    have := (removeLoop_R_iff pairWorld 1 2).mp
      ⟨[(2, { package := 1 })], (2, { package := 1 }), by rfl, by simp, by rfl, rfl⟩
    exact this.2
  have := h pairWorld Sched.plain Sched.plain_legal [2, 1] (by simp) hac [1, 2] (by rfl) 1 2 (by simp) hd
  obtain ⟨a, b, c, he⟩ := this
  cases a with
  | nil => simp at he
  | cons z a => cases a with
    | nil => simp at he
    | cons z' a => cases a <;> simp at he

/-- **C14, proved part**: a package that was not itself requested is removed before the package through which it was
found to be a dependent, hence before everything it depends on when that is a single planned package.
Missing: edges between packages that were already in the graph (in particular two requested packages). -/
theorem removal_order_partial (w : World α) (σ : Sched α) (hσ : σ.Legal) (A : List α) (hA : A.Nodup)
    (order : List α) (h : planRemove w σ A = .ok order) (u : α) (hu : u ∈ order) (hn : u ∉ A) :
    (∃ v, v ∈ order ∧ Dependent w v u ∧ Spec.Before order u v) ∧
    ∀ x, x ∈ order → Dependent w x u → (∀ x', x' ∈ order → Dependent w x' u → x' = x) → Spec.Before order u x := by
  obtain ⟨_, _, c, _⟩ := planRemove_ok w σ hσ A hA order h
  obtain ⟨v, hv, hd, hb⟩ := c u hu hn
  exact ⟨⟨v, hv, hd, hb⟩, fun x _ _ huniq => huniq v hv hd ▸ hb⟩

/-! ## C19 -/

/-- **C19, full statement**: without bypass_safety no package of system.base is removed. -/
def BaseSafe : Prop :=
  ∀ (w : World Nat) (σ : Sched Nat), σ.Legal → ∀ (o : RemoveOpts) (base A : List Nat), A.Nodup →
    o.bypassSafety = false → ∀ removed, removeCmd w σ o (some base) A = .ok removed →
    ∀ x ∈ base, x ∉ removed

/-- **C19 is false of the code**: a system.base package is removed if it depends on a requested package. -/
theorem base_safety_refuted : ¬ BaseSafe := by
  intro h
  exact h pairWorld Sched.plain Sched.plain_legal {} [2] [1] (by simp) rfl [2, 1] (by rfl) 2 (by simp) (by simp)

/-- **C19, proved part**: a system.base package is removed only if it depends, directly or not, on a requested package
outside system.base; in particular with dependencies ignored nothing of system.base is removed, and if no
system.base package depends on anything outside it, none is.
Missing: protection of system.base packages that depend on what is removed. -/
theorem base_safety_partial (w : World α) (σ : Sched α) (hσ : σ.Legal) (o : RemoveOpts) (base A : List α)
    (hA : A.Nodup) (hb : o.bypassSafety = false) (removed : List α)
    (h : removeCmd w σ o (some base) A = .ok removed) (x : α) (hx : x ∈ base) (hr : x ∈ removed) :
    o.ignoreDep = false ∧ ∃ a ∈ A, a ∉ base ∧ Relation.TransGen (Dependent w) a x := by
  unfold removeCmd at h
  dsimp only at h
  have hreq : removeRequest w o (some base) A = (A.filter (fun x => x ∉ base)).filter w.isInstalled := by
    simp [removeRequest, hb]
  have hA2 : (removeRequest w o (some base) A).Nodup := by
    rw [hreq]; exact (hA.filter _).filter _
  have hmem : ∀ a, a ∈ removeRequest w o (some base) A → a ∈ A ∧ a ∉ base := by
    intro a ha; rw [hreq] at ha; simp only [List.mem_filter, decide_eq_true_eq] at ha; exact ha.1
  generalize removeRequest w o (some base) A = A2 at h hA2 hmem
  split at h
  · simp only [Except.ok.injEq] at h; subst h; simp at hr
  · cases hi : o.ignoreDep with
    | true =>
      exfalso
      simp only [hi, if_true] at h
      split at h
      · simp only [Except.ok.injEq] at h; subst h; simp at hr
      · split at h
        · simp only [Except.ok.injEq] at h; subst h; simp at hr
        · simp only [Except.ok.injEq] at h; subst h
          have := (hσ.front A2).mem_iff.mp (List.mem_filter.mp hr).1
          exact (hmem x this).2 hx
    | false =>
      refine ⟨rfl, ?_⟩
      simp only [hi, Bool.false_eq_true, if_false] at h
      cases hp : planRemove w σ A2 with
      | error e => simp [hp] at h
      | ok order =>
        simp only [hp] at h
        have hro : x ∈ order := by
          split at h
          · simp only [Except.ok.injEq] at h; subst h; simp at hr
          · split at h
            · simp only [Except.ok.injEq] at h; subst h; simp at hr
            · simp only [Except.ok.injEq] at h; subst h; exact (List.mem_filter.mp hr).1
        obtain ⟨_, b, _⟩ := planRemove_ok w σ hσ A2 hA2 order hp
        obtain ⟨a, ha, hra⟩ := (b x).mp hro
        obtain ⟨ha1, ha2⟩ := hmem a ha
        refine ⟨a, ha1, ha2, ?_⟩
        rcases Relation.reflTransGen_iff_eq_or_transGen.mp hra with e | ht
        · exact absurd (e ▸ hx) ha2
        · exact ht

/-- Only installed packages are ever removed, a dry run removes nothing, and declining the confirmation means
that at most as many packages as were requested are removed. -/
theorem remove_cmd_installed_only (w : World α) (σ : Sched α) (o : RemoveOpts) (base : Option (List α))
    (A : List α) (removed : List α) (h : removeCmd w σ o base A = .ok removed) :
    (∀ x ∈ removed, w.isInstalled x = true) ∧ (o.dryRun = true → removed = []) ∧
    (o.confirm = false → removed.length ≤ A.length) := by
  unfold removeCmd at h
  dsimp only at h
  generalize removeRequest w o base A = A2 at h
  split at h
  · simp only [Except.ok.injEq] at h; subst h; simp
  · split at h
    · simp at h
    · split at h
      · simp only [Except.ok.injEq] at h; subst h; simp
      · next hcf =>
        split at h
        · simp only [Except.ok.injEq] at h; subst h; simp
        · next order _ hd =>
          simp only [Except.ok.injEq] at h; subst h
          refine ⟨fun x hx => (List.mem_filter.mp hx).2, fun e => absurd e hd, fun hc => ?_⟩
          have : ¬ order.length > A.length := fun hl => hcf ⟨hl, hc⟩
          have := List.length_filter_le w.isInstalled order
          omega

/-- With confirmation given, `remove` removes exactly the installed packages among: the requested installed
packages outside system.base (all requested installed ones if safety is bypassed or there is no such
component) and, unless dependencies are ignored, everything depending on them. -/
theorem remove_cmd_exact (w : World α) (σ : Sched α) (hσ : σ.Legal) (o : RemoveOpts) (base : Option (List α))
    (A : List α) (hA : A.Nodup) (hc : o.confirm = true) (hd : o.dryRun = false) (removed : List α)
    (h : removeCmd w σ o base A = .ok removed) (x : α) :
    x ∈ removed ↔ w.isInstalled x = true ∧
      ∃ a ∈ A, w.isInstalled a = true ∧ (o.bypassSafety = true ∨ ∀ b, base = some b → a ∉ b) ∧
        (if o.ignoreDep then a = x else Relation.ReflTransGen (Dependent w) a x) := by
  have hmem : ∀ a, a ∈ removeRequest w o base A ↔
      a ∈ A ∧ w.isInstalled a = true ∧ (o.bypassSafety = true ∨ ∀ b, base = some b → a ∉ b) := by
    intro a
    unfold removeRequest
    cases o.bypassSafety <;> cases base <;> simp [and_comm]
  have hA2 : (removeRequest w o base A).Nodup := by
    unfold removeRequest
    apply List.Nodup.filter
    split
    · exact hA
    · split
      · exact hA.filter _
      · exact hA
  unfold removeCmd at h
  dsimp only at h
  generalize removeRequest w o base A = A2 at h hmem hA2
  split at h
  · next he =>
    simp only [Except.ok.injEq] at h; subst h; subst he
    simp only [List.not_mem_nil, false_iff]
    rintro ⟨_, a, ha, hi, hb, _⟩
    exact absurd ((hmem a).mpr ⟨ha, hi, hb⟩) (by simp)
  · simp only [hc, hd, Bool.true_eq_false, Bool.false_eq_true, and_false, if_false] at h
    cases hi : o.ignoreDep with
    | true =>
      simp only [hi, if_true, Except.ok.injEq] at h
      subst h
      simp only [List.mem_filter, (hσ.front A2).mem_iff, hmem, if_true]
      constructor
      · rintro ⟨⟨h1, h2, h3⟩, h4⟩; exact ⟨h4, x, h1, h2, h3, rfl⟩
      · rintro ⟨h4, a, h1, h2, h3, rfl⟩; exact ⟨⟨h1, h2, h3⟩, h4⟩
    | false =>
      simp only [hi, Bool.false_eq_true, if_false] at h
      cases hp : planRemove w σ A2 with
      | error e => simp [hp] at h
      | ok order =>
        simp only [hp, Except.ok.injEq] at h
        subst h
        obtain ⟨_, b, _⟩ := planRemove_ok w σ hσ A2 hA2 order hp
        simp only [List.mem_filter, b x, Reach, hmem, Bool.false_eq_true, if_false]
        constructor
        · rintro ⟨⟨a, ⟨h1, h2, h3⟩, h5⟩, h4⟩; exact ⟨h4, a, h1, h2, h3, h5⟩
        · rintro ⟨h4, a, h1, h2, h3, h5⟩; exact ⟨⟨a, ⟨h1, h2, h3⟩, h5⟩, h4⟩

/-- `remove` never fails because of a requested package that is not installed. -/
theorem remove_cmd_error (w : World α) (σ : Sched α) (o : RemoveOpts) (base : Option (List α))
    (A : List α) (e : PErr α) (h : removeCmd w σ o base A = .error e) :
    ∃ A2, (∀ a ∈ A2, a ∈ A ∧ w.isInstalled a = true) ∧ planRemove w σ A2 = .error e := by
  unfold removeCmd at h
  dsimp only at h
  refine ⟨removeRequest w o base A, ?_, ?_⟩
  · intro a ha
    unfold removeRequest at ha
    refine ⟨?_, (List.mem_filter.mp ha).2⟩
    have := (List.mem_filter.mp ha).1
    split at this
    · exact this
    · split at this
      · exact (List.mem_filter.mp this).1
      · exact this
  · generalize removeRequest w o base A = A2 at h
    split at h
    · simp at h
    · split at h
      · next e' he =>
        simp only [Except.error.injEq] at h
        subst h
        split at he
        · simp at he
        · exact he
      · split at h
        · simp at h
        · split at h <;> simp at h

/-! ### Non-vacuity -/

/-- 1 ← 2 ← 3 and a cycle 3 ↔ 4. -/
def cycWorld : World Nat where
  repo := []
  inst := [(1, ⟨['1'], ['1'], none⟩), (2, ⟨['1'], ['1'], none⟩), (3, ⟨['1'], ['1'], none⟩), (4, ⟨['1'], ['1'], none⟩)]
  track := [(1, { version := ['1'], release := ['1'] }),
            (2, { version := ['1'], release := ['1'], deps := [{ package := 1 }] }),
            (3, { version := ['1'], release := ['1'], deps := [{ package := 2 }, { package := 4 }] }),
            (4, { version := ['1'], release := ['1'], deps := [{ package := 3 }] })]
  revInst := [(1, [(2, { package := 1 })]), (2, [(3, { package := 2 })]), (3, [(4, { package := 3 })]),
              (4, [(3, { package := 4 })])]

example : planRemove cycWorld Sched.plain [1] = .ok [4, 3, 2, 1] := by rfl
example : ∀ x, Reach (Dependent cycWorld) [1] x → Removable cycWorld x :=
  (remove_plan_succeeds_iff cycWorld Sched.plain Sched.plain_legal [1] (by simp)).mp ⟨[4, 3, 2, 1], rfl⟩
example : removeCmd cycWorld Sched.plain {} (some [9]) [1, 9] = .ok [4, 3, 2, 1] := by rfl
example : removeCmd cycWorld Sched.plain { confirm := false } (some [9]) [1] = .ok [] := by rfl

end Pisi.Plan
