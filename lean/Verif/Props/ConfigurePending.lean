import Verif.Model.ConfigurePending
import Verif.Props.InstallDB
import Verif.Props.RemovePlan
import Verif.Props.InstallPlan

/-!
# C23, C58: configuring pending packages
-/
set_option linter.unusedSectionVars false

namespace Pisi.Plan
open Pisi.Graph Pisi.PlanSpec Pisi.DB Pisi.DBSpec
variable {α ν : Type} [DecidableEq α]

/-- The installed package `x` depends on `y` according to the tracking database. -/
def TrackDep (w : World α) (x y : α) : Prop := ∃ p, w.track.get x = some p ∧ ∃ d ∈ p.deps, d.package = y

/-- `x` depends on `y` and both are pending. -/
def PendDep (w : World α) (pend : List α) (x y : α) : Prop := x ∈ pend ∧ y ∈ pend ∧ TrackDep w x y

theorem pendingLoop_deps_ok (w : World α) (pend : List α) (x : α) (ds) :
    (pendingLoop w pend).deps x = .ok ds ↔ ∃ p, w.track.get x = some p ∧ p.compDeps = [] ∧ ds = p.deps := by
  simp only [pendingLoop, World.getTrack]
  cases w.track.get x with
  | none => simp
  | some p =>
    simp only [PkgInfo.runtimeDeps]
    split
    · next h => simp [h, eq_comm]
    · next h => simp [h]

theorem pendingLoop_R_iff (w : World α) (pend : List α) (x y : α) :
    (pendingLoop w pend).R x y ↔ ∃ p, w.track.get x = some p ∧ p.compDeps = [] ∧ (∃ d ∈ p.deps, d.package = y) ∧ y ∈ pend := by
  constructor
  · rintro ⟨ds, d, h1, h2, h3, rfl⟩
    obtain ⟨p, hp, hc, rfl⟩ := (pendingLoop_deps_ok w pend x ds).mp h1
    exact ⟨p, hp, hc, ⟨d, h2, rfl⟩, by simpa [pendingLoop] using h3⟩
  · rintro ⟨p, hp, hc, ⟨d, hd, rfl⟩, hy⟩
    exact ⟨p.deps, d, (pendingLoop_deps_ok w pend x _).mpr ⟨p, hp, hc, rfl⟩, hd, by simpa [pendingLoop] using hy, rfl⟩

theorem pending_graph (w : World α) (σ : Sched α) (hσ : σ.Legal) (A : List α) (hA : A.Nodup)
    (g0 : Digraph α) (h0 : addPackages w.getTrack (σ.front A) Digraph.empty = .ok g0) :
    g0.WF ∧ (∀ x, x ∈ g0.verts ↔ x ∈ A) ∧ (∀ u, g0.adj u = []) ∧ ∀ x ∈ A, ∃ p, w.track.get x = some p := by
  have := addPackages_spec w.getTrack (σ.front A) Digraph.empty empty_wf
    ((hσ.front A).nodup_iff.mpr hA) (by simp [Digraph.empty])
  rw [h0] at this
  obtain ⟨a, b, c, d⟩ := this
  refine ⟨a, fun x => ?_, fun u => by rw [c u]; rfl, fun x hx => ?_⟩
  · rw [b]; simp [Digraph.empty, (hσ.front A).mem_iff]
  · obtain ⟨p, hp⟩ := d x ((hσ.front A).mem_iff.mpr hx)
    exact ⟨p, (getTrack_ok w x p).mp hp⟩

theorem pending_exp (w : World α) (A V : List α) (hv : ∀ x, x ∈ V ↔ x ∈ A) (x : α) :
    (pendingLoop w A).Exp V A x ↔ x ∈ A := by
  constructor
  · intro h
    induction h with
    | base h => exact h
    | step _ hR hy => 
      obtain ⟨_, _, _, _, hm⟩ := (pendingLoop_R_iff w A _ _).mp hR
      exact absurd ((hv _).mpr hm) hy
  · exact fun h => .base h

theorem mem_of_getTrack {w : World α} {y : α} {p : PkgInfo α} (h : w.track.get y = some p) : y ∈ w.track.keys :=
  (Dict.mem_keys _ _).mpr (by simp [h])

/-- **C23 (planning).** The configuration order lists each pending package exactly once, after every pending package it
depends on. -/
theorem pending_order (w : World α) (σ : Sched α) (hσ : σ.Legal) (pend : List α) (hA : pend.Nodup)
    (order : List α) (h : planPending w σ pend = .ok order) :
    order.Nodup ∧ (∀ x, x ∈ order ↔ x ∈ pend) ∧
    ∀ x y, PendDep w pend x y → Spec.Before order y x := by
  unfold planPending at h
  cases h0 : addPackages w.getTrack (σ.front pend) Digraph.empty with
  | error e => simp [h0] at h
  | ok g0 =>
    simp only [h0] at h
    obtain ⟨hw0, hv0, hadj0, hpres⟩ := pending_graph w σ hσ pend hA g0 h0
    cases h1 : (pendingLoop w pend).closure .fuel σ.front (w.track.keys.length + 1) pend g0 with
    | error e => simp [h1] at h
    | ok g1 =>
      simp only [h1] at h
      cases h2 : liftErr (topologicalSort (σ.graph g1)) with
      | error e => simp [h2] at h
      | ok l =>
        simp only [h2, Except.ok.injEq] at h
        subst h
        obtain ⟨k1, k2, k3, k4, k5, k6, _⟩ :=
          closure_exp (pendingLoop w pend) hσ.front hw0 (fun x hx => (hv0 x).mpr hx) h1
        have hexp := pending_exp w pend g0.verts hv0
        have ht := sort_ok hσ k1 h2
        refine ⟨List.nodup_reverse.mpr ht.once, fun x => ?_, fun x y ⟨hx, hy, p, hp, d, hd, he⟩ => ?_⟩
        · rw [List.mem_reverse, ht.all x, k2 x, hexp x, hv0 x]; simp
        · apply before_reverse
          apply ht.forward
          rw [k6 rfl x y]
          right
          refine ⟨(hexp x).mpr hx, (pendingLoop_R_iff w pend x y).mpr ⟨p, hp, ?_, ⟨d, hd, he⟩, hy⟩⟩
          obtain ⟨ds, hds, _⟩ := k3 x ((hexp x).mpr hx)
          obtain ⟨q, hq, hc, _⟩ := (pendingLoop_deps_ok w pend x ds).mp hds
          rw [hp] at hq; cases hq; exact hc

/-- **C23 (planning succeeds).** An order is found exactly when every pending package is tracked without component
dependencies and the dependencies between pending packages are acyclic. -/
theorem pending_plan_succeeds_iff (w : World α) (σ : Sched α) (hσ : σ.Legal) (pend : List α) (hA : pend.Nodup) :
    (∃ order, planPending w σ pend = .ok order) ↔
      (∀ x ∈ pend, ∃ p, w.track.get x = some p ∧ p.compDeps = []) ∧ ¬ Spec.Cyclic (PendDep w pend) := by
  constructor
  · rintro ⟨order, h⟩
    obtain ⟨hn, hall, hb⟩ := pending_order w σ hσ pend hA order h
    refine ⟨?_, ?_⟩
    · unfold planPending at h
      cases h0 : addPackages w.getTrack (σ.front pend) Digraph.empty with
      | error e => simp [h0] at h
      | ok g0 =>
        simp only [h0] at h
        obtain ⟨hw0, hv0, hadj0, hpres⟩ := pending_graph w σ hσ pend hA g0 h0
        cases h1 : (pendingLoop w pend).closure .fuel σ.front (w.track.keys.length + 1) pend g0 with
        | error e => simp [h1] at h
        | ok g1 =>
          obtain ⟨_, _, k3, _⟩ := closure_exp (pendingLoop w pend) hσ.front hw0 (fun x hx => (hv0 x).mpr hx) h1
          intro x hx
          obtain ⟨ds, hds, _⟩ := k3 x (.base hx)
          obtain ⟨q, hq, hc, _⟩ := (pendingLoop_deps_ok w pend x ds).mp hds
          exact ⟨q, hq, hc⟩
    · have ht : Spec.IsTopo (· ∈ pend) (fun x y => PendDep w pend x y) order.reverse :=
        ⟨List.nodup_reverse.mpr hn, fun x => by simp [hall], fun u v huv => before_reverse (hb u v huv)⟩
      exact topo_acyclic ht
  · rintro ⟨hok, hac⟩
    unfold planPending
    cases h0 : addPackages w.getTrack (σ.front pend) Digraph.empty with
    | error e =>
      have := addPackages_spec w.getTrack (σ.front pend) Digraph.empty empty_wf
        ((hσ.front pend).nodup_iff.mpr hA) (by simp [Digraph.empty])
      rw [h0] at this
      obtain ⟨x, hx, hg⟩ := this
      obtain ⟨p, hp, _⟩ := hok x ((hσ.front pend).mem_iff.mp hx)
      rw [(getTrack_ok w x p).mpr hp] at hg; cases hg
    | ok g0 =>
      obtain ⟨hw0, hv0, hadj0, hpres⟩ := pending_graph w σ hσ pend hA g0 h0
      have hexp := pending_exp w pend g0.verts hv0
      cases h1 : (pendingLoop w pend).closure .fuel σ.front (w.track.keys.length + 1) pend g0 with
      | error e =>
        exfalso
        obtain ⟨x, hx, hf⟩ := closure_err (pendingLoop w pend) .fuel σ.front hσ.front w.track.keys
          (by
            intro y hy
            simp only [pendingLoop, World.getTrack] at hy
            cases hr : w.track.get y with
            | none => simp [hr] at hy
            | some p => exact mem_of_getTrack hr)
          pend g0 hw0 (fun x hx => (hv0 x).mpr hx) _ h1
        have hx' := (hexp x).mp hx
        obtain ⟨p, hp, hc⟩ := hok x hx'
        rcases hf with hf | ⟨ds, d, _, _, hk⟩ | ⟨y, hR, hyn, _⟩
        · rw [(pendingLoop_deps_ok w pend x p.deps).mpr ⟨p, hp, hc, rfl⟩] at hf; cases hf
        · simp [pendingLoop] at hk
        · obtain ⟨_, _, _, _, hm⟩ := (pendingLoop_R_iff w pend _ _).mp hR
          exact hyn ((hv0 y).mpr hm)
      | ok g1 =>
        cases h2 : liftErr (topologicalSort (σ.graph g1)) with
        | ok l => exact ⟨l.reverse, by simp only [h1, h2]⟩
        | error e =>
          exfalso
          obtain ⟨k1, k2, k3, k4, k5, k6, _⟩ :=
            closure_exp (pendingLoop w pend) hσ.front hw0 (fun x hx => (hv0 x).mpr hx) h1
          obtain ⟨_, x, hx⟩ := sort_err hσ k1 h2
          refine hac ⟨x, Relation.TransGen.mono ?_ _ _ hx⟩
          intro u v huv
          rw [k6 rfl u v, hadj0 u] at huv
          rcases huv with hu | ⟨hu, hR⟩
          · simp at hu
          · obtain ⟨p, hp, _, ⟨d, hd, he⟩, hm⟩ := (pendingLoop_R_iff w pend _ _).mp hR
            exact ⟨(hexp u).mp hu, hm, p, hp, d, hd, he⟩

/-! ## Execution -/

theorem clearPending_effect {s s' : InstallDB α ν} {p : α} (h : s.clearPending p = .ok s') :
    (∀ q, s'.isInstalled q = s.isInstalled q) ∧ s'.dp = s.dp.del p ∧ s.dp.has p = true ∧
      ∀ q, q ≠ p → s'.d.get q = s.d.get q := by
  unfold InstallDB.clearPending at h
  cases hx : s.d.get p with
  | none => rw [hx] at h; cases h
  | some x =>
    simp only [hx] at h
    have other : ∀ (st : InstState) q, q ≠ p → (s.d.put p ⟨st, x.ver⟩).get q = s.d.get q := by
      intro st q hq
      rw [Dict.get_put, if_neg (fun e => hq e.symm)]
    split at h
    · next hi =>
      split at h
      · next hst =>
        split at h
        · next hd =>
          cases h
          refine ⟨fun q => ?_, rfl, hd, other .i⟩
          by_cases hq : q = p
          · subst hq; simp [InstallDB.isInstalled, Dict.get_put, InstallDB.counts, hx, hst]
          · simp only [InstallDB.isInstalled, other .i q hq]
        · cases h
      · cases h
    · split at h
      · next hd =>
        cases h
        refine ⟨fun q => ?_, rfl, hd, fun q hq => other x.state q hq⟩
        by_cases hq : q = p
        · subst hq; simp [InstallDB.isInstalled, Dict.get_put, hx]
        · simp only [InstallDB.isInstalled]; rw [other x.state q hq]
      · cases h

/-- Effect of the execution part on any order without repetitions. -/
theorem configureAll_spec (hook : α → Bool) (order : List α) : ∀ s : InstallDB α ν, order.Nodup →
    (configureAll hook order s).configured.Sublist (order.filter s.isInstalled) ∧
    ((configureAll hook order s).err = none →
      (configureAll hook order s).configured = order.filter s.isInstalled ∧
      (∀ q, q ∈ (configureAll hook order s).db.dp.keys ↔ q ∈ s.dp.keys ∧ q ∉ order) ∧
      (∀ x ∈ order, s.isInstalled x = true → hook x = true)) ∧
    (∀ q, (configureAll hook order s).db.isInstalled q = s.isInstalled q) ∧
    ((configureAll hook order s).err = some .hook →
      ∃ a x b, order = a ++ x :: b ∧ hook x = false ∧ s.isInstalled x = true ∧
        (configureAll hook order s).configured = a.filter s.isInstalled ∧
        ∀ q, q ∈ (configureAll hook order s).db.dp.keys ↔ q ∈ s.dp.keys ∧ q ∉ a) ∧
    (∀ e, (configureAll hook order s).err = some (.clear e) →
      ∃ x ∈ order, s.clearPending x = .error e) := by
  induction order with
  | nil => intro s _; simp [configureAll]
  | cons x xs ih =>
    intro s hn
    obtain ⟨hx, hn'⟩ := List.nodup_cons.mp hn
    have keysDel : ∀ q, q ∈ (s.dp.del x).keys ↔ q ≠ x ∧ q ∈ s.dp.keys := by
      intro q
      rw [Dict.mem_keys, Dict.mem_keys]
      simp only [Dict.get_del]
      by_cases hq : x = q
      · simp [hq]
      · have : q ≠ x := fun e => hq e.symm
        simp [hq, this]
    have later : ∀ s' : InstallDB α ν, s.clearPending x = .ok s' → ∀ y ∈ xs, s'.clearPending y = s.clearPending y ∨
        (∀ e, s'.clearPending y = .error e → s.clearPending y = .error e) := by
      intro s' hs' y hy
      right
      intro e he
      obtain ⟨c1, c2, c3, c4⟩ := clearPending_effect hs'
      have hyx : y ≠ x := fun e => hx (e ▸ hy)
      have h1 := c4 y hyx
      have h2 : s'.dp.has y = s.dp.has y := by
        have hxy : x ≠ y := fun e => hyx e.symm
        rw [c2]; simp [Dict.has, Dict.get_del, hxy]
      unfold InstallDB.clearPending at he ⊢
      rw [h1, h2, c1] at he
      cases hd : s.d.get y with
      | none => rw [hd] at he; exact he
      | some z =>
        rw [hd] at he
        simp only at he ⊢
        repeat' split at he
        all_goals first | (cases he; done) | (simp_all; done)
    simp only [configureAll]
    by_cases hi : s.isInstalled x = true
    · simp only [hi, if_true]
      by_cases hh : hook x = true
      · simp only [hh, if_true]
        cases hc : s.clearPending x with
        | error e =>
          simp only [reduceCtorEq, false_implies, implies_true, true_and]
          refine ⟨by simp [hi], by simp, fun e' he' => ?_⟩
          simp at he'; subst he'; exact ⟨x, by simp, hc⟩
        | ok s' =>
          obtain ⟨c1, c2, c3, c4⟩ := clearPending_effect hc
          obtain ⟨i1, i2, i3, i4, i5⟩ := ih s' hn'
          have hf : xs.filter s'.isInstalled = xs.filter s.isInstalled := by
            congr 1; funext q; exact c1 q
          rw [hf] at i1 i2
          simp only [List.filter_cons, hi, if_true]
          refine ⟨i1.cons_cons x, fun he => ?_, fun q => (i3 q).trans (c1 q), fun he => ?_, fun e he => ?_⟩
          · obtain ⟨j1, j2, j3⟩ := i2 he
            refine ⟨by rw [j1], fun q => ?_, fun y hy hyi => ?_⟩
            · rw [j2, c2, keysDel]; simp only [List.mem_cons, not_or]
              constructor
              · rintro ⟨⟨a, b⟩, c⟩; exact ⟨b, a, c⟩
              · rintro ⟨b, a, c⟩; exact ⟨⟨a, b⟩, c⟩
            · rcases List.mem_cons.mp hy with rfl | hy
              · exact hh
              · exact j3 y hy (by rw [c1]; exact hyi)
          · obtain ⟨a, z, b, e1, e2, e3, e4, e5⟩ := i4 he
            refine ⟨x :: a, z, b, by simp [e1], e2, by rw [← c1]; exact e3, ?_, fun q => ?_⟩
            · rw [e4]; simp only [List.filter_cons, hi, if_true]
              congr 2; funext q; exact c1 q
            · rw [e5, c2, keysDel]; simp only [List.mem_cons, not_or]
              constructor
              · rintro ⟨⟨a, b⟩, c⟩; exact ⟨b, a, c⟩
              · rintro ⟨b, a, c⟩; exact ⟨⟨a, b⟩, c⟩
          · obtain ⟨y, hy, hye⟩ := i5 e he
            refine ⟨y, by simp [hy], ?_⟩
            rcases later s' hc y hy with h | h
            · rw [← h]; exact hye
            · exact h e hye
      · have hh' : hook x = false := by simpa using hh
        simp only [hh', Bool.false_eq_true, if_false]
        refine ⟨by simp, by simp, fun _ => trivial, fun _ => ⟨[], x, xs, rfl, hh', hi, rfl, by simp⟩, by simp⟩
    · simp only [hi]
      cases hc : s.clearPending x with
      | error e =>
        simp only [Bool.false_eq_true, if_false]
        refine ⟨by simp, by simp, fun _ => trivial, by simp, fun e' he' => ?_⟩
        simp at he'; subst he'; exact ⟨x, by simp, hc⟩
      | ok s' =>
        simp only [Bool.false_eq_true, if_false]
        obtain ⟨c1, c2, c3, c4⟩ := clearPending_effect hc
        obtain ⟨i1, i2, i3, i4, i5⟩ := ih s' hn'
        have hf : xs.filter s'.isInstalled = xs.filter s.isInstalled := by
          congr 1; funext q; exact c1 q
        rw [hf] at i1 i2
        simp only [List.filter_cons, hi]
        refine ⟨i1, fun he => ?_, fun q => (i3 q).trans (c1 q), fun he => ?_, fun e he => ?_⟩
        · obtain ⟨j1, j2, j3⟩ := i2 he
          refine ⟨by simp [j1], fun q => ?_, fun y hy hyi => ?_⟩
          · rw [j2, c2, keysDel]; simp only [List.mem_cons, not_or]
            constructor
            · rintro ⟨⟨a, b⟩, c⟩; exact ⟨b, a, c⟩
            · rintro ⟨b, a, c⟩; exact ⟨⟨a, b⟩, c⟩
          · rcases List.mem_cons.mp hy with rfl | hy
            · exact absurd hyi hi
            · exact j3 y hy (by rw [c1]; exact hyi)
        · obtain ⟨a, z, b, e1, e2, e3, e4, e5⟩ := i4 he
          refine ⟨x :: a, z, b, by simp [e1], e2, by rw [← c1]; exact e3, ?_, fun q => ?_⟩
          · rw [e4]; simp only [List.filter_cons, hi]
            simp only [Bool.false_eq_true, if_false]
            congr 1; funext q; exact c1 q
          · rw [e5, c2, keysDel]; simp only [List.mem_cons, not_or]
            constructor
            · rintro ⟨⟨a, b⟩, c⟩; exact ⟨b, a, c⟩
            · rintro ⟨b, a, c⟩; exact ⟨⟨a, b⟩, c⟩
        · obtain ⟨y, hy, hye⟩ := i5 e he
          refine ⟨y, by simp [hy], ?_⟩
          rcases later s' hc y hy with h | h
          · rw [← h]; exact hye
          · exact h e hye

theorem before_sublist {l l' : List α} (hs : l'.Sublist l) (hn : l.Nodup) {u v : α} (h : Spec.Before l u v)
    (hv : v ∈ l') (hu : u ∈ l') : Spec.Before l' u v := by
  obtain ⟨a, b, c, rfl⟩ := h
  obtain ⟨l1, l2, rfl, h1, h2⟩ := List.sublist_append_iff.mp hs
  rw [List.nodup_append] at hn
  obtain ⟨n1, n2, n3⟩ := hn
  have u1 : u ∉ l1 := fun e => n3 u (h1.subset e) u (by simp) rfl
  have u2 : u ∈ l2 := (List.mem_append.mp hu).resolve_left u1
  have v1 : v ∉ l1 := fun e => n3 v (h1.subset e) v (by simp) rfl
  have v2 : v ∈ l2 := (List.mem_append.mp hv).resolve_left v1
  rw [List.nodup_cons] at n2
  cases h2 with
  | cons _ h3 => exact absurd (h3.subset u2) n2.1
  | @cons_cons l3 _ _ h3 =>
    have huv : v ≠ u := fun e => n2.1 (by simp [e])
    have v3 : v ∈ l3 := (List.mem_cons.mp v2).resolve_left huv
    obtain ⟨p, q, rfl⟩ := List.append_of_mem v3
    exact ⟨l1, p, q, rfl⟩

/-- **C23.** However far `configure_pending` gets: it configures only pending installed packages, each once, and
each after every pending installed package it depends on (in particular those have been configured before it). -/
theorem configure_pending_safe (w : World α) (σ : Sched α) (hσ : σ.Legal) (ops : List (InstOp α ν))
    (A : Dict α (InstInfo ν)) (hA : (InstOp.run ops).listPending = .ok A) (order : List α)
    (hp : planPending w σ A.keys = .ok order) (hook : α → Bool) :
    let r := configureAll hook order (InstOp.run ops)
    r.configured.Nodup ∧ (∀ x ∈ r.configured, x ∈ A.keys ∧ Installed ops x) ∧
    ∀ x ∈ r.configured, ∀ y, TrackDep w x y → y ∈ A.keys → Installed ops y → Spec.Before r.configured y x := by
  intro r
  have hk := collect_ok _ _ _ hA
  have hnd : A.keys.Nodup := by rw [hk]; exact (dict_uniq_run ops).2
  obtain ⟨on, oall, obef⟩ := pending_order w σ hσ A.keys hnd order hp
  obtain ⟨s1, s2, s3, s4, s5⟩ := configureAll_spec hook order (InstOp.run ops) on
  have hsub : r.configured.Sublist order := s1.trans List.filter_sublist
  have hmem : ∀ x ∈ r.configured, x ∈ order ∧ (InstOp.run ops).isInstalled x = true := fun x hx =>
    List.mem_filter.mp (s1.subset hx)
  refine ⟨on.sublist hsub, fun x hx => ⟨(oall x).mp (hmem x hx).1, (is_installed_iff ops x).mp (hmem x hx).2⟩, ?_⟩
  intro x hx y hd hy hyi
  have hxo := (oall x).mp (hmem x hx).1
  have hb := obef x y ⟨hxo, hy, hd⟩
  refine before_sublist hsub on hb hx ?_
  -- y comes before x in the order, so it was reached
  have hyi' := (is_installed_iff ops y).mpr hyi
  -- `configured` is a prefix of the installed part of the order
  have hpre : ∀ (o : List α) (s : InstallDB α ν), o.Nodup →
      (configureAll hook o s).configured <+: o.filter s.isInstalled := by
    intro o
    induction o with
    | nil => intro s _; simp [configureAll]
    | cons z zs ih =>
      intro s hn
      obtain ⟨_, hn'⟩ := List.nodup_cons.mp hn
      simp only [configureAll]
      by_cases hi : s.isInstalled z = true
      · simp only [hi, if_true, List.filter_cons]
        by_cases hh : hook z = true
        · simp only [hh, if_true]
          cases hc : s.clearPending z with
          | error e => simp
          | ok s' =>
            have := ih s' hn'
            have hf : zs.filter s'.isInstalled = zs.filter s.isInstalled := by
              congr 1; funext q; exact (clearPending_effect hc).1 q
            rw [hf] at this
            obtain ⟨t, ht⟩ := this
            exact ⟨t, by simp [← ht]⟩
        · simp [hh]
      · simp only [hi, List.filter_cons]
        simp only [Bool.false_eq_true, if_false]
        cases hc : s.clearPending z with
        | error e => simp
        | ok s' =>
          have := ih s' hn'
          have hf : zs.filter s'.isInstalled = zs.filter s.isInstalled := by
            congr 1; funext q; exact (clearPending_effect hc).1 q
          rw [hf] at this; exact this
  obtain ⟨t, ht⟩ := hpre order (InstOp.run ops) on
  have hnf : (order.filter (InstOp.run ops).isInstalled).Nodup := on.sublist List.filter_sublist
  have hyf : y ∈ order.filter (InstOp.run ops).isInstalled := List.mem_filter.mpr ⟨(oall y).mpr hy, hyi'⟩
  have hxf : x ∈ order.filter (InstOp.run ops).isInstalled := List.mem_filter.mpr (hmem x hx)
  have hb' := before_sublist List.filter_sublist on hb hxf hyf
  rw [← ht] at hb' hnf
  obtain ⟨a, b, c, e⟩ := hb'
  -- position of x inside the prefix
  obtain ⟨p, q, hpq⟩ := List.append_of_mem hx
  have hpq' : r.configured = p ++ x :: q := hpq
  have e' : p ++ x :: (q ++ t) = (a ++ y :: b) ++ x :: c := by
    have : (configureAll hook order (InstOp.run ops)).configured ++ t = a ++ y :: (b ++ x :: c) := e
    rw [show (configureAll hook order (InstOp.run ops)).configured = p ++ x :: q from hpq] at this
    simpa using this
  have : p = a ++ y :: b := by
    have hnn : (p ++ x :: (q ++ t)).Nodup := by
      have h2 := hnf
      rw [show (configureAll hook order (InstOp.run ops)).configured = p ++ x :: q from hpq] at h2
      simpa using h2
    have np : x ∉ p := by
      rw [List.nodup_append] at hnn
      exact fun h => hnn.2.2 x h x (by simp) rfl
    have na : x ∉ a ++ y :: b := by
      rw [e', List.nodup_append] at hnn
      exact fun h => hnn.2.2 x h x (by simp) rfl
    rcases List.append_eq_append_iff.mp e' with ⟨l, h1, h2⟩ | ⟨l, h1, h2⟩
    · cases l with
      | nil => simpa using h1.symm
      | cons z l => simp at h2; exact absurd (by rw [h1]; simp [h2.1]) na
    · cases l with
      | nil => simpa using h1
      | cons z l => simp at h2; exact absurd (by rw [h1]; simp [h2.1]) np
  rw [hpq', this]; simp

/-- **C23.** If `configure_pending` returns, every pending installed package was configured and nothing is pending. -/
theorem configure_pending_complete (w : World α) (σ : Sched α) (hσ : σ.Legal) (ops : List (InstOp α ν))
    (A : Dict α (InstInfo ν)) (hA : (InstOp.run ops).listPending = .ok A) (order : List α)
    (hp : planPending w σ A.keys = .ok order) (hook : α → Bool)
    (he : (configureAll hook order (InstOp.run ops)).err = none) :
    (∀ x ∈ A.keys, Installed ops x → x ∈ (configureAll hook order (InstOp.run ops)).configured) ∧
    (configureAll hook order (InstOp.run ops)).db.listPending = .ok [] := by
  have hk := collect_ok _ _ _ hA
  have hnd : A.keys.Nodup := by rw [hk]; exact (dict_uniq_run ops).2
  obtain ⟨on, oall, obef⟩ := pending_order w σ hσ A.keys hnd order hp
  obtain ⟨s1, s2, s3, s4, s5⟩ := configureAll_spec hook order (InstOp.run ops) on
  obtain ⟨j1, j2, j3⟩ := s2 he
  refine ⟨fun x hx hi => ?_, ?_⟩
  · rw [j1]; exact List.mem_filter.mpr ⟨(oall x).mpr hx, (is_installed_iff ops x).mpr hi⟩
  · have : (configureAll hook order (InstOp.run ops)).db.dp.keys = [] := by
      apply List.eq_nil_iff_forall_not_mem.mpr
      intro q hq
      obtain ⟨h1, h2⟩ := (j2 q).mp hq
      exact h2 ((oall q).mpr (hk ▸ h1))
    unfold InstallDB.listPending
    rw [this]; rfl

/-- **C23.** If a configuration script fails, the packages configured before it are no longer pending, and the failed
one and all later ones still are. -/
theorem configure_pending_resumable (w : World α) (σ : Sched α) (hσ : σ.Legal) (ops : List (InstOp α ν))
    (A : Dict α (InstInfo ν)) (hA : (InstOp.run ops).listPending = .ok A) (order : List α)
    (hp : planPending w σ A.keys = .ok order) (hook : α → Bool)
    (he : (configureAll hook order (InstOp.run ops)).err = some .hook) :
    ∃ a x b, order = a ++ x :: b ∧ hook x = false ∧
      (∀ y ∈ a, y ∉ (configureAll hook order (InstOp.run ops)).db.dp.keys) ∧
      (∀ y ∈ x :: b, y ∈ (configureAll hook order (InstOp.run ops)).db.dp.keys) ∧
      ∀ y ∈ a, Installed ops y → y ∈ (configureAll hook order (InstOp.run ops)).configured := by
  have hk := collect_ok _ _ _ hA
  have hnd : A.keys.Nodup := by rw [hk]; exact (dict_uniq_run ops).2
  obtain ⟨on, oall, obef⟩ := pending_order w σ hσ A.keys hnd order hp
  obtain ⟨s1, s2, s3, s4, s5⟩ := configureAll_spec hook order (InstOp.run ops) on
  obtain ⟨a, x, b, e1, e2, e3, e4, e5⟩ := s4 he
  refine ⟨a, x, b, e1, e2, fun y hy h => ((e5 y).mp h).2 hy, fun y hy => ?_, fun y hy hi => ?_⟩
  · refine (e5 y).mpr ⟨?_, fun h => ?_⟩
    · rw [← hk]; exact (oall y).mp (by rw [e1]; simp only [List.mem_append]; exact Or.inr hy)
    · rw [e1, List.nodup_append] at on
      exact on.2.2 y h y hy rfl
  · rw [e4]; exact List.mem_filter.mpr ⟨hy, (is_installed_iff ops y).mpr hi⟩

/-! ## C58 -/

/-- C58, full statement: when no configuration script fails and an order exists, `configure_pending` returns. -/
def ConfigureNeverStuck (α ν : Type) [DecidableEq α] : Prop :=
  ∀ (w : World α) (σ : Sched α), σ.Legal → ∀ (ops : List (InstOp α ν)) (A : Dict α (InstInfo ν)),
    (InstOp.run ops).listPending = .ok A → ∀ order, planPending w σ A.keys = .ok order →
    (configureAll (fun _ => true) order (InstOp.run ops)).err = none

/-- C58 fails: a package installed with deferred configuration, removed and installed again normally stays in the
pending list; its script is run again and then `clear_pending` raises `AssertionError`. -/
theorem configure_stuck_refuted : ¬ ConfigureNeverStuck Nat Nat := by
  intro h
  have hl : Sched.Legal (⟨id, id⟩ : Sched Nat) :=
    ⟨fun _ => List.Perm.refl _, fun _ => ⟨List.Perm.refl _, fun _ => List.Perm.refl _⟩⟩
  have := h { repo := [], inst := [], track := [(1, { version := ['1'], release := ['1'] })] } ⟨id, id⟩ hl
    [.install 1 0 true, .remove 1, .install 1 1 false] [(1, ⟨.i, 1⟩)] rfl [1] rfl
  revert this
  decide

/-- C58 for histories in which packages are configured before being removed.  Missing for the full statement: the other
histories, for which it is false. -/
theorem configure_succeeds_partial (w : World α) (σ : Sched α) (hσ : σ.Legal) (ops : List (InstOp α ν))
    (hc : ConfiguredBeforeRemoval ops) (hook : α → Bool) :
    ∃ A, (InstOp.run ops).listPending = .ok A ∧ ∀ order, planPending w σ A.keys = .ok order →
      ((∀ x ∈ A.keys, hook x = true) → (configureAll hook order (InstOp.run ops)).err = none) := by
  obtain ⟨A, hA, hnd, hpend, hclr⟩ := pending_exact_partial ops hc
  refine ⟨A, hA, fun order hp hh => ?_⟩
  obtain ⟨on, oall, obef⟩ := pending_order w σ hσ A.keys hnd order hp
  obtain ⟨s1, s2, s3, s4, s5⟩ := configureAll_spec hook order (InstOp.run ops) on
  cases he : (configureAll hook order (InstOp.run ops)).err with
  | none => rfl
  | some e =>
    exfalso
    cases e with
    | hook =>
      obtain ⟨a, x, b, e1, e2, _⟩ := s4 he
      rw [hh x ((oall x).mp (by simp [e1]))] at e2; cases e2
    | clear e =>
      obtain ⟨x, hx, hxe⟩ := s5 e he
      obtain ⟨s', hs'⟩ := hclr x ((oall x).mp hx)
      rw [hs'] at hxe; cases hxe

/-! ## Non-vacuity -/
section Examples

def pendWorld : World Nat where
  repo := []
  inst := []
  track := [(1, { version := ['1'], release := ['1'], deps := [{ package := 2 }, { package := 5 }] }),
            (2, { version := ['1'], release := ['1'], deps := [{ package := 3 }] }),
            (3, { version := ['1'], release := ['1'] })]

def pendOps : List (InstOp Nat Nat) := [.install 1 0 true, .install 3 0 true, .install 2 0 true, .install 4 0 false]

example : ∃ A, (InstOp.run pendOps).listPending = .ok A ∧ planPending pendWorld ⟨id, id⟩ A.keys = .ok [3, 2, 1] :=
  ⟨_, rfl, rfl⟩
example : (configureAll (fun x => x ≠ 2) [3, 2, 1] (InstOp.run pendOps)).err = some .hook ∧
    (configureAll (fun x => x ≠ 2) [3, 2, 1] (InstOp.run pendOps)).configured = [3] := ⟨rfl, rfl⟩
example : (configureAll (fun _ => true) [3, 2, 1] (InstOp.run pendOps)).err = none := rfl

end Examples

end Pisi.Plan
