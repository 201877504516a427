import Verif.Spec.PlanOrder
import Verif.Props.RemovePlan
import Verif.Props.UpgradePlan
import Verif.Props.UpgradeRun
import Verif.Props.InstallPkgFiles
import Mathlib.Data.List.Perm.Subperm

/-! # C177: what is planned does not depend on the order of the names nor on the order in which Python goes through its sets -/
set_option linter.unusedSectionVars false
namespace Pisi.Plan
open Pisi.Graph Pisi.PlanSpec

variable {α δ ε : Type} [DecidableEq α]

theorem agree_of {a b : Except ε (List α)} (h1 : (∃ l, a = .ok l) ↔ ∃ l, b = .ok l) {P : α → Prop}
    (ha : ∀ l, a = .ok l → l.Nodup ∧ ∀ x, x ∈ l ↔ P x) (hb : ∀ l, b = .ok l → l.Nodup ∧ ∀ x, x ∈ l ↔ P x) : Agree a b :=
  ⟨h1, fun l l' h h' => (List.perm_ext_iff_of_nodup (ha l h).1 (hb l' h').1).mpr fun x => ((ha l h).2 x).trans ((hb l' h').2 x).symm⟩

theorem reach_perm {R : α → α → Prop} {A B : List α} (h : A.Perm B) (x : α) : Reach R A x ↔ Reach R B x :=
  ⟨fun ⟨a, ha, hr⟩ => ⟨a, h.mem_iff.mp ha, hr⟩, fun ⟨a, ha, hr⟩ => ⟨a, h.mem_iff.mpr ha, hr⟩⟩

theorem install_agree (w : World α) (σ τ : Sched α) (hσ : σ.Legal) (hτ : τ.Legal) (A B : List α) (hA : A.Nodup) (hAB : A.Perm B) :
    Agree (planInstall w σ A) (planInstall w τ B) := by
  have hB := hAB.nodup_iff.mp hA
  have hr : Reach (Needs w) A = Reach (Needs w) B := funext fun x => propext (reach_perm hAB x)
  refine agree_of (P := Reach (Needs w) A) ?_ (fun l h => install_plan_closed_minimal w σ hσ A hA l h) fun l h => ?_
  · rw [install_plan_succeeds_iff w σ hσ A hA, install_plan_succeeds_iff w τ hτ B hB, hr]
  · rw [hr]; exact install_plan_closed_minimal w τ hτ B hB l h

theorem remove_agree (w : World α) (σ τ : Sched α) (hσ : σ.Legal) (hτ : τ.Legal) (A B : List α) (hA : A.Nodup) (hAB : A.Perm B) :
    Agree (planRemove w σ A) (planRemove w τ B) := by
  have hB := hAB.nodup_iff.mp hA
  have hr : Reach (Dependent w) A = Reach (Dependent w) B := funext fun x => propext (reach_perm hAB x)
  refine agree_of (P := Reach (Dependent w) A) ?_ (fun l h => remove_plan_exact w σ hσ A hA l h) fun l h => ?_
  · rw [remove_plan_succeeds_iff w σ hσ A hA, remove_plan_succeeds_iff w τ hτ B hB, hr]
  · rw [hr]; exact remove_plan_exact w τ hτ B hB l h

theorem exp_congr (L : Loop α δ ε) {V V' B B' : List α} (hV : ∀ x, x ∈ V ↔ x ∈ V') (hB : ∀ x, x ∈ B ↔ x ∈ B') {x : α} (h : L.Exp V B x) :
    L.Exp V' B' x := by
  induction h with
  | base h => exact .base ((hB _).mp h)
  | step _ hR hy ih => exact .step ih hR fun h => hy ((hV _).mpr h)

/-- Whether the loop ends well does not depend on the order. -/
theorem closure_indep (L : Loop α δ ε) {over : ε} {s t : List α → List α} (hs : ∀ l, (s l).Perm l) (ht : ∀ l, (t l).Perm l) {U : List α}
    (hU : ∀ y, L.fetch y = .ok () → y ∈ U) {A B : List α} {g g' h : Digraph α} (hg : g.WF) (hg' : g'.WF) (hV : ∀ x, x ∈ g.verts ↔ x ∈ g'.verts)
    (hAB : ∀ x, x ∈ A ↔ x ∈ B) (hA : ∀ x ∈ A, x ∈ g.verts) {n : Nat} (h1 : L.closure over s n A g = .ok h) :
    ∃ h', L.closure over t (U.length + 1) B g' = .ok h' ∧ h'.WF ∧ ∀ x, x ∈ h.verts ↔ x ∈ h'.verts := by
  obtain ⟨_, k2, k3, _, k5, _⟩ := closure_exp L hs hg hA h1
  have hB : ∀ x ∈ B, x ∈ g'.verts := fun x hx => (hV x).mp (hA x ((hAB x).mpr hx))
  have hexp : ∀ x, L.Exp g.verts A x ↔ L.Exp g'.verts B x := fun x =>
    ⟨exp_congr L hV hAB, exp_congr L (fun x => (hV x).symm) fun x => (hAB x).symm⟩
  cases h2 : L.closure over t (U.length + 1) B g' with
  | ok h' =>
    obtain ⟨m1, m2, _⟩ := closure_exp L ht hg' hB h2
    exact ⟨h', rfl, m1, fun x => by rw [k2 x, m2 x, hV x, hexp x]⟩
  | error e =>
    exfalso
    obtain ⟨x, hx, hf⟩ := closure_err L over t ht U hU B g' hg' hB e h2
    have hx := (hexp x).mpr hx
    obtain ⟨ds, c1, c2⟩ := k3 x hx
    rcases hf with hf | ⟨ds', d, hd1, hd2, hk⟩ | ⟨y, hR, hyn, hfe⟩
    · rw [c1] at hf; cases hf
    · rw [c1] at hd1; cases hd1
      obtain ⟨b, hb⟩ := c2 d hd2
      rw [hk] at hb; cases hb
    · have hy : y ∉ g.verts := fun h => hyn ((hV y).mp h)
      have := k5 y (.step hx hR hy) hy
      rw [hfe] at this; cases this

theorem upgrade_runs (w : World α) (σ τ : Sched α) (hσ : σ.Legal) (hτ : τ.Legal) (eager : Bool) (A B : List α) (hA : A.Nodup) (hAB : A.Perm B)
    {order : List α} (h : planUpgrade w σ eager A = .ok order) : ∃ l, planUpgrade w τ eager B = .ok l := by
  have hB := hAB.nodup_iff.mp hA
  obtain ⟨hn, ho, hf, _⟩ := planUpgrade_ok w σ hσ eager A hA order h
  have hacyc : ¬ Spec.Cyclic (fun x y => Reach (UpNeeds w eager) B x ∧ UpNeeds w eager x y) := by
    have : Spec.IsTopo (· ∈ order.reverse) (fun x y => Reach (UpNeeds w eager) B x ∧ UpNeeds w eager x y) order.reverse :=
      ⟨List.nodup_reverse.mpr hn, fun _ => Iff.rfl, fun u v ⟨hu, d, hd, hdv, hm⟩ => by
        subst hdv
        exact before_reverse ((hf u ((reach_perm hAB u).mpr hu) d hd).2 hm)⟩
    exact topo_acyclic this
  have hU : ∀ y, (match w.getRepo y with
      | .ok _ => Except.ok ()
      | .error e => Except.error e) = Except.ok () → y ∈ w.repo.keys := by
    intro y hy
    unfold World.getRepo at hy
    cases hr : w.repo.get y with
    | none => simp [hr] at hy
    | some p => exact mem_of_getRepo hr
  cases hb : planUpgrade w τ eager B with
  | ok l => exact ⟨l, rfl⟩
  | error e =>
    exfalso
    have hfail := upgrade_plan_failure w τ hτ eager B hB e hb
    unfold planUpgrade at h hb
    cases h0 : addPackages w.getRepo (σ.front A) Digraph.empty with
    | error e => simp [h0] at h
    | ok g0 =>
      simp only [h0] at h
      obtain ⟨hw0, hv0, hadj0, hpres⟩ := planInstall_graph w σ hσ A hA g0 h0
      cases h0' : addPackages w.getRepo (τ.front B) Digraph.empty with
      | error e' =>
        have := addPackages_spec w.getRepo (τ.front B) Digraph.empty empty_wf
          ((hτ.front B).nodup_iff.mpr hB) (by simp [Digraph.empty])
        rw [h0'] at this
        obtain ⟨x, hx, hg⟩ := this
        obtain ⟨hn, _⟩ := (getRepo_error w x _).mp hg
        obtain ⟨p, hp⟩ := hpres x (hAB.mem_iff.mpr ((hτ.front B).mem_iff.mp hx))
        rw [hn] at hp; cases hp
      | ok g0' =>
        simp only [h0'] at hb
        obtain ⟨hw0', hv0', _, _⟩ := planInstall_graph w τ hτ B hB g0' h0'
        cases h1 : (upFwdLoop w eager).closure .fuel σ.front (w.repo.keys.length + 1) A g0 with
        | error e => simp [h1] at h
        | ok g1 =>
          simp only [h1] at h
          obtain ⟨k1, k2, _⟩ := closure_exp (upFwdLoop w eager) hσ.front hw0 (fun x hx => (hv0 x).mpr hx) h1
          obtain ⟨g1', h1', k1', k2'⟩ := closure_indep (upFwdLoop w eager) hσ.front hτ.front (U := w.repo.keys) hU hw0 hw0'
            (fun x => (hv0 x).trans (hAB.mem_iff.trans (hv0' x).symm)) (fun x => hAB.mem_iff) (fun x hx => (hv0 x).mpr hx) h1
          simp only [h1'] at hb
          cases h2 : (upRevLoop w eager).closure .fuel σ.front (w.repo.keys.length + 1) A g1 with
          | error e => simp [h2] at h
          | ok g2 =>
            obtain ⟨g2', h2', m1', _⟩ := closure_indep (upRevLoop w eager) hσ.front hτ.front (U := w.repo.keys) hU k1 k1' k2'
              (fun x => hAB.mem_iff) (fun x hx => (k2 x).mpr (.inl ((hv0 x).mpr hx))) h2
            simp only [h2'] at hb
            cases h3 : liftErr (topologicalSort (τ.graph g2')) with
            | ok l => simp [h3] at hb
            | error e' =>
              simp only [h3, Except.error.injEq] at hb
              obtain ⟨⟨p, hp⟩, _⟩ := sort_err hτ m1' h3
              subst hb
              rw [hp] at hfail
              exact hacyc hfail

theorem dragged_perm {w : World α} {eager : Bool} {A B : List α} (h : A.Perm B) {x : α} (hx : Dragged w eager A x) : Dragged w eager B x := by
  induction hx with
  | start hm => exact .start (h.mem_iff.mp hm)
  | step _ hd hy ih => exact .step ih hd fun hr => hy ((reach_perm h _).mpr hr)

theorem upgrade_agree (w : World α) (σ τ : Sched α) (hσ : σ.Legal) (hτ : τ.Legal) (eager : Bool) (A B : List α) (hA : A.Nodup) (hAB : A.Perm B) :
    Agree (planUpgrade w σ eager A) (planUpgrade w τ eager B) := by
  have hB := hAB.nodup_iff.mp hA
  refine agree_of (P := fun x => Reach (UpNeeds w eager) A x ∨ Dragged w eager A x)
    ⟨fun ⟨_, h⟩ => upgrade_runs w σ τ hσ hτ eager A B hA hAB h, fun ⟨_, h⟩ => upgrade_runs w τ σ hτ hσ eager B A hB hAB.symm h⟩
    (fun l h => let k := planUpgrade_ok w σ hσ eager A hA l h; ⟨k.1, k.2.1⟩) fun l h => ?_
  have k := planUpgrade_ok w τ hτ eager B hB l h
  refine ⟨k.1, fun x => (k.2.1 x).trans ?_⟩
  rw [← reach_perm hAB x]
  exact or_congr Iff.rfl ⟨dragged_perm hAB.symm, dragged_perm hAB⟩

/-- Package files: the plan for them is the same in whichever order the sets are gone through, and whatever the order of
the files is, as long as of several files of one package the same one is the last. -/
theorem files_agree (l l' : List (α × PkgInfo α)) (σ τ : Sched α) (hσ : σ.Legal) (hτ : τ.Legal)
    (hl : ∀ x p, LastFile l x p ↔ LastFile l' x p) :
    Agree (planFiles (readFiles l) σ (readFiles l).keys) (planFiles (readFiles l') τ (readFiles l').keys) := by
  have e : LastFile l = LastFile l' := funext fun x => funext fun p => propext (hl x p)
  have e1 : FileNeeds l = FileNeeds l' := by unfold FileNeeds GivenMeets; rw [e]
  have e2 : FileExaminable l = FileExaminable l' := by unfold FileExaminable; rw [e]
  refine agree_of (P := fun x => ∃ p, LastFile l x p) ?_ (fun o h => let k := planFiles_ok l σ hσ o h; ⟨k.1, k.2.1⟩)
    fun o h => by rw [e]; let k := planFiles_ok l' τ hτ o h; exact ⟨k.1, k.2.1⟩
  rw [files_plan_succeeds_iff l σ hσ, files_plan_succeeds_iff l' τ hτ, e1, e2]

/-- Files of different packages may be named in any order. -/
theorem files_perm (l l' : List (α × PkgInfo α)) (σ τ : Sched α) (hσ : σ.Legal) (hτ : τ.Legal) (hd : (l.map Prod.fst).Nodup) (hl : l.Perm l') :
    Agree (planFiles (readFiles l) σ (readFiles l).keys) (planFiles (readFiles l') τ (readFiles l').keys) := by
  have key : ∀ m : List (α × PkgInfo α), (m.map Prod.fst).Nodup → ∀ x p, LastFile m x p ↔ (x, p) ∈ m := by
    intro m
    induction m using Pisi.snoc_induction with
    | h0 => exact fun _ x p => ⟨fun h => by generalize e : ([] : List (α × PkgInfo α)) = m at h; cases h <;> simp at e, fun h => nomatch h⟩
    | hs m a ih =>
      intro hm x p
      rw [List.map_append, List.nodup_append] at hm
      obtain ⟨h1, _, h3⟩ := hm
      have hn : a.1 ∉ m.map Prod.fst := fun h => h3 _ h _ (by simp) rfl
      constructor
      · intro h
        generalize e : m ++ [a] = k at h
        cases h with
        | last l => simp
        | skip l y _ q _ h =>
          obtain ⟨rfl, _⟩ := List.append_inj' e rfl
          exact List.mem_append_left _ ((ih h1 x p).mp h)
      · intro h
        rcases List.mem_append.mp h with h | h
        · exact .skip m x a.1 p a.2 ((ih h1 x p).mpr h) fun e => hn (e ▸ List.mem_map.mpr ⟨(x, p), h, rfl⟩)
        · rw [← List.mem_singleton.mp h]; exact .last m x p
  exact files_agree l l' σ τ hσ hτ fun x p => by rw [key l hd, key l' ((hl.map _).nodup_iff.mp hd), hl.mem_iff]

/-- After two runs of plans for the same names the same packages are installed, in the same versions. -/
theorem run_agree (w u v : World α) (order order' : List α) (h : order.Perm order') (hu : execInstall w order = .ok u) (hv : execInstall w order' = .ok v) (x : α) :
    u.inst.get x = v.inst.get x ∧ u.track.get x = v.track.get x := by
  obtain ⟨_, a, b⟩ := execInstall_ok order w u hu
  obtain ⟨_, c, d⟩ := execInstall_ok order' w v hv
  by_cases hx : x ∈ order
  · obtain ⟨p, hp, hi⟩ := a x hx
    obtain ⟨q, hq, hj⟩ := c x (h.mem_iff.mp hx)
    rw [hp] at hq; cases hq
    exact ⟨hi.1.trans hj.1.symm, hi.2.trans hj.2.symm⟩
  · have hx' : x ∉ order' := fun hm => hx (h.mem_iff.mpr hm)
    exact ⟨(b x hx).1.trans (d x hx').1.symm, (b x hx).2.trans (d x hx').2.symm⟩

/-- Whatever the order of the names, `pisi remove` removes the same packages. -/
theorem removed_agree (w : World α) (σ τ : Sched α) (hσ : σ.Legal) (hτ : τ.Legal) (o : RemoveOpts) (base : Option (List α)) (A B : List α)
    (hA : A.Nodup) (hAB : A.Perm B) (hc : o.confirm = true) (hd : o.dryRun = false) (l l' : List α)
    (h : removeCmd w σ o base A = .ok l) (h' : removeCmd w τ o base B = .ok l') (x : α) : x ∈ l ↔ x ∈ l' := by
  rw [remove_cmd_exact w σ hσ o base A hA hc hd l h x, remove_cmd_exact w τ hτ o base B (hAB.nodup_iff.mp hA) hc hd l' h' x]
  refine and_congr Iff.rfl ⟨?_, ?_⟩
  · rintro ⟨a, ha, k⟩; exact ⟨a, hAB.mem_iff.mp ha, k⟩
  · rintro ⟨a, ha, k⟩; exact ⟨a, hAB.mem_iff.mpr ha, k⟩

/-- A case: two orders of the names give two plans with the same packages. -/
example : planInstall exWorld Sched.plain [3, 2] = .ok [3, 4, 2] ∧ planInstall exWorld ⟨List.reverse, id⟩ [3, 2] = .ok [4, 2, 3] ∧
    Agree (planInstall exWorld Sched.plain [3, 2]) (planInstall exWorld ⟨List.reverse, id⟩ [2, 3]) :=
  ⟨by rfl, by rfl, install_agree exWorld Sched.plain ⟨List.reverse, id⟩ ⟨fun _ => .refl _, fun g => ⟨.refl _, fun _ => .refl _⟩⟩
    ⟨fun l => List.reverse_perm l, fun g => ⟨.refl _, fun _ => .refl _⟩⟩ [3, 2] [2, 3] (by decide) (.swap 2 3 [])⟩

end Pisi.Plan
