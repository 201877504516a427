import Verif.Lemmas.InstallPlan

/-!
# C09-C12: planning and executing installations

Vocabulary: `Verif/Spec/Plan.lean`.
-/
set_option linter.unusedSectionVars false

namespace Pisi.Plan
open Pisi.Graph Pisi.PlanSpec
variable {α : Type} [DecidableEq α]

/-- **C09.** Whenever planning succeeds, for any set iteration orders, the order lists without duplicates exactly
the requested packages and everything reachable from them through dependencies that the installed
system does not satisfy. -/
theorem install_plan_closed_minimal (w : World α) (σ : Sched α) (hσ : σ.Legal) (A : List α) (hA : A.Nodup)
    (order : List α) (h : planInstall w σ A = .ok order) :
    order.Nodup ∧ ∀ x, x ∈ order ↔ Reach (Needs w) A x :=
  let ⟨a, b, _, _⟩ := planInstall_ok w σ hσ A hA order h
  ⟨a, b⟩

/-- **C09 (closure).** Consequently each dependency of a planned package is planned or already satisfied. -/
theorem install_plan_deps_covered (w : World α) (σ : Sched α) (hσ : σ.Legal) (A : List α) (hA : A.Nodup)
    (order : List α) (h : planInstall w σ A = .ok order) (x : α) (hx : x ∈ order) (d : Dep α)
    (hd : RepoDep w x d) : d.package ∈ order ∨ Satisfied w d := by
  obtain ⟨_, b, _, _⟩ := planInstall_ok w σ hσ A hA order h
  by_cases hs : Satisfied w d
  · exact Or.inr hs
  · left
    obtain ⟨a, ha, hr⟩ := (b x).mp hx
    exact (b _).mpr ⟨a, ha, hr.tail ⟨d, hd, rfl, hs⟩⟩

/-- **C10.** In a successful plan each package comes after everything it depends on, except for
dependencies the installed system already satisfies. -/
theorem install_plan_order (w : World α) (σ : Sched α) (hσ : σ.Legal) (A : List α) (hA : A.Nodup)
    (order : List α) (h : planInstall w σ A = .ok order) (x : α) (hx : x ∈ order) (d : Dep α)
    (hd : RepoDep w x d) : Satisfied w d ∨ Spec.Before order d.package x := by
  obtain ⟨_, b, _, c⟩ := planInstall_ok w σ hσ A hA order h
  by_cases hs : Satisfied w d
  · exact Or.inl hs
  · exact Or.inr (c x d.package ((b x).mp hx) ⟨d, hd, rfl, hs⟩)

/-- **C11 (which errors).** If planning fails then: a needed package is missing from the repositories (or the
tracking copy of an installed package is missing), a version string met is malformed, a needed package
uses component dependencies (which the code cannot evaluate), or the needed dependencies form a cycle.
In particular planning always terminates. -/
theorem install_plan_failure (w : World α) (σ : Sched α) (hσ : σ.Legal) (A : List α) (hA : A.Nodup)
    (e : PErr α) (h : planInstall w σ A = .error e) :
    match e with
    | .notFound x => (Reach (Needs w) A x ∧ w.repo.get x = none) ∨
        ∃ y d, Reach (Needs w) A y ∧ RepoDep w y d ∧ d.package = x ∧
          w.inst.has x = true ∧ w.track.get x = none
    | .value => ∃ x d p, Reach (Needs w) A x ∧ RepoDep w x d ∧ w.inst.has d.package = true ∧
        w.track.get d.package = some p ∧ ¬ Testable d p
    | .typeErr => ∃ x p, Reach (Needs w) A x ∧ w.repo.get x = some p ∧ p.compDeps ≠ []
    | .cycle _ => Spec.Cyclic (fun x y => Reach (Needs w) A x ∧ Needs w x y)
    | _ => False := by
  unfold planInstall at h
  cases h0 : addPackages w.getRepo (σ.front A) Digraph.empty with
  | error e' =>
    have := addPackages_spec w.getRepo (σ.front A) Digraph.empty empty_wf
      ((hσ.front A).nodup_iff.mpr hA) (by simp [Digraph.empty])
    rw [h0] at this
    obtain ⟨x, hx, hg⟩ := this
    simp only [h0, Except.error.injEq] at h
    subst h
    obtain ⟨hn, rfl⟩ := (getRepo_error w x _).mp hg
    exact Or.inl ⟨⟨x, (hσ.front A).mem_iff.mp hx, .refl⟩, hn⟩
  | ok g0 =>
    simp only [h0] at h
    obtain ⟨hw0, hv0, hadj0, hpres⟩ := planInstall_graph w σ hσ A hA g0 h0
    have hexp := exp_reach (installLoop w) g0.verts A hv0
    cases h1 : (installLoop w).closure .fuel σ.front (w.repo.keys.length + 1) A g0 with
    | error e' =>
      simp only [h1, Except.error.injEq] at h
      subst h
      obtain ⟨x, hx, hf⟩ := closure_err (installLoop w) .fuel σ.front hσ.front w.repo.keys
        (by
          intro y hy
          simp only [installLoop, World.getRepo] at hy
          cases hr : w.repo.get y with
          | none => simp [hr] at hy
          | some p => exact mem_of_getRepo hr)
        A g0 hw0 (fun x hx => (hv0 x).mpr hx) _ h1
      have hreach : Reach (Needs w) A x :=
        reach_mono (fun _ _ => installLoop_R_needs w) ((hexp x).mp hx)
      rcases hf with hf | ⟨ds, d, hd1, hd2, hk⟩ | ⟨y, hR, hyn, hfe⟩
      · simp only [installLoop, World.getRepo] at hf
        cases hr : w.repo.get x with
        | none =>
          simp only [hr, Except.error.injEq] at hf
          subst hf
          exact Or.inl ⟨hreach, hr⟩
        | some p =>
          simp only [hr, PkgInfo.runtimeDeps] at hf
          split at hf
          · simp at hf
          · next hc =>
            simp only [Except.error.injEq] at hf
            subst hf
            exact ⟨x, p, hreach, hr, hc⟩
      · obtain ⟨p, hp, hc, rfl⟩ := (installLoop_deps_ok w x ds).mp hd1
        have hk' : w.installedSatisfies d = .error e' := by
          simp only [installLoop] at hk
          cases hi : w.installedSatisfies d with
          | ok b => simp [hi] at hk
          | error e2 => simp only [hi, Except.error.injEq] at hk; rw [hk]
        rcases installedSatisfies_error w d e' hk' with ⟨rfl, hi, ht⟩ | ⟨rfl, hi, q, ht, hn⟩
        · exact Or.inr ⟨x, d, hreach, ⟨p, hp, hd2⟩, rfl, hi, ht⟩
        · exact ⟨x, d, q, hreach, ⟨p, hp, hd2⟩, hi, ht, hn⟩
      · have hfe' : w.getRepo y = .error e' := by
          simp only [installLoop] at hfe
          cases hi : w.getRepo y with
          | ok b => simp [hi] at hfe
          | error e2 => simp only [hi, Except.error.injEq] at hfe; rw [hfe]
        obtain ⟨hn, rfl⟩ := (getRepo_error w y _).mp hfe'
        left
        obtain ⟨a, ha, hr⟩ := hreach
        exact ⟨⟨a, ha, hr.tail (installLoop_R_needs w hR)⟩, hn⟩
    | ok g1 =>
      simp only [h1] at h
      cases h2 : liftErr (topologicalSort (σ.graph g1)) with
      | ok l => simp [h2] at h
      | error e' =>
        simp only [h2, Except.error.injEq] at h
        subst h
        obtain ⟨k1, k2, k3, k4, k5, k6, _⟩ :=
          closure_exp (installLoop w) hσ.front hw0 (fun x hx => (hv0 x).mpr hx) h1
        obtain ⟨⟨p, rfl⟩, hcyc⟩ := sort_err hσ k1 h2
        obtain ⟨x, hx⟩ := hcyc
        refine ⟨x, Relation.TransGen.mono ?_ _ _ hx⟩
        intro u v huv
        rw [k6 rfl u v, hadj0 u] at huv
        rcases huv with hu | ⟨hu, hR⟩
        · simp at hu
        · exact ⟨reach_mono (fun _ _ => installLoop_R_needs w) ((hexp u).mp hu), installLoop_R_needs w hR⟩

/-- **C11 (exactly when).** Planning succeeds iff every needed package is available with dependencies that
can be examined and the needed dependencies are acyclic. -/
theorem install_plan_succeeds_iff (w : World α) (σ : Sched α) (hσ : σ.Legal) (A : List α) (hA : A.Nodup) :
    (∃ order, planInstall w σ A = .ok order) ↔
      (∀ x, Reach (Needs w) A x → Plannable w x) ∧
      ¬ Spec.Cyclic (fun x y => Reach (Needs w) A x ∧ Needs w x y) := by
  constructor
  · rintro ⟨order, h⟩
    obtain ⟨a, b, c, d⟩ := planInstall_ok w σ hσ A hA order h
    refine ⟨c, ?_⟩
    have : Spec.IsTopo (· ∈ order.reverse) (fun x y => Reach (Needs w) A x ∧ Needs w x y) order.reverse :=
      ⟨List.nodup_reverse.mpr a, fun _ => Iff.rfl, fun u v ⟨hu, huv⟩ => before_reverse (d u v hu huv)⟩
    exact topo_acyclic this
  · rintro ⟨hp, hc⟩
    cases h : planInstall w σ A with
    | ok order => exact ⟨order, rfl⟩
    | error e =>
      exfalso
      have := install_plan_failure w σ hσ A hA e h
      cases e with
      | notFound x =>
        rcases this with ⟨hr, hn⟩ | ⟨y, d, hr, ⟨q, hq, hd⟩, rfl, hi, ht⟩
        · obtain ⟨p, hp', _⟩ := hp x hr
          simp [hn] at hp'
        · obtain ⟨p, hp', _, hall⟩ := hp y hr
          rw [hq] at hp'; cases hp'
          obtain ⟨p', hp'', _⟩ := hall d hd ((has_iff _ _).mp hi)
          simp [ht] at hp''
      | value =>
        obtain ⟨x, d, p, hr, ⟨q, hq, hd⟩, hi, ht, hn⟩ := this
        obtain ⟨p', hp', _, hall⟩ := hp x hr
        rw [hq] at hp'; cases hp'
        obtain ⟨p'', hp'', htest⟩ := hall d hd ((has_iff _ _).mp hi)
        rw [ht] at hp''; cases hp''
        exact hn htest
      | typeErr =>
        obtain ⟨x, p, hr, hg, hne⟩ := this
        obtain ⟨p', hp', hcd, _⟩ := hp x hr
        rw [hg] at hp'; cases hp'
        exact hne hcd
      | cycle p => exact hc this
      | _ => exact this

/-! ## C12 -/

theorem satDeps_true (w : World α) (ds : List (Dep α)) (h : ∀ d ∈ ds, Satisfied w d) :
    installOne.satDeps w ds = .ok true := by
  induction ds with
  | nil => rfl
  | cons d ds ih =>
    simp only [installOne.satDeps, (installedSatisfies_true w d).mpr (h d (by simp))]
    exact ih (fun d' hd' => h d' (by simp [hd']))

/-- **C12, full statement**: a plan that was accepted can always be executed to the end, each package
finding its dependencies satisfied when its turn comes. -/
def PlanExecutable : Prop :=
  ∀ (w : World Nat) (σ : Sched Nat), σ.Legal → ∀ (A : List Nat), A.Nodup → ∀ order,
    planInstall w σ A = .ok order → ∃ w', execInstall w order = .ok w'

/-- Iteration order "as inserted". -/
def Sched.plain : Sched α := ⟨id, id⟩

theorem Sched.plain_legal : (Sched.plain : Sched α).Legal :=
  ⟨fun _ => .refl _, fun _ => ⟨.refl _, fun _ => .refl _⟩⟩

/-- Witness: package 1 needs package 2 from version 2 on, the repository has 2 in version 1 only. -/
def staleWorld : World Nat where
  repo := [(1, { version := ['1'], release := ['1'], deps := [{ package := 2, versionFrom := some ['2'] }] }),
           (2, { version := ['1'], release := ['1'] })]
  inst := []
  track := []

/-- **C12 is false of the code**: planning never compares the repository version with the dependency, so
an accepted plan can stop half way. -/
theorem plan_executable_refuted : ¬ PlanExecutable := by
  intro h
  obtain ⟨w', hw'⟩ := h staleWorld Sched.plain Sched.plain_legal [1] (by simp) [2, 1] (by rfl)
  have : (match execInstall staleWorld [2, 1] with | .ok _ => true | .error _ => false) = false := by rfl
  rw [hw'] at this
  simp at this

/-- Executing a plan: state of the databases after the packages of `done` were installed. -/
theorem install_get_inst (w : World α) (x y : α) (p : PkgInfo α) :
    ((World.install w x p).inst.get y = if x = y then some ⟨p.version, p.release, p.build⟩ else w.inst.get y) ∧
    ((World.install w x p).track.get y = if x = y then some p else w.track.get y) := by
  simp [World.install, Dict.get_put]

/-- **C12, proved part**: if in addition the repository version of each planned package meets every dependency
that planned packages have on it, the plan runs to the end from the planning state, every dependency
check passing.  Missing: planning itself does not establish the additional condition. -/
theorem plan_executable_partial (w : World α) (σ : Sched α) (hσ : σ.Legal) (A : List α) (hA : A.Nodup)
    (order : List α) (h : planInstall w σ A = .ok order)
    (hrepo : ∀ x ∈ order, ∀ d, RepoDep w x d → d.package ∈ order → Offered w d) :
    ∃ w', execInstall w order = .ok w' ∧
      ∀ x ∈ order, ∀ p, w.repo.get x = some p → w'.track.get x = some p ∧ ∀ d ∈ p.deps, Satisfied w' d := by
  obtain ⟨hnd, hmem, hpl, hbef⟩ := planInstall_ok w σ hσ A hA order h
  -- invariant: databases after a prefix `done`
  have key : ∀ (rest done : List α) (w1 : World α), order = done ++ rest →
      w1.repo = w.repo →
      (∀ y, y ∈ done → ∃ p, w.repo.get y = some p ∧
        w1.inst.get y = some ⟨p.version, p.release, p.build⟩ ∧ w1.track.get y = some p) →
      (∀ y, y ∉ done → w1.inst.get y = w.inst.get y ∧ w1.track.get y = w.track.get y) →
      ∃ w2, execInstall w1 rest = .ok w2 ∧
        (∀ y, y ∈ order → ∃ p, w.repo.get y = some p ∧
          w2.inst.get y = some ⟨p.version, p.release, p.build⟩ ∧ w2.track.get y = some p) ∧
        (∀ y, y ∉ order → w2.inst.get y = w.inst.get y ∧ w2.track.get y = w.track.get y) := by
    intro rest
    induction rest with
    | nil =>
      intro done w1 ho _ h1 h2
      simp only [List.append_nil] at ho
      subst ho
      exact ⟨w1, rfl, h1, h2⟩
    | cons x rest ih =>
      intro done w1 ho hr h1 h2
      have hx : x ∈ order := by rw [ho]; simp
      have hreach := (hmem x).mp hx
      obtain ⟨p, hp, hcd, _⟩ := hpl x hreach
      have hxd : x ∉ done := by
        intro hm
        rw [ho, List.nodup_append] at hnd
        exact hnd.2.2 x hm x (by simp) rfl
      have hsat : ∀ d ∈ p.deps, Satisfied w1 d := by
        intro d hd
        have hrd : RepoDep w x d := ⟨p, hp, hd⟩
        by_cases hdone : d.package ∈ done
        · obtain ⟨q, hq, hi, ht⟩ := h1 _ hdone
          obtain ⟨q', hq', hm⟩ := hrepo x hx d hrd (by rw [ho]; simp [hdone])
          rw [hq] at hq'; cases hq'
          exact ⟨⟨_, hi⟩, q, ht, hm⟩
        · have hs : Satisfied w d := by
            rcases install_plan_order w σ hσ A hA order h x hx d hrd with hs | ⟨a, b, c, hb⟩
            · exact hs
            · exfalso
              apply hdone
              -- d.package occurs before x, and done is everything before x
              have hxa : x ∉ a ++ d.package :: b := by
                intro hm
                have : order = (a ++ d.package :: b) ++ x :: c := by simp [hb]
                rw [this, List.nodup_append] at hnd
                exact hnd.2.2 x hm x (by simp) rfl
              have he : done ++ x :: rest = (a ++ d.package :: b) ++ x :: c := by rw [← ho, hb]; simp
              have : done = a ++ d.package :: b := by
                rcases List.append_eq_append_iff.mp he with ⟨m, m1, m2⟩ | ⟨m, m1, m2⟩
                · cases m with
                  | nil => simpa using m1.symm
                  | cons z m =>
                    simp only [List.cons_append, List.cons.injEq] at m2
                    exact absurd (by rw [m1, ← m2.1]; simp) hxa
                · cases m with
                  | nil => simpa using m1
                  | cons z m =>
                    simp only [List.cons_append, List.cons.injEq] at m2
                    exact absurd (by rw [m1, ← m2.1]; simp) hxd
              rw [this]; simp
          obtain ⟨⟨i, hi⟩, q, ht, hm⟩ := hs
          obtain ⟨e1, e2⟩ := h2 _ hdone
          exact ⟨⟨i, by rw [e1, hi]⟩, q, by rw [e2, ht], hm⟩
      have hstep : installOne w1 x = .ok (World.install w1 x p) := by
        unfold installOne
        have : w1.getRepo x = .ok p := by
          rw [getRepo_ok, hr, hp]
        simp only [this, PkgInfo.runtimeDeps, hcd, if_true, satDeps_true w1 p.deps hsat]
      obtain ⟨w2, r1, r2, r3⟩ := ih (done ++ [x]) (World.install w1 x p) (by simp [ho]) (by simpa [World.install] using hr)
        (by
          intro y hy
          by_cases hxy : x = y
          · subst hxy
            exact ⟨p, hp, by simp [(install_get_inst w1 x x p).1], by simp [(install_get_inst w1 x x p).2]⟩
          · have hy' : y ∈ done := by
              rcases List.mem_append.mp hy with hy | hy
              · exact hy
              · simp only [List.mem_singleton] at hy; exact absurd hy.symm hxy
            obtain ⟨q, q1, q2, q3⟩ := h1 y hy'
            exact ⟨q, q1, by simp [(install_get_inst w1 x y p).1, hxy, q2],
              by simp [(install_get_inst w1 x y p).2, hxy, q3]⟩)
        (by
          intro y hy
          simp only [List.mem_append, List.mem_singleton, not_or] at hy
          have hxy : x ≠ y := fun e => hy.2 e.symm
          obtain ⟨e1, e2⟩ := h2 y hy.1
          exact ⟨by simp [(install_get_inst w1 x y p).1, hxy, e1], by simp [(install_get_inst w1 x y p).2, hxy, e2]⟩)
      exact ⟨w2, by simp only [execInstall, hstep, r1], r2, r3⟩
  obtain ⟨w2, r1, r2, r3⟩ := key order [] w (by simp) rfl (by simp) (by simp)
  refine ⟨w2, r1, ?_⟩
  intro x hx p hp
  obtain ⟨q, q1, q2, q3⟩ := r2 x hx
  rw [hp] at q1; cases q1
  refine ⟨q3, fun d hd => ?_⟩
  by_cases ho : d.package ∈ order
  · obtain ⟨q, q1, q2, q3⟩ := r2 _ ho
    obtain ⟨q', hq', hm⟩ := hrepo x hx d ⟨p, hp, hd⟩ ho
    rw [q1] at hq'; cases hq'
    exact ⟨⟨_, q2⟩, q, q3, hm⟩
  · rcases install_plan_deps_covered w σ hσ A hA order h x hx d ⟨p, hp, hd⟩ with h' | ⟨⟨i, hi⟩, q, ht, hm⟩
    · exact absurd h' ho
    · obtain ⟨e1, e2⟩ := r3 _ ho
      exact ⟨⟨i, by rw [e1, hi]⟩, q, by rw [e2, ht], hm⟩

/-! ### Non-vacuity: a small repository with a shared dependency, one of it already installed -/

def exWorld : World Nat where
  repo := [(1, { version := ['1'], release := ['1'], deps := [{ package := 2 }, { package := 3 }] }),
           (2, { version := ['1'], release := ['1'], deps := [{ package := 4, versionFrom := some ['2'] }] }),
           (3, { version := ['1'], release := ['1'], deps := [{ package := 4, versionFrom := some ['1'] }, { package := 5 }] }),
           (4, { version := ['2'], release := ['1'] }),
           (5, { version := ['7'], release := ['1'] })]
  inst := [(4, ⟨['1'], ['1'], none⟩), (5, ⟨['6'], ['1'], none⟩)]
  track := [(4, { version := ['1'], release := ['1'] }), (5, { version := ['6'], release := ['1'] })]

example : planInstall exWorld Sched.plain [1] = .ok [4, 2, 3, 1] := by rfl
example : (match execInstall exWorld [4, 2, 3, 1] with | .ok _ => true | .error _ => false) = true := by rfl
example : planInstall { exWorld with repo := exWorld.repo.del 2 } Sched.plain [1] = .error (.notFound 2) := by rfl

end Pisi.Plan
