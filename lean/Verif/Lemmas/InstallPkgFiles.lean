import Verif.Model.InstallPkgFiles
import Verif.Spec.InstallPkgFiles
import Verif.Lemmas.ListAux
import Verif.Props.InstallPlan

/-! Lemmas for installing package files. -/
set_option linter.unusedSectionVars false

namespace Pisi.Plan
open Pisi.Graph Pisi.PlanSpec
variable {α : Type} [DecidableEq α]

theorem readFiles_snoc (l : List (α × PkgInfo α)) (e : α × PkgInfo α) :
    readFiles (l ++ [e]) = (readFiles l).put e.1 e.2 := by
  simp [readFiles, List.foldl_append]

theorem readFiles_uniq (l : List (α × PkgInfo α)) : (readFiles l).Uniq := by
  induction l using snoc_induction with
  | h0 => exact Dict.uniq_nil
  | hs l e ih => rw [readFiles_snoc]; exact Dict.uniq_put ih _ _

theorem readFiles_get (l : List (α × PkgInfo α)) (x : α) (p : PkgInfo α) :
    (readFiles l).get x = some p ↔ LastFile l x p := by
  induction l using snoc_induction with
  | h0 =>
    constructor
    · intro h; simp [readFiles] at h
    · intro h
      generalize he : ([] : List (α × PkgInfo α)) = m at h
      cases h <;> simp at he
  | hs l e ih =>
    rw [readFiles_snoc, Dict.get_put]
    obtain ⟨y, q⟩ := e
    by_cases h : y = x
    · subst h
      simp only [if_true, Option.some.injEq]
      constructor
      · rintro rfl; exact .last _ _ _
      · intro h
        generalize he : l ++ [(y, q)] = m at h
        cases h with
        | last l' => simpa using (List.append_inj' he rfl).2
        | skip l' x y' p q' h hne =>
          have := (List.append_inj' he rfl).2
          simp only [List.cons.injEq, Prod.mk.injEq] at this
          exact absurd this.1.1.symm hne
    · simp only [h, if_false]
      rw [ih]
      constructor
      · intro h'; exact .skip _ _ _ _ _ h' h
      · intro h'
        generalize he : l ++ [(y, q)] = m at h'
        cases h' with
        | last l' =>
          have := (List.append_inj' he rfl).2
          simp only [List.cons.injEq, Prod.mk.injEq] at this
          exact absurd this.1.1 h
        | skip l' x y' p q' h' hne =>
          have := (List.append_inj' he rfl).1
          subst this
          exact h'

theorem readFiles_keys (l : List (α × PkgInfo α)) (x : α) : x ∈ (readFiles l).keys ↔ ∃ p, LastFile l x p := by
  rw [Dict.mem_keys, Option.isSome_iff_exists]
  simp only [readFiles_get]

theorem dictSat_true (l : List (α × PkgInfo α)) (d : Dep α) : dictSat (readFiles l) d = .ok true ↔ GivenMeets l d := by
  unfold dictSat GivenMeets
  simp only [← readFiles_get]
  cases (readFiles l).get d.package <;> simp [testDep_true]

theorem dictSat_error (l : List (α × PkgInfo α)) (d : Dep α) (e : PErr α) (h : dictSat (readFiles l) d = .error e) :
    e = .value ∧ ∃ q, LastFile l d.package q ∧ ¬ Testable d q := by
  unfold dictSat at h
  cases hg : (readFiles l).get d.package with
  | none => simp [hg] at h
  | some q =>
    simp only [hg] at h
    obtain ⟨h1, h2⟩ := (testDep_error d q e).mp h
    exact ⟨h1, q, (readFiles_get l _ q).mp hg, h2⟩

theorem dictSat_ok (l : List (α × PkgInfo α)) (d : Dep α) :
    (∃ b, dictSat (readFiles l) d = .ok b) ↔ ∀ q, LastFile l d.package q → Testable d q := by
  unfold dictSat
  simp only [← readFiles_get]
  cases hg : (readFiles l).get d.package with
  | none => simp
  | some q => simpa using testDep_ok d q

theorem filesLoop_deps_ok (dt : Dict α (PkgInfo α)) (x : α) (ds : List (Dep α)) :
    (filesLoop dt).deps x = .ok ds ↔ ∃ p, dt.get x = some p ∧ p.compDeps = [] ∧ ds = p.deps := by
  simp only [filesLoop]
  cases dt.get x with
  | none => simp
  | some p => simp [PkgInfo.runtimeDeps]; split <;> simp_all [eq_comm]

theorem filesLoop_R (l : List (α × PkgInfo α)) {x y : α} (h : (filesLoop (readFiles l)).R x y) : FileNeeds l x y := by
  obtain ⟨ds, d, h1, h2, h3, rfl⟩ := h
  obtain ⟨p, hp, hc, rfl⟩ := (filesLoop_deps_ok _ x ds).mp h1
  exact ⟨p, d, (readFiles_get l x p).mp hp, h2, rfl, (dictSat_true l d).mp h3⟩

theorem filesLoop_clean (l : List (α × PkgInfo α)) {x : α} (h : (filesLoop (readFiles l)).Clean x) :
    FileExaminable l x := by
  obtain ⟨ds, h1, h2⟩ := h
  obtain ⟨p, hp, hc, rfl⟩ := (filesLoop_deps_ok _ x ds).mp h1
  intro q hq
  rw [← readFiles_get, hp] at hq
  cases hq
  exact ⟨hc, fun d hd => (dictSat_ok l d).mp (h2 d hd)⟩

theorem filesLoop_R_of (l : List (α × PkgInfo α)) {x y : α} (hx : FileExaminable l x) (h : FileNeeds l x y) :
    (filesLoop (readFiles l)).R x y := by
  obtain ⟨p, d, hp, hd, rfl, hm⟩ := h
  exact ⟨p.deps, d, (filesLoop_deps_ok _ x _).mpr ⟨p, (readFiles_get l x p).mpr hp, (hx p hp).1, rfl⟩, hd,
    (dictSat_true l d).mpr hm, rfl⟩

theorem dtGet_ok (dt : Dict α (PkgInfo α)) (x : α) (p : PkgInfo α) : dtGet dt x = .ok p ↔ dt.get x = some p := by
  unfold dtGet; cases dt.get x <;> simp

theorem reach_given (l : List (α × PkgInfo α)) {R : α → α → Prop} (hR : ∀ x y, R x y → FileNeeds l x y) {x : α}
    (h : Reach R (readFiles l).keys x) : x ∈ (readFiles l).keys := by
  obtain ⟨a, ha, hr⟩ := h
  induction hr with
  | refl => exact ha
  | tail _ h2 _ =>
    obtain ⟨p, d, _, _, rfl, q, hq, _⟩ := hR _ _ h2
    exact (readFiles_keys l _).mpr ⟨q, hq⟩

/-- What is known when planning succeeds. -/
theorem planFiles_ok (l : List (α × PkgInfo α)) (σ : Sched α) (hσ : σ.Legal) (order : List α)
    (h : planFiles (readFiles l) σ (readFiles l).keys = .ok order) :
    order.Nodup ∧ (∀ x, x ∈ order ↔ ∃ p, LastFile l x p) ∧ (∀ x ∈ order, FileExaminable l x) ∧
    ∀ x y, FileNeeds l x y → Spec.Before order y x := by
  have hA : (readFiles l).keys.Nodup := readFiles_uniq l
  unfold planFiles at h
  have hadd := addPackages_spec (dtGet (readFiles l)) (σ.front (readFiles l).keys) Digraph.empty empty_wf
    ((hσ.front _).nodup_iff.mpr hA) (by simp [Digraph.empty])
  cases h0 : addPackages (dtGet (readFiles l)) (σ.front (readFiles l).keys) Digraph.empty with
  | error e => simp [h0] at h
  | ok g0 =>
    simp only [h0] at h hadd
    obtain ⟨hw0, hv, hadj, _⟩ := hadd
    have hv0 : ∀ x, x ∈ g0.verts ↔ x ∈ (readFiles l).keys := fun x => by
      rw [hv]; simp [Digraph.empty, (hσ.front _).mem_iff]
    cases h1 : (filesLoop (readFiles l)).closure .fuel σ.front ((readFiles l).keys.length + 1) (readFiles l).keys g0 with
    | error e => simp [h1] at h
    | ok g1 =>
      simp only [h1] at h
      cases h2 : liftErr (topologicalSort (σ.graph g1)) with
      | error e => simp [h2] at h
      | ok t =>
        simp only [h2, Except.ok.injEq] at h
        subst h
        obtain ⟨k1, k2, k3, k4, k5, k6, _⟩ :=
          closure_exp (filesLoop (readFiles l)) hσ.front hw0 (fun x hx => (hv0 x).mpr hx) h1
        have hexp := exp_reach (filesLoop (readFiles l)) g0.verts _ hv0
        have hex : ∀ x, x ∈ (readFiles l).keys → (filesLoop (readFiles l)).Exp g0.verts (readFiles l).keys x :=
          fun x hx => (hexp x).mpr ⟨x, hx, .refl⟩
        have ht := sort_ok hσ k1 h2
        have hall : ∀ x, x ∈ g1.verts ↔ x ∈ (readFiles l).keys := by
          intro x
          rw [k2 x, hexp x, hv0 x]
          exact ⟨fun h => h.elim id (reach_given l (fun _ _ => filesLoop_R l)), Or.inl⟩
        have hmem : ∀ x, x ∈ t.reverse ↔ x ∈ (readFiles l).keys := fun x => by
          rw [List.mem_reverse, ht.all x]; exact hall x
        refine ⟨List.nodup_reverse.mpr ht.once, fun x => (hmem x).trans (readFiles_keys l x), ?_, ?_⟩
        · intro x hx
          exact filesLoop_clean l (k3 x (hex x ((hmem x).mp hx)))
        · intro x y hxy
          obtain ⟨p, d, hp, rest⟩ := hxy
          have hx := (readFiles_keys l x).mpr ⟨p, hp⟩
          apply before_reverse
          apply ht.forward
          rw [k6 rfl x y]
          exact Or.inr ⟨hex x hx, filesLoop_R_of l (filesLoop_clean l (k3 x (hex x hx))) ⟨p, d, hp, rest⟩⟩

/-- Why planning fails. -/
theorem planFiles_error (l : List (α × PkgInfo α)) (σ : Sched α) (hσ : σ.Legal) (e : PErr α)
    (h : planFiles (readFiles l) σ (readFiles l).keys = .error e) :
    (∃ x p, LastFile l x p ∧ ¬ FileExaminable l x) ∨ ((∃ c, e = .cycle c) ∧ Spec.Cyclic (FileNeeds l)) := by
  have hA : (readFiles l).keys.Nodup := readFiles_uniq l
  unfold planFiles at h
  have hadd := addPackages_spec (dtGet (readFiles l)) (σ.front (readFiles l).keys) Digraph.empty empty_wf
    ((hσ.front _).nodup_iff.mpr hA) (by simp [Digraph.empty])
  have hpres : ∀ x, x ∈ (readFiles l).keys → ∃ p, (readFiles l).get x = some p := fun x hx => by
    rw [Dict.mem_keys, Option.isSome_iff_exists] at hx; exact hx
  cases h0 : addPackages (dtGet (readFiles l)) (σ.front (readFiles l).keys) Digraph.empty with
  | error e' =>
    simp only [h0] at hadd
    obtain ⟨x, hx, hg⟩ := hadd
    obtain ⟨p, hp⟩ := hpres x ((hσ.front _).mem_iff.mp hx)
    rw [(dtGet_ok _ x p).mpr hp] at hg
    cases hg
  | ok g0 =>
    simp only [h0] at h hadd
    obtain ⟨hw0, hv, hadj, _⟩ := hadd
    have hv0 : ∀ x, x ∈ g0.verts ↔ x ∈ (readFiles l).keys := fun x => by
      rw [hv]; simp [Digraph.empty, (hσ.front _).mem_iff]
    have hexp := exp_reach (filesLoop (readFiles l)) g0.verts _ hv0
    have hgiven : ∀ x, (filesLoop (readFiles l)).Exp g0.verts (readFiles l).keys x → x ∈ (readFiles l).keys :=
      fun x hx => reach_given l (fun _ _ => filesLoop_R l) ((hexp x).mp hx)
    cases h1 : (filesLoop (readFiles l)).closure .fuel σ.front ((readFiles l).keys.length + 1) (readFiles l).keys g0 with
    | error e' =>
      left
      obtain ⟨x, hx, hf⟩ := closure_err (filesLoop (readFiles l)) .fuel σ.front hσ.front (readFiles l).keys
        (by
          intro y hy
          simp only [filesLoop] at hy
          cases hr : (readFiles l).get y with
          | none => simp [hr] at hy
          | some p => exact (Dict.mem_keys _ _).mpr (by simp [hr]))
        _ g0 hw0 (fun x hx => (hv0 x).mpr hx) _ h1
      obtain ⟨p, hp⟩ := hpres x (hgiven x hx)
      have hp' := (readFiles_get l x p).mp hp
      refine ⟨x, p, hp', fun hex => ?_⟩
      obtain ⟨hc, hd⟩ := hex p hp'
      rcases hf with hf | ⟨ds, d, hd1, hd2, hk⟩ | ⟨y, hR, hyn, hfe⟩
      · rw [(filesLoop_deps_ok _ x p.deps).mpr ⟨p, hp, hc, rfl⟩] at hf
        cases hf
      · obtain ⟨p', hp2, _, rfl⟩ := (filesLoop_deps_ok _ x ds).mp hd1
        rw [hp] at hp2; cases hp2
        obtain ⟨b, hb⟩ := (dictSat_ok l d).mpr (hd d hd2)
        simp only [filesLoop] at hk
        rw [hb] at hk
        cases hk
      · obtain ⟨p', d, _, _, rfl, q, hq, _⟩ := filesLoop_R l hR
        exact hyn ((hv0 _).mpr ((readFiles_keys l _).mpr ⟨q, hq⟩))
    | ok g1 =>
      right
      simp only [h1] at h
      cases h2 : liftErr (topologicalSort (σ.graph g1)) with
      | ok t => simp [h2] at h
      | error e' =>
        simp only [h2, Except.error.injEq] at h
        subst h
        obtain ⟨k1, k2, k3, k4, k5, k6, _⟩ :=
          closure_exp (filesLoop (readFiles l)) hσ.front hw0 (fun x hx => (hv0 x).mpr hx) h1
        obtain ⟨⟨c, rfl⟩, x, hx⟩ := sort_err hσ k1 h2
        refine ⟨⟨c, rfl⟩, x, Relation.TransGen.mono ?_ _ _ hx⟩
        intro u v huv
        rw [k6 rfl u v] at huv
        rcases huv with hu | ⟨_, hR⟩
        · rw [hadj u] at hu
          simp [Digraph.empty] at hu
        · exact filesLoop_R l hR

theorem satDeps_iff (w : World α) (ds : List (Dep α)) :
    installOne.satDeps w ds = .ok true ↔ ∀ d ∈ ds, Satisfied w d := by
  refine ⟨?_, satDeps_true w ds⟩
  induction ds with
  | nil => simp
  | cons d ds ih =>
    intro h
    simp only [installOne.satDeps] at h
    cases hi : w.installedSatisfies d with
    | error e => simp [hi] at h
    | ok b =>
      cases b with
      | false => simp [hi] at h
      | true =>
        simp only [hi] at h
        intro d' hd'
        rcases List.mem_cons.mp hd' with rfl | hd'
        · exact (installedSatisfies_true w d').mp hi
        · exact ih h d' hd'

theorem installFile_ok (dt : Dict α (PkgInfo α)) (w w' : World α) (x : α) :
    installFile dt w x = .ok w' ↔
      ∃ p, dt.get x = some p ∧ p.compDeps = [] ∧ (∀ d ∈ p.deps, Satisfied w d) ∧ w' = World.install w x p := by
  unfold installFile dtGet PkgInfo.runtimeDeps
  cases hg : dt.get x with
  | none => simp
  | some p =>
    by_cases hc : p.compDeps = []
    · cases hs : installOne.satDeps w p.deps with
      | error e =>
        have : ¬ ∀ d ∈ p.deps, Satisfied w d := by rw [← satDeps_iff, hs]; simp
        simp [hc, hs, this]
      | ok b =>
        cases b with
        | false =>
          have : ¬ ∀ d ∈ p.deps, Satisfied w d := by rw [← satDeps_iff, hs]; simp
          simp [hc, hs, this]
        | true =>
          have : ∀ d ∈ p.deps, Satisfied w d := by rw [← satDeps_iff, hs]
          simp only [hc, hs, if_true, Except.ok.injEq, Option.some.injEq]
          constructor
          · rintro rfl; exact ⟨p, rfl, hc, this, rfl⟩
          · rintro ⟨q, rfl, _, _, rfl⟩; rfl
    · simp [hc]

/-- Satisfaction only depends on the records of the package in question. -/
theorem satisfied_congr {w w' : World α} {d : Dep α} (h1 : w'.inst.get d.package = w.inst.get d.package)
    (h2 : w'.track.get d.package = w.track.get d.package) : Satisfied w' d ↔ Satisfied w d := by
  simp [Satisfied, h1, h2]

/-- Executing leaves other packages alone and records the given ones. -/
theorem execFiles_frame (dt : Dict α (PkgInfo α)) (order : List α) : ∀ (w w' : World α), execFiles dt w order = .ok w' →
    (∀ y, y ∉ order → w'.inst.get y = w.inst.get y ∧ w'.track.get y = w.track.get y) ∧
    ∀ y ∈ order, ∃ p, dt.get y = some p ∧ w'.inst.get y = some ⟨p.version, p.release, p.build⟩ ∧ w'.track.get y = some p := by
  induction order with
  | nil => intro w w' h; simp only [execFiles, Except.ok.injEq] at h; subst h; simp
  | cons x xs ih =>
    intro w w' h
    simp only [execFiles] at h
    cases hi : installFile dt w x with
    | error e => simp [hi] at h
    | ok w1 =>
      simp only [hi] at h
      obtain ⟨p, hp, _, _, rfl⟩ := (installFile_ok dt w w1 x).mp hi
      obtain ⟨i1, i2⟩ := ih _ _ h
      constructor
      · intro y hy
        simp only [List.mem_cons, not_or] at hy
        have hne : x ≠ y := fun e => hy.1 e.symm
        obtain ⟨a, b⟩ := i1 y hy.2
        rw [a, b, (install_get_inst w x y p).1, (install_get_inst w x y p).2]
        simp [hne]
      · intro y hy
        by_cases hy' : y ∈ xs
        · exact i2 y hy'
        · have : y = x := by simpa [hy'] using hy
          subst this
          obtain ⟨a, b⟩ := i1 y hy'
          refine ⟨p, hp, ?_, ?_⟩
          · rw [a, (install_get_inst w y y p).1]; simp
          · rw [b, (install_get_inst w y y p).2]; simp

theorem execFiles_append (dt : Dict α (PkgInfo α)) (a b : List α) : ∀ (w w' : World α),
    execFiles dt w (a ++ b) = .ok w' ↔ ∃ w1, execFiles dt w a = .ok w1 ∧ execFiles dt w1 b = .ok w' := by
  induction a with
  | nil => intro w w'; simp [execFiles]
  | cons x a ih =>
    intro w w'
    simp only [List.cons_append, execFiles]
    cases installFile dt w x with
    | error e => simp
    | ok w1 => exact ih w1 w'

/-- Whatever comes before `x` in a list without duplicates does not come after it. -/
theorem before_split {l a b : List α} {x y : α} (hnd : l.Nodup) (hl : l = a ++ x :: b) (h : Spec.Before l y x) : y ∈ a := by
  obtain ⟨a', b', c', h'⟩ := h
  have hy : y ∈ l := by rw [h']; simp
  rw [hl] at hy
  rcases List.mem_append.mp hy with hy | hy
  · exact hy
  · exfalso
    have e : a ++ x :: b = (a' ++ y :: b') ++ x :: c' := by rw [← hl, h']; simp
    have hx1 : x ∉ a := fun hm => (List.nodup_append.mp (hl ▸ hnd)).2.2 x hm x (by simp) rfl
    have hx2 : x ∉ a' ++ y :: b' := fun hm => by
      have : l = (a' ++ y :: b') ++ x :: c' := by rw [h']; simp
      exact (List.nodup_append.mp (this ▸ hnd)).2.2 x hm x (by simp) rfl
    have : a = a' ++ y :: b' := by
      rcases List.append_eq_append_iff.mp e with ⟨m, m1, m2⟩ | ⟨m, m1, m2⟩
      · cases m with
        | nil => simpa using m1.symm
        | cons z m =>
          simp only [List.cons_append, List.cons.injEq] at m2
          exact absurd (by rw [m1, ← m2.1]; simp) hx2
      · cases m with
        | nil => simpa using m1
        | cons z m =>
          simp only [List.cons_append, List.cons.injEq] at m2
          exact absurd (by rw [m1, ← m2.1]; simp) hx1
    exact (List.nodup_append.mp (hl ▸ hnd)).2.2 y (by rw [this]; simp) y hy rfl

theorem unsatOf_nil (w : World α) (dt : Dict α (PkgInfo α)) (ds : List (Dep α))
    (h : ∀ d ∈ ds, fileSat w dt d = .ok true) : unsatOf w dt ds = .ok [] := by
  induction ds with
  | nil => rfl
  | cons d ds ih => simp [unsatOf, h d (by simp), ih (fun d' hd' => h d' (by simp [hd']))]

theorem unsatAll_nil (w : World α) (dt : Dict α (PkgInfo α)) (l : List (α × PkgInfo α))
    (h : ∀ x p, (x, p) ∈ l → p.compDeps = [] ∧ ∀ d ∈ p.deps, fileSat w dt d = .ok true) : unsatAll w dt l = .ok [] := by
  induction l with
  | nil => rfl
  | cons e l ih =>
    obtain ⟨x, p⟩ := e
    obtain ⟨hc, hd⟩ := h x p (by simp)
    simp [unsatAll, PkgInfo.runtimeDeps, hc, unsatOf_nil w dt p.deps hd, ih (fun y q hq => h y q (by simp [hq]))]

end Pisi.Plan
