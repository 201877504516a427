import Verif.Lemmas.InstallPkgFiles

/-!
# C86-C88: installing package files

Vocabulary: `Verif/Spec/InstallPkgFiles.lean`, `Verif/Spec/Plan.lean`.
-/
set_option linter.unusedSectionVars false

namespace Pisi.Plan
open Pisi.Graph Pisi.PlanSpec
variable {α : Type} [DecidableEq α]

/-! ## C86: the order of installation -/

/-- **C86.** Whenever planning the installation of package files succeeds, for any set iteration orders, the order lists
without duplicates exactly the packages of the given files, and a package comes after every given package that meets one
of its dependencies. -/
theorem files_plan_order (l : List (α × PkgInfo α)) (σ : Sched α) (hσ : σ.Legal) (order : List α)
    (h : planFiles (readFiles l) σ (readFiles l).keys = .ok order) :
    order.Nodup ∧ (∀ x, x ∈ order ↔ ∃ p, LastFile l x p) ∧ ∀ x y, FileNeeds l x y → Spec.Before order y x :=
  let ⟨a, b, _, c⟩ := planFiles_ok l σ hσ order h
  ⟨a, b, c⟩

/-- **C86 (exactly when).** Planning succeeds iff the dependencies of every given package can be examined and those met
by given files are acyclic. -/
theorem files_plan_succeeds_iff (l : List (α × PkgInfo α)) (σ : Sched α) (hσ : σ.Legal) :
    (∃ order, planFiles (readFiles l) σ (readFiles l).keys = .ok order) ↔
      (∀ x, FileExaminable l x) ∧ ¬ Spec.Cyclic (FileNeeds l) := by
  constructor
  · rintro ⟨order, h⟩
    obtain ⟨a, b, c, d⟩ := planFiles_ok l σ hσ order h
    refine ⟨fun x p hp => c x ((b x).mpr ⟨p, hp⟩) p hp, ?_⟩
    have : Spec.IsTopo (· ∈ order.reverse) (FileNeeds l) order.reverse :=
      ⟨List.nodup_reverse.mpr a, fun _ => Iff.rfl, fun u v huv => before_reverse (d u v huv)⟩
    exact topo_acyclic this
  · rintro ⟨hp, hc⟩
    cases h : planFiles (readFiles l) σ (readFiles l).keys with
    | ok order => exact ⟨order, rfl⟩
    | error e =>
      rcases planFiles_error l σ hσ e h with ⟨x, p, _, hn⟩ | ⟨_, hcyc⟩
      · exact absurd (hp x) hn
      · exact absurd hcyc hc

/-- **C86 (cycles).** If all dependencies can be examined, the only failure is `CycleException`. -/
theorem files_plan_failure (l : List (α × PkgInfo α)) (σ : Sched α) (hσ : σ.Legal) (hex : ∀ x, FileExaminable l x)
    (e : PErr α) (h : planFiles (readFiles l) σ (readFiles l).keys = .error e) :
    (∃ c, e = .cycle c) ∧ Spec.Cyclic (FileNeeds l) := by
  rcases planFiles_error l σ hσ e h with ⟨x, p, _, hn⟩ | hc
  · exact absurd (hex x) hn
  · exact hc

/-- Two files of package 1 are given (the second counts), and one of package 2, which 1 needs. -/
def twoFiles : List (Nat × PkgInfo Nat) :=
  [(1, { version := ['1'], release := ['1'] }),
   (1, { version := ['2'], release := ['1'], deps := [{ package := 2, versionFrom := some ['2'] }] }),
   (2, { version := ['3'], release := ['1'] })]

example : planFiles (readFiles twoFiles) Sched.plain (readFiles twoFiles).keys = .ok [2, 1] := by rfl

/-! ## C87: dependencies of the installed files -/

/-- The result of a successful installation: the order, the world after installing extra packages, the final world. -/
theorem installPkgFiles_ok (l : List (α × PkgInfo α)) (σ : Sched α) (w w' : World α)
    (h : installPkgFiles (readFiles l) σ w = .ok w') :
    ∃ us w1 order, unsatAll w (readFiles l) (readFiles l) = .ok us ∧
      (if us = [] then Except.ok w else installNames w σ (us.map Dep.package)) = .ok w1 ∧
      planFiles (readFiles l) σ (readFiles l).keys = .ok order ∧ execFiles (readFiles l) w1 order = .ok w' := by
  unfold installPkgFiles at h
  cases h1 : unsatAll w (readFiles l) (readFiles l) with
  | error e => simp [h1] at h
  | ok us =>
    simp only [h1] at h
    cases h2 : (if us = [] then (Except.ok w : Except (XErr α) (World α)) else installNames w σ (us.map Dep.package)) with
    | error e => simp [h2] at h
    | ok w1 =>
      simp only [h2] at h
      cases h3 : planFiles (readFiles l) σ (readFiles l).keys with
      | error e => simp [h3] at h
      | ok order =>
        simp only [h3] at h
        exact ⟨us, w1, order, rfl, h2, rfl, h⟩

/-- **C87 (what is installed).** After a successful installation every given package is recorded as installed and
tracked with the metadata of the last file given for it. -/
theorem files_installed (l : List (α × PkgInfo α)) (σ : Sched α) (hσ : σ.Legal) (w w' : World α)
    (h : installPkgFiles (readFiles l) σ w = .ok w') (x : α) (p : PkgInfo α) (hx : LastFile l x p) :
    w'.inst.get x = some ⟨p.version, p.release, p.build⟩ ∧ w'.track.get x = some p := by
  obtain ⟨us, w1, order, _, _, h3, h4⟩ := installPkgFiles_ok l σ w w' h
  obtain ⟨_, b, _, _⟩ := planFiles_ok l σ hσ order h3
  obtain ⟨q, hq, e1, e2⟩ := (execFiles_frame _ order w1 w' h4).2 x ((b x).mpr ⟨p, hx⟩)
  rw [(readFiles_get l x p).mpr hx] at hq
  cases hq
  exact ⟨e1, e2⟩

/-- **C87, full statement**: after a successful installation of package files every dependency of every given package is
satisfied. -/
def FilesSatisfied : Prop :=
  ∀ (l : List (Nat × PkgInfo Nat)) (σ : Sched Nat), σ.Legal → ∀ w w' : World Nat,
    installPkgFiles (readFiles l) σ w = .ok w' →
      ∀ x p, LastFile l x p → ∀ d ∈ p.deps, Satisfied w' d

/-- Package 1 needs 2 up to version 1, which is installed; files of 1 and of version 2 of 2 are given. -/
def replacedFiles : List (Nat × PkgInfo Nat) :=
  [(1, { version := ['1'], release := ['1'], deps := [{ package := 2, versionTo := some ['1'] }] }),
   (2, { version := ['2'], release := ['1'] })]

/-- See `replacedFiles`. -/
def replacedWorld : World Nat where
  repo := []
  inst := [(2, ⟨['1'], ['1'], none⟩)]
  track := [(2, { version := ['1'], release := ['1'] })]

/-- The iteration order that installs package 1 first. -/
def Sched.back : Sched Nat := ⟨List.reverse, id⟩

theorem Sched.back_legal : Sched.back.Legal := ⟨fun l => List.reverse_perm l, fun _ => ⟨.refl _, fun _ => .refl _⟩⟩

theorem lastFile_one {x : α} {p : PkgInfo α} {l : List (α × PkgInfo α)} (h : (readFiles l).get x = some p) : LastFile l x p :=
  (readFiles_get l x p).mp h

/-- **C87 is false of the code**: a dependency the installed system meets is not looked up among the given files, one of
which may replace what met it. -/
theorem files_satisfied_refuted : ¬ FilesSatisfied := by
  intro h
  have key : ∃ (σ : Sched Nat) (w' : World Nat), σ.Legal ∧ installPkgFiles (readFiles replacedFiles) σ replacedWorld = .ok w' ∧
      w'.installedSatisfies { package := 2, versionTo := some ['1'] } = .ok false := by
    first
      | exact ⟨Sched.plain, _, Sched.plain_legal, rfl, rfl⟩
      | exact ⟨Sched.back, _, Sched.back_legal, rfl, rfl⟩
  obtain ⟨σ, w', hσ, hw, hs⟩ := key
  have := h replacedFiles σ hσ replacedWorld w' hw 1 _ (lastFile_one rfl) { package := 2, versionTo := some ['1'] } (by simp)
  rw [← installedSatisfies_true, hs] at this
  simp at this

/-- **C87, proved part**: it holds if every dependency between given packages is met by the given files.  Missing: the code
does not check that. -/
theorem files_satisfied_partial (l : List (α × PkgInfo α)) (σ : Sched α) (hσ : σ.Legal) (w w' : World α)
    (h : installPkgFiles (readFiles l) σ w = .ok w')
    (hgiven : ∀ x p, LastFile l x p → ∀ d ∈ p.deps, (∃ q, LastFile l d.package q) → GivenMeets l d) :
    ∀ x p, LastFile l x p → ∀ d ∈ p.deps, Satisfied w' d := by
  obtain ⟨us, w1, order, _, _, h3, h4⟩ := installPkgFiles_ok l σ w w' h
  obtain ⟨hnd, hmem, _, hbef⟩ := planFiles_ok l σ hσ order h3
  intro x p hx d hd
  obtain ⟨a, b, ho⟩ := List.append_of_mem ((hmem x).mpr ⟨p, hx⟩)
  have hout : d.package ∉ x :: b := by
    intro hm
    have hdo : d.package ∈ order := by rw [ho]; exact List.mem_append_right _ hm
    have hbe := hbef x d.package ⟨p, d, hx, hd, rfl, hgiven x p hx d hd ((hmem _).mp hdo)⟩
    have := before_split hnd ho hbe
    rw [ho, List.nodup_append] at hnd
    exact hnd.2.2 _ this _ hm rfl
  rw [ho, execFiles_append] at h4
  obtain ⟨w2, _, h5⟩ := h4
  have hfr := (execFiles_frame _ _ _ _ h5).1 _ hout
  rw [satisfied_congr hfr.1 hfr.2]
  simp only [execFiles] at h5
  cases hi : installFile (readFiles l) w2 x with
  | error e => simp [hi] at h5
  | ok w3 =>
    obtain ⟨q, hq, _, hs, _⟩ := (installFile_ok _ _ _ _).mp hi
    rw [(readFiles_get l x p).mpr hx] at hq
    cases hq
    exact hs d hd

/-- The hypotheses of `files_satisfied_partial` are met by `twoFiles`. -/
example : ∃ w' : World Nat, installPkgFiles (readFiles twoFiles) Sched.plain ⟨[], [], [], [], []⟩ = .ok w' :=
  ⟨_, rfl⟩

/-- **C87 (completion), full statement**: if every dependency of the given packages is met by a given file, by the
installed system or by the repositories, and there is an order, the installation runs to the end. -/
def FilesExecutable : Prop :=
  ∀ (l : List (Nat × PkgInfo Nat)) (σ : Sched Nat), σ.Legal → ∀ w : World Nat,
    (∀ x p, LastFile l x p → ∀ d ∈ p.deps, GivenMeets l d ∨ Satisfied w d ∨ (Offered w d ∧ TestableInstalled w d)) →
    (∃ order, planFiles (readFiles l) σ (readFiles l).keys = .ok order) →
    ∃ w', installPkgFiles (readFiles l) σ w = .ok w'

/-- Package 1 needs 2 from version 2 on; 2 is installed in version 1 and offered in version 2. -/
def olderFiles : List (Nat × PkgInfo Nat) :=
  [(1, { version := ['1'], release := ['1'], deps := [{ package := 2, versionFrom := some ['2'] }] })]

/-- See `olderFiles`. -/
def olderWorld : World Nat where
  repo := [(2, { version := ['2'], release := ['1'] })]
  inst := [(2, ⟨['1'], ['1'], none⟩)]
  track := [(2, { version := ['1'], release := ['1'] })]

/-- **C87 (completion) is false of the code**: packages installed in an unsuitable version are dropped from the extra
packages instead of being upgraded. -/
theorem files_executable_refuted : ¬ FilesExecutable := by
  intro h
  have hoff : Offered olderWorld ({ package := 2, versionFrom := some ['2'] } : Dep Nat) :=
    (repoSatisfies_true olderWorld _).mp rfl
  have htest : TestableInstalled olderWorld ({ package := 2, versionFrom := some ['2'] } : Dep Nat) :=
    (installedSatisfies_ok olderWorld _).mp ⟨false, rfl⟩
  obtain ⟨w', hw⟩ := h olderFiles Sched.plain Sched.plain_legal olderWorld
    (by
      intro x p hx d hd
      rw [← readFiles_get] at hx
      have hx1 : x = 1 := by
        apply Classical.byContradiction
        intro hne
        have : (readFiles olderFiles).get x = none := by
          simp [readFiles, olderFiles, Dict.put, Dict.del, Dict.get, Ne.symm hne]
        rw [this] at hx
        cases hx
      subst hx1
      cases hx
      simp only [List.mem_singleton] at hd
      subst hd
      exact Or.inr (Or.inr ⟨hoff, htest⟩))
    ⟨[1], rfl⟩
  have : (match installPkgFiles (readFiles olderFiles) Sched.plain olderWorld with | .ok _ => true | .error _ => false) = false := by
    rfl
  rw [hw] at this
  simp at this

theorem fileSat_given (l : List (α × PkgInfo α)) (w : World α) (d : Dep α) (ht : TestableInstalled w d)
    (h : GivenMeets l d ∨ Satisfied w d) : fileSat w (readFiles l) d = .ok true := by
  unfold fileSat
  obtain ⟨b, hb⟩ := (installedSatisfies_ok w d).mpr ht
  cases b with
  | true => simp [hb]
  | false =>
    rcases h with h | h
    · simp [hb, (dictSat_true l d).mpr h]
    · rw [← installedSatisfies_true, hb] at h
      simp at h

/-- **C87 (completion), proved part**: the installation runs to the end if each dependency of the given packages is met by
the given files, or is about a package that is not given and is satisfied already; the order exists by
`files_plan_succeeds_iff`.  Missing: dependencies taken from the repositories. -/
theorem files_executable_partial (l : List (α × PkgInfo α)) (σ : Sched α) (hσ : σ.Legal) (w : World α)
    (hplan : ∃ order, planFiles (readFiles l) σ (readFiles l).keys = .ok order)
    (htest : ∀ x p, LastFile l x p → ∀ d ∈ p.deps, TestableInstalled w d)
    (hdeps : ∀ x p, LastFile l x p → ∀ d ∈ p.deps,
      GivenMeets l d ∨ (Satisfied w d ∧ ∀ q, ¬ LastFile l d.package q)) :
    ∃ w', installPkgFiles (readFiles l) σ w = .ok w' := by
  obtain ⟨order, h3⟩ := hplan
  obtain ⟨hnd, hmem, hex, hbef⟩ := planFiles_ok l σ hσ order h3
  have hget : ∀ x p, (x, p) ∈ readFiles l → LastFile l x p := fun x p h =>
    (readFiles_get l x p).mp ((Dict.mem_iff_get (readFiles_uniq l) x p).mp h)
  have hun : unsatAll w (readFiles l) (readFiles l) = .ok [] := by
    apply unsatAll_nil
    intro x p hxp
    have hx := hget x p hxp
    refine ⟨(hex x ((hmem x).mpr ⟨p, hx⟩) p hx).1, fun d hd => fileSat_given l w d (htest x p hx d hd) ?_⟩
    rcases hdeps x p hx d hd with h | h
    · exact Or.inl h
    · exact Or.inr h.1
  suffices key : ∀ (rest done : List α) (w1 : World α), order = done ++ rest → execFiles (readFiles l) w done = .ok w1 →
      ∃ w2, execFiles (readFiles l) w1 rest = .ok w2 by
    obtain ⟨w2, h2⟩ := key order [] w rfl rfl
    exact ⟨w2, by simp only [installPkgFiles, hun, if_true, h3, h2]⟩
  intro rest
  induction rest with
  | nil => intro done w1 _ _; exact ⟨w1, rfl⟩
  | cons x rest ih =>
    intro done w1 ho h1
    have hx : x ∈ order := by rw [ho]; simp
    obtain ⟨p, hp⟩ := (hmem x).mp hx
    obtain ⟨hfr, hrec⟩ := execFiles_frame _ _ _ _ h1
    have hsat : ∀ d ∈ p.deps, Satisfied w1 d := by
      intro d hd
      rcases hdeps x p hp d hd with hg | ⟨hs, hn⟩
      · have hb := before_split hnd ho (hbef x d.package ⟨p, d, hp, hd, rfl, hg⟩)
        obtain ⟨q, hq, hm⟩ := hg
        obtain ⟨q', hq', e1, e2⟩ := hrec _ hb
        rw [(readFiles_get l _ q).mpr hq] at hq'
        cases hq'
        exact ⟨⟨_, e1⟩, q, e2, hm⟩
      · have hnd' : d.package ∉ done := fun hm => by
          obtain ⟨q, hq⟩ := (hmem d.package).mp (by rw [ho]; exact List.mem_append_left _ hm)
          exact hn q hq
        obtain ⟨e1, e2⟩ := hfr _ hnd'
        exact (satisfied_congr e1 e2).mpr hs
    have hstep : installFile (readFiles l) w1 x = .ok (World.install w1 x p) :=
      (installFile_ok _ _ _ _).mpr ⟨p, (readFiles_get l x p).mpr hp, (hex x hx p hp).1, hsat, rfl⟩
    obtain ⟨w2, h2⟩ := ih (done ++ [x]) (World.install w1 x p) (by simp [ho])
      ((execFiles_append _ _ _ _ _).mpr ⟨w1, h1, by simp [execFiles, hstep]⟩)
    exact ⟨w2, by simp only [execFiles, hstep, h2]⟩

/-! ## C88: dependencies of packages installed before -/

/-- **C88, full statement**: installing package files never breaks a dependency that was satisfied. -/
def InstallKeepsDeps : Prop :=
  ∀ (l : List (Nat × PkgInfo Nat)) (σ : Sched Nat), σ.Legal → ∀ w w' : World Nat,
    installPkgFiles (readFiles l) σ w = .ok w' →
      ∀ x p, w.track.get x = some p → (∀ q, ¬ LastFile l x q) → ∀ d ∈ p.deps, Satisfied w d → Satisfied w' d

/-- Package 1 is installed and needs 2 up to version 1, which is installed. -/
def dependentWorld : World Nat where
  repo := []
  inst := [(1, ⟨['1'], ['1'], none⟩), (2, ⟨['1'], ['1'], none⟩)]
  track := [(1, { version := ['1'], release := ['1'], deps := [{ package := 2, versionTo := some ['1'] }] }),
            (2, { version := ['1'], release := ['1'] })]

/-- **C88 is false of the code**: replacing a package does not look at the installed packages that depend on it. -/
theorem install_keeps_deps_refuted : ¬ InstallKeepsDeps := by
  intro h
  have key : ∃ w', installPkgFiles (readFiles [(2, { version := ['2'], release := ['1'] })]) Sched.plain dependentWorld = .ok w' ∧
      w'.installedSatisfies { package := 2, versionTo := some ['1'] } = .ok false := ⟨_, rfl, rfl⟩
  obtain ⟨w', hw, hs⟩ := key
  have := h [(2, { version := ['2'], release := ['1'] })] Sched.plain Sched.plain_legal dependentWorld w' hw 1
    { version := ['1'], release := ['1'], deps := [{ package := 2, versionTo := some ['1'] }] } rfl
    (by
      intro q hq
      rw [← readFiles_get] at hq
      simp [readFiles, Dict.put, Dict.del, Dict.get] at hq)
    { package := 2, versionTo := some ['1'] } (by simp) ((installedSatisfies_true dependentWorld _).mp rfl)
  rw [← installedSatisfies_true, hs] at this
  simp at this

theorem unsatOf_mem (w : World α) (dt : Dict α (PkgInfo α)) (ds us : List (Dep α)) (h : unsatOf w dt ds = .ok us) :
    ∀ d ∈ us, d ∈ ds := by
  induction ds generalizing us with
  | nil => simp only [unsatOf, Except.ok.injEq] at h; subst h; simp
  | cons e ds ih =>
    simp only [unsatOf] at h
    cases hf : fileSat w dt e with
    | error e => simp [hf] at h
    | ok b =>
      simp only [hf] at h
      cases hu : unsatOf w dt ds with
      | error e => simp [hu] at h
      | ok r =>
        simp only [hu, Except.ok.injEq] at h
        subst h
        intro d hd
        cases b
        · rcases List.mem_cons.mp hd with rfl | hd
          · simp
          · exact List.mem_cons_of_mem _ (ih r hu d hd)
        · exact List.mem_cons_of_mem _ (ih r hu d hd)

theorem unsatAll_mem (w : World α) (dt : Dict α (PkgInfo α)) (l : List (α × PkgInfo α)) (us : List (Dep α))
    (h : unsatAll w dt l = .ok us) : ∀ d ∈ us, ∃ x p, (x, p) ∈ l ∧ d ∈ p.deps := by
  induction l generalizing us with
  | nil => simp only [unsatAll, Except.ok.injEq] at h; subst h; simp
  | cons e l ih =>
    obtain ⟨x, p⟩ := e
    simp only [unsatAll, PkgInfo.runtimeDeps] at h
    by_cases hc : p.compDeps = []
    · simp only [hc, if_true] at h
      cases hu : unsatOf w dt p.deps with
      | error e => simp [hu] at h
      | ok r =>
        simp only [hu] at h
        cases ha : unsatAll w dt l with
        | error e => simp [ha] at h
        | ok r' =>
          simp only [ha, Except.ok.injEq] at h
          subst h
          intro d hd
          rcases List.mem_append.mp hd with hd | hd
          · exact ⟨x, p, by simp, unsatOf_mem w dt _ _ hu d hd⟩
          · obtain ⟨y, q, hy, hq⟩ := ih r' ha d hd
            exact ⟨y, q, by simp [hy], hq⟩
    · simp [hc] at h

theorem installOne_ok (w w' : World α) (x : α) (h : installOne w x = .ok w') :
    ∃ p, w.repo.get x = some p ∧ w' = World.install w x p := by
  unfold installOne at h
  cases hr : w.getRepo x with
  | error e => simp [hr] at h
  | ok p =>
    simp only [hr] at h
    cases hd : p.runtimeDeps with
    | error e => simp [hd] at h
    | ok ds =>
      simp only [hd] at h
      cases hs : installOne.satDeps w ds with
      | error e => simp [hs] at h
      | ok b =>
        cases b with
        | false => simp [hs] at h
        | true =>
          simp only [hs, Except.ok.injEq] at h
          exact ⟨p, (getRepo_ok w x p).mp hr, h.symm⟩

theorem execInstall_frame (order : List α) : ∀ (w w' : World α), execInstall w order = .ok w' →
    ∀ y, y ∉ order → w'.inst.get y = w.inst.get y ∧ w'.track.get y = w.track.get y := by
  induction order with
  | nil => intro w w' h; simp only [execInstall, Except.ok.injEq] at h; subst h; simp
  | cons x xs ih =>
    intro w w' h y hy
    simp only [execInstall] at h
    simp only [List.mem_cons, not_or] at hy
    cases hi : installOne w x with
    | error e => simp [hi] at h
    | ok w1 =>
      simp only [hi] at h
      obtain ⟨p, _, rfl⟩ := installOne_ok w w1 x hi
      obtain ⟨a, b⟩ := ih _ _ h y hy.2
      have hne : x ≠ y := fun e => hy.1 e.symm
      rw [a, b, (install_get_inst w x y p).1, (install_get_inst w x y p).2]
      simp [hne]

/-- **C88, proved part (files)**: a dependency on a package that is installed stays satisfied, if no file of that package
is given and no package fetched to satisfy extra dependencies needs another version of it.  Missing: replaced packages. -/
theorem install_keeps_deps_partial (l : List (α × PkgInfo α)) (σ : Sched α) (hσ : σ.Legal) (w w' : World α)
    (h : installPkgFiles (readFiles l) σ w = .ok w') (d : Dep α) (hs : Satisfied w d)
    (hfile : ∀ q, ¬ LastFile l d.package q)
    (hextra : ∀ x p, LastFile l x p → ∀ d' ∈ p.deps, ∀ y, Relation.ReflTransGen (Needs w) d'.package y → ¬ Needs w y d.package) :
    Satisfied w' d := by
  obtain ⟨us, w1, order, hun, h2, h3, h4⟩ := installPkgFiles_ok l σ w w' h
  obtain ⟨_, hmem, _, _⟩ := planFiles_ok l σ hσ order h3
  have hno : d.package ∉ order := fun hm => by
    obtain ⟨q, hq⟩ := (hmem _).mp hm
    exact hfile q hq
  obtain ⟨e1, e2⟩ := (execFiles_frame _ _ _ _ h4).1 _ hno
  rw [satisfied_congr e1 e2]
  by_cases hus : us = []
  · simp only [hus, if_true, Except.ok.injEq] at h2
    rw [← h2]; exact hs
  · simp only [hus, if_false] at h2
    unfold installNames at h2
    split at h2
    · simp only [Except.ok.injEq] at h2
      rw [← h2]; exact hs
    · next a rest hf =>
      cases hp : planInstall w σ (a :: rest) with
      | error e => simp [hp] at h2
      | ok ord =>
        simp only [hp] at h2
        have hnd : (a :: rest).Nodup := by
          rw [← hf]; exact (List.nodup_dedup _).filter _
        obtain ⟨_, b, _, _⟩ := planInstall_ok w σ hσ _ hnd ord hp
        have hnotin : d.package ∉ ord := by
          intro hm
          obtain ⟨x, hx, hr⟩ := (b _).mp hm
          rcases Relation.ReflTransGen.cases_tail hr with he | ⟨y, hy1, hy⟩
          · rw [← he, ← hf] at hx
            have := (List.mem_filter.mp hx).2
            obtain ⟨⟨i, hi⟩, _⟩ := hs
            simp only [World.isInstalled, Bool.not_eq_true'] at this
            rw [(has_iff _ _).mpr ⟨i, hi⟩] at this
            cases this
          · rw [← hf] at hx
            have hx' := List.mem_dedup.mp (List.mem_filter.mp hx).1
            obtain ⟨d', hd', rfl⟩ := List.mem_map.mp hx'
            obtain ⟨z, p, hz, hdp⟩ := unsatAll_mem _ _ _ _ hun d' hd'
            have hz' := (readFiles_get l z p).mp ((Dict.mem_iff_get (readFiles_uniq l) z p).mp hz)
            exact hextra z p hz' d' hdp y hy1 hy
        obtain ⟨e3, e4⟩ := execInstall_frame _ _ _ h2 _ hnotin
        exact (satisfied_congr e3 e4).mpr hs

/-- **C88, proved part (names)**: installing by name, a dependency on an installed package stays satisfied if nothing in
the plan needs another version of it. -/
theorem install_names_keeps_deps_partial (w w' : World α) (σ : Sched α) (hσ : σ.Legal) (A order : List α) (hA : A.Nodup)
    (hplan : planInstall w σ A = .ok order) (h : execInstall w order = .ok w') (d : Dep α) (hs : Satisfied w d)
    (hreq : d.package ∉ A) (hneed : ∀ y, Reach (Needs w) A y → ¬ Needs w y d.package) : Satisfied w' d := by
  obtain ⟨_, b, _, _⟩ := planInstall_ok w σ hσ A hA order hplan
  have hno : d.package ∉ order := by
    intro hm
    obtain ⟨x, hx, hr⟩ := (b _).mp hm
    rcases Relation.ReflTransGen.cases_tail hr with he | ⟨y, hy1, hy⟩
    · exact hreq (he ▸ hx)
    · exact hneed y ⟨x, hx, hy1⟩ hy
  obtain ⟨e1, e2⟩ := execInstall_frame _ _ _ h _ hno
  exact (satisfied_congr e1 e2).mpr hs

/-- Package 3 is given as a file and needs 4 from the repository; 1 keeps its dependency on 2. -/
example : ∃ w', installPkgFiles (readFiles [(3, { version := ['2'], release := ['1'], deps := [{ package := 4 }] })]) Sched.plain
      { dependentWorld with repo := [(4, { version := ['2'], release := ['1'], deps := [{ package := 2 }] })] } = .ok w' ∧
    w'.installedSatisfies { package := 2, versionTo := some ['1'] } = .ok true ∧ w'.inst.has 4 = true := ⟨_, rfl, rfl, rfl⟩

end Pisi.Plan
