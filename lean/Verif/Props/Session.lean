import Verif.Props.Installed
import Verif.Props.RemovePlan
import Verif.Lemmas.InstallPkgFiles
import Verif.Spec.Session

/-!
# Commands on the databases: C197, C198
-/
namespace Pisi.DB
open Pisi.PlanSpec Pisi.Plan Pisi.DBSpec
variable {α ρ : Type} [DecidableEq α]

theorem get_filterMap {κ ν μ : Type} [DecidableEq κ] (g : ν → Option μ) (d : Dict κ ν) (h : d.Uniq) (k : κ) :
    Dict.get (d.filterMap (fun e => (g e.2).map (fun x => (e.1, x)))) k = (d.get k).bind g := by
  induction d with
  | nil => rfl
  | cons e d ih =>
    obtain ⟨a, v⟩ := e
    have hu : Dict.Uniq d := by
      unfold Dict.Uniq Dict.keys at h ⊢
      simp only [List.map_cons, List.nodup_cons] at h
      exact h.2
    have hn : Dict.get d a = none := by
      unfold Dict.Uniq at h
      simp only [Dict.keys, List.map_cons, List.nodup_cons] at h
      cases hg : Dict.get d a with
      | none => rfl
      | some w => exact absurd ((Dict.mem_keys d a).mpr (by rw [hg]; rfl)) h.1
    have ih := ih hu
    simp only [List.filterMap_cons, Dict.get]
    cases hv : g v with
    | none =>
      simp only [Option.map_none]
      rw [ih]
      by_cases hk : a = k
      · rw [if_pos hk, ← hk, hn]; simp [hv]
      · rw [if_neg hk]
    | some w =>
      simp only [Option.map_some, Dict.get]
      by_cases hk : a = k
      · rw [if_pos hk, if_pos hk]; simp [hv]
      · rw [if_neg hk, if_neg hk, ih]

/-- What the planners read of installed packages. -/
theorem world_reads {b : Both α ρ} {f : α → Option (Meta α)} (h : BothInv b f) (x : α) :
    b.world.track.get x = (f x).map (·.info) ∧ ((∃ i, b.world.inst.get x = some i) ↔ ∃ m, f x = some m) ∧
    b.world.inst.has x = b.inst.isInstalled x ∧ (b.world.revInst.get x).getD [] = rv b.sys.stores.rev .installed x := by
  obtain ⟨l, hl⟩ := h.sys
  have ht : b.world.track.get x = (f x).map (·.info) := by
    rw [← h.cell x]
    have := get_filterMap (fun s : Dict RepoId (Meta α) => (s.get .installed).map (·.info)) b.sys.stores.pkg hl.wf.pkg.uniq x
    simp only [Option.map_map] at this
    unfold Both.world ItemDB.cell
    simp only
    refine Eq.trans this ?_
    cases b.sys.stores.pkg.get x <;> rfl
  have hi : (b.world.inst.get x).isSome = b.inst.isInstalled x := by
    have := get_filterMap (fun i : InstInfo Ver => if InstallDB.counts i then
      some (⟨i.ver.1, i.ver.2.1, i.ver.2.2⟩ : InstRec) else none) b.inst.d h.uniq x
    have e : (fun e : α × InstInfo Ver => (if InstallDB.counts e.2 then
      some (⟨e.2.ver.1, e.2.ver.2.1, e.2.ver.2.2⟩ : InstRec) else none).map (fun x => (e.1, x))) =
      (fun e : α × InstInfo Ver => if InstallDB.counts e.2 then some (e.1, (⟨e.2.ver.1, e.2.ver.2.1, e.2.ver.2.2⟩ : InstRec)) else none) := by
      funext e
      by_cases hc : InstallDB.counts e.2 = true
      · rw [if_pos hc, if_pos hc]; rfl
      · rw [if_neg hc, if_neg hc]; rfl
    rw [e] at this
    unfold Both.world
    simp only
    rw [this, isInstalled_ver]
    unfold instVer
    cases b.inst.d.get x with
    | none => rfl
    | some i =>
      simp only [Option.bind_some, Option.filter]
      by_cases hc : InstallDB.counts i = true
      · simp [hc]
      · simp [hc]
  refine ⟨ht, ?_, ?_, ?_⟩
  · rw [← Option.isSome_iff_exists, hi, isInstalled_ver, h.ver]
    cases f x <;> simp
  · exact hi
  · have := get_filterMap (fun s : Dict RepoId (List (α × Dep α)) => s.get .installed) b.sys.stores.rev hl.wf.rev.uniq x
    unfold Both.world rv ItemDB.cell
    simp only
    rw [this]

/-- Every dependency of the pairs in `P` has a record. -/
def RevCompleteOn (P : α → α → Prop) (s : Stores α) (r : RepoId) : Prop :=
  ∀ x y m, P x y → s.pkg.cell y r = some m → DependsOn m x → ∃ d, (y, d) ∈ rv s.rev r x

theorem removePackage_completeOn {s s' : Stores α} (P : α → α → Prop) (h : s.WF) (r : RepoId) (n : α) (hs : RevCompleteOn P s r)
    (hl : ∀ y m, P n y → s.pkg.cell y r = some m → DependsOn m n → y = n) (ha : removePackage r s n = .ok s') :
    RevCompleteOn P s' r := by
  cases hc : s.pkg.cell n r with
  | none => rw [removePackage_absent s r n hc] at ha; cases ha
  | some m =>
    obtain ⟨_, _, _, _, c, _, v1, v2, v3⟩ := removePackage_spec h r n m hc ha
    intro x y m1 hP hm1 hdep
    rw [c] at hm1
    by_cases hy : y = n
    · rw [if_pos hy] at hm1; cases hm1
    · rw [if_neg hy] at hm1
      have hx : x ≠ n := fun e => hy (hl y m1 (e ▸ hP) hm1 (e ▸ hdep))
      obtain ⟨d, hd⟩ := hs x y m1 hP hm1 hdep
      refine ⟨d, ?_⟩
      by_cases hdd : ∃ d ∈ m.info.deps, d.package = x
      · rw [v2 x hx hdd]; exact List.mem_filter.mpr ⟨hd, by simpa using hy⟩
      · rw [v1 x hx (fun d hd1 hd2 => hdd ⟨d, hd1, hd2⟩)]; exact hd

theorem revSound_off {s s' : Stores α} {r q : RepoId} (o : s.SameOff r s') (hq : q ≠ r) (h : RevSound s q) : RevSound s' q := by
  intro x y d hm
  rw [show rv s'.rev q x = rv s.rev q x by unfold rv; rw [o.rev x q hq]] at hm
  rw [o.pkg y q hq]
  exact h x y d hm

theorem revComplete_off {s s' : Stores α} {r q : RepoId} (P : α → α → Prop) (o : s.SameOff r s') (hq : q ≠ r) (h : RevCompleteOn P s q) :
    RevCompleteOn P s' q := by
  intro x y m hP hm hd
  rw [o.pkg y q hq] at hm
  rw [show rv s'.rev q x = rv s.rev q x by unfold rv; rw [o.rev x q hq]]
  exact h x y m hP hm hd

theorem removeTracking_rev {s s' : Stores α} (P : α → α → Prop) (hw : s.WF) (n : α) (hi : RevSound s .installed)
    (hc : RevCompleteOn P s .installed) (hl : ∀ y m, P n y → s.pkg.cell y .installed = some m → DependsOn m n → y = n)
    (hr : removeTracking s n = .ok s') : RevSound s' .installed ∧ RevCompleteOn P s' .installed := by
  unfold removeTracking at hr
  simp only [hasKey_one] at hr
  have first : ∃ s1, (if (s.pkg.cell n .installed).isSome = true then removePackage .installed s n else .ok s) = .ok s1 ∧
      s1.WF ∧ RevSound s1 .installed ∧ RevCompleteOn P s1 .installed := by
    cases h1 : s.pkg.cell n .installed with
    | none => exact ⟨s, rfl, hw, hi, hc⟩
    | some m =>
      rw [h1] at hr
      simp only [Option.isSome_some, if_true] at hr ⊢
      cases h2 : removePackage .installed s n with
      | error e => rw [h2] at hr; cases hr
      | ok s1 =>
        exact ⟨s1, rfl, (removePackage_spec hw _ n m h1 h2).1, removePackage_sound hw _ n hi h2,
          removePackage_completeOn P hw _ n hc hl h2⟩
  obtain ⟨s1, e1, w1, i1, c1⟩ := first
  rw [e1] at hr
  simp only at hr
  cases h1 : s1.pkg.cell n .thirdparty with
  | none => rw [h1] at hr; cases hr; exact ⟨i1, c1⟩
  | some m =>
    rw [h1] at hr
    simp only [Option.isSome_some, if_true] at hr
    obtain ⟨_, o, _⟩ := removePackage_spec w1 _ n m h1 hr
    exact ⟨revSound_off o (by simp) i1, revComplete_off P o (by simp) c1⟩

/-- What holds after gentle commands: both databases agree, the reverse dependencies are recorded except for those on packages in `F`, the
dependencies are met. -/
structure SInv (F : α → Prop) (b : Both α ρ) (f : α → Option (Meta α)) : Prop where
  both : BothInv b f
  sound : RevSound b.sys.stores .installed
  complete : RevCompleteOn (fun x _ => ¬ F x) b.sys.stores .installed
  cons : Consistent f

theorem satisfied_iff {b : Both α ρ} {f : α → Option (Meta α)} (h : BothInv b f) (d : Dep α) :
    Satisfied b.world d ↔ ∃ m, f d.package = some m ∧ Meets d m.info := by
  obtain ⟨ht, hi, _⟩ := world_reads h d.package
  unfold Satisfied
  rw [hi, ht]
  constructor
  · rintro ⟨⟨m, hm⟩, p, hp, hme⟩
    rw [hm] at hp
    cases hp
    exact ⟨m, hm, hme⟩
  · rintro ⟨m, hm, hme⟩
    exact ⟨⟨m, hm⟩, m.info, by rw [hm]; rfl, hme⟩

/-- The planner's dependents are installed packages with a dependency. -/
theorem dependent_sound {F : α → Prop} {b : Both α ρ} {f : α → Option (Meta α)} (h : SInv F b f) (x y : α)
    (hd : Dependent b.world x y) : DependsDirectly f x y := by
  obtain ⟨_, _, _, hrev⟩ := world_reads h.both x
  obtain ⟨d, ⟨rs, hrs, hm⟩, _, _⟩ := hd
  rw [hrs] at hrev
  simp only [Option.getD_some] at hrev
  rw [hrev] at hm
  obtain ⟨m, h1, h2, h3⟩ := h.sound x y d hm
  rw [h.both.cell] at h1
  exact ⟨d, ⟨m, h1, h2⟩, h3⟩

/-- Those of packages outside `F` are all known. -/
theorem dependent_complete {F : α → Prop} {b : Both α ρ} {f : α → Option (Meta α)} (h : SInv F b f) (x y : α) (hx : ¬ F x)
    (hd : DependsDirectly f x y) : Dependent b.world x y := by
  obtain ⟨_, _, _, hrev⟩ := world_reads h.both x
  obtain ⟨d0, ⟨m, h1, h2⟩, h3⟩ := hd
  obtain ⟨d, hd⟩ := h.complete x y m hx (by rw [h.both.cell]; exact h1) ⟨d0, h2, h3⟩
  obtain ⟨m', g1, g2, g3⟩ := h.sound x y d hd
  rw [h.both.cell, h1] at g1
  cases g1
  refine ⟨d, ?_, ⟨m.info, by rw [(world_reads h.both y).1, h1]; rfl⟩, (satisfied_iff h.both d).mpr (h.cons y d ⟨m, h1, g2⟩)⟩
  rw [← hrev] at hd
  cases hr : b.world.revInst.get x with
  | none => rw [hr] at hd; cases hd
  | some rs => rw [hr] at hd; exact ⟨rs, rfl, hd⟩

theorem removeDb_stores {b b' : Both α ρ} {p : α} (h : b.removeDb p = some b') :
    removeTracking b.sys.stores p = .ok b'.sys.stores := by
  unfold Both.removeDb at h
  cases h1 : b.inst.remove p with
  | error e => rw [h1] at h; cases h
  | ok i =>
    rw [h1] at h
    cases h2 : removeTracking b.sys.stores p with
    | error e => rw [h2] at h; cases h
    | ok s => rw [h2] at h; cases h; rfl

/-- Removing packages on which no other than those to be removed depend. -/
theorem removeLoop_keeps (P : α → α → Prop) (l : List α) (b : Both α ρ) (f : α → Option (Meta α)) (hb : BothInv b f)
    (hs : RevSound b.sys.stores .installed) (hc : RevCompleteOn P b.sys.stores .installed)
    (hP : ∀ y x, P x y → x ∈ l → ¬ DependsDirectly f x y) :
    ∃ g, BothInv (b.removeLoop l) g ∧ (∀ x, g x = if x ∈ l then none else f x) ∧
      RevSound (b.removeLoop l).sys.stores .installed ∧ RevCompleteOn P (b.removeLoop l).sys.stores .installed := by
  induction l generalizing b f with
  | nil => exact ⟨f, hb, by simp, hs, hc⟩
  | cons p ps ih =>
    unfold Both.removeLoop
    by_cases hi : b.inst.isInstalled p = true
    · obtain ⟨b', e, hb'⟩ := inv_removeDb hb hi
      obtain ⟨l, hl⟩ := hb.sys
      obtain ⟨s1, c1⟩ := removeTracking_rev P hl.wf p hs hc (fun y m h1 h2 ⟨d, h3, h4⟩ => by
        exact absurd ⟨d, ⟨m, by rw [← hb.cell]; exact h2, h3⟩, h4⟩ (hP y p h1 (by simp))) (removeDb_stores e)
      rw [if_pos hi, e]
      simp only
      obtain ⟨g, g1, g2, g3⟩ := ih b' _ hb' s1 c1 (fun y x hy hx ⟨d, ⟨m, h1, h2⟩, h3⟩ => by
        simp only at h1
        by_cases hyp : y = p
        · rw [if_pos hyp] at h1; cases h1
        · rw [if_neg hyp] at h1
          exact hP y x hy (by simp [hx]) ⟨d, ⟨m, h1, h2⟩, h3⟩)
      refine ⟨g, g1, fun x => ?_, g3⟩
      rw [g2 x]
      by_cases hx : x = p
      · simp [hx]
      · simp [hx]
    · rw [if_neg hi]
      obtain ⟨g, g1, g2, g3⟩ := ih b f hb hs hc (fun y x hy hx => hP y x hy (by simp [hx]))
      refine ⟨g, g1, fun x => ?_, g3⟩
      rw [g2 x]
      have hn : f p = none := by
        rw [isInstalled_ver, hb.ver] at hi
        cases hf : f p with
        | none => rfl
        | some m => rw [hf] at hi; simp at hi
      by_cases hx : x = p
      · subst hx; simp [hn]
      · simp [hx]

theorem getInstalled_eq {b : Both α ρ} {f : α → Option (Meta α)} (h : BothInv b f) : b.getInstalled = f := by
  funext p
  unfold Both.getInstalled
  rw [getItem_one, h.cell]
  cases f p <;> rfl

theorem isInstalled_f {b : Both α ρ} {f : α → Option (Meta α)} (h : BothInv b f) (p : α) :
    b.inst.isInstalled p = true ↔ ∃ m, f p = some m := by
  rw [isInstalled_ver, h.ver, Option.isSome_map, Option.isSome_iff_exists]

/-- Removing a set of packages that contains everything that depends on it. -/
theorem removeLoop_inv {F : α → Prop} {b : Both α ρ} {f : α → Option (Meta α)} (h : SInv F b f) (l : List α)
    (hl : ∀ x y, x ∈ l → DependsDirectly f x y → y ∈ l) :
    ∃ g, SInv F (b.removeLoop l) g ∧ ∀ x, g x = if x ∈ l then none else f x := by
  obtain ⟨g, g1, g2, g3, g4⟩ := removeLoop_keeps (fun x y => ¬ F x ∧ y ∉ l) l b f h.both h.sound
    (fun x y m hp hm hd => h.complete x y m hp.1 hm hd) (fun y x hy hx hd => hy.2 (hl x y hx hd))
  refine ⟨g, ⟨g1, g3, ?_, ?_⟩, g2⟩
  · intro x y m hx hm hd
    refine g4 x y m ⟨hx, fun hy => ?_⟩ hm hd
    rw [g1.cell, g2, if_pos hy] at hm
    cases hm
  · rintro y d ⟨m, hm, hd⟩
    rw [g2] at hm
    by_cases hy : y ∈ l
    · rw [if_pos hy] at hm; cases hm
    · rw [if_neg hy] at hm
      obtain ⟨k, h1, h2⟩ := h.cons y d ⟨m, hm, hd⟩
      refine ⟨k, ?_, h2⟩
      rw [g2, if_neg (fun hx => hy (hl _ y hx ⟨d, ⟨m, hm, hd⟩, rfl⟩))]
      exact h1

/-- `--dry-run` and the answer no only lead to nothing being done. -/
theorem removeCmd_cases (w : World α) (σ : Sched α) (o : RemoveOpts) (base : Option (List α)) (A l : List α)
    (h : removeCmd w σ o base A = .ok l) :
    l = [] ∨ removeCmd w σ { o with confirm := true, dryRun := false } base A = .ok l := by
  unfold removeCmd at h ⊢
  dsimp only at h ⊢
  have e : removeRequest w { o with confirm := true, dryRun := false } base A = removeRequest w o base A := rfl
  rw [e]
  by_cases h1 : removeRequest w o base A = []
  · rw [if_pos h1] at h; cases h; exact Or.inl rfl
  · rw [if_neg h1] at h ⊢
    cases h2 : (if o.ignoreDep = true then Except.ok (σ.front (removeRequest w o base A)) else planRemove w σ (removeRequest w o base A)) with
    | error e => rw [h2] at h; cases h
    | ok order =>
      rw [h2] at h
      simp only at h ⊢
      by_cases h3 : order.length > A.length ∧ o.confirm = false
      · rw [if_pos h3] at h; cases h; exact Or.inl rfl
      · rw [if_neg h3] at h
        by_cases h4 : o.dryRun = true
        · rw [if_pos h4] at h; cases h; exact Or.inl rfl
        · rw [if_neg h4] at h
          right
          rw [if_neg (by simp)]
          exact h

omit [DecidableEq α] in
theorem meets_testable {d : Dep α} {p : PkgInfo α} (h : Meets d p) : Testable d p := by
  obtain ⟨v, r, hv, hr, hs⟩ := h
  refine ⟨⟨v, hv⟩, ⟨r, hr⟩, ?_⟩
  intro o ho b hb
  simp only [List.mem_cons, List.not_mem_nil, or_false] at ho
  rcases ho with rfl | rfl | rfl | rfl | rfl | rfl
  · exact (hs.version b hb).imp fun _ h => h.1
  · exact (hs.versionFrom b hb).imp fun _ h => h.1
  · exact (hs.versionTo b hb).imp fun _ h => h.1
  · exact (hs.release b hb).imp fun _ h => h.1
  · exact (hs.releaseFrom b hb).imp fun _ h => h.1
  · exact (hs.releaseTo b hb).imp fun _ h => h.1

theorem request_mem (w : World α) (o : RemoveOpts) (base : Option (List α)) (A : List α) (a : α) :
    a ∈ removeRequest w o base A ↔ a ∈ A ∧ w.isInstalled a = true ∧ (o.bypassSafety = false → ∀ b, base = some b → a ∉ b) := by
  unfold removeRequest
  cases o.bypassSafety <;> cases base <;> simp [and_comm]

/-- Planning a removal succeeds. -/
theorem plan_succeeds {F : α → Prop} {b : Both α ρ} {f : α → Option (Meta α)} (h : SInv F b f) (σ : Sched α) (hσ : σ.Legal) (A : List α) (hA : A.Nodup)
    (hi : ∀ a ∈ A, ∃ m, f a = some m) : ∃ order, planRemove b.world σ A = .ok order := by
  refine (remove_plan_succeeds_iff b.world σ hσ A hA).mpr (fun x hx => ?_)
  obtain ⟨a, ha, hr⟩ := hx
  have hxi : ∃ m, f x = some m := by
    rcases Relation.ReflTransGen.cases_tail hr with he | ⟨y, _, hy⟩
    · exact he ▸ hi a ha
    · obtain ⟨d, ⟨m, hm, _⟩, _⟩ := dependent_sound h y x hy
      exact ⟨m, hm⟩
  obtain ⟨m, hm⟩ := hxi
  refine ⟨⟨m.info, by rw [(world_reads h.both x).1, hm]; rfl⟩, ?_⟩
  intro rs hrs y d hd _ _
  have hrev := (world_reads h.both x).2.2.2
  rw [hrs] at hrev
  simp only [Option.getD_some] at hrev
  rw [hrev] at hd
  obtain ⟨k, g1, g2, g3⟩ := h.sound x y d hd
  rw [h.both.cell] at g1
  obtain ⟨q, q1, q2⟩ := h.cons y d ⟨k, g1, g2⟩
  exact ⟨q.info, by rw [(world_reads h.both d.package).1, q1]; rfl, meets_testable q2⟩

theorem request_nodup (w : World α) (o : RemoveOpts) (base : Option (List α)) (A : List α) (hA : A.Nodup) :
    (removeRequest w o base A).Nodup := by
  unfold removeRequest
  apply List.Nodup.filter
  cases o.bypassSafety
  · cases base
    · exact hA
    · exact hA.filter _
  · exact hA

theorem removeCmd_succeeds {F : α → Prop} {b : Both α ρ} {f : α → Option (Meta α)} (h : SInv F b f) (σ : Sched α) (hσ : σ.Legal) (o : RemoveOpts)
    (ho : o.ignoreDep = false) (base : Option (List α)) (A : List α) (hA : A.Nodup) : ∃ l, removeCmd b.world σ o base A = .ok l := by
  obtain ⟨order, e⟩ := plan_succeeds h σ hσ (removeRequest b.world o base A) (request_nodup _ _ _ _ hA) (fun a ha => by
    have := ((request_mem _ _ _ _ a).mp ha).2.1
    exact (isInstalled_f h.both a).mp (by rw [← (world_reads h.both a).2.2.1]; exact this))
  unfold removeCmd
  dsimp only
  by_cases h1 : removeRequest b.world o base A = []
  · rw [if_pos h1]; exact ⟨_, rfl⟩
  · rw [if_neg h1, ho, if_neg (by simp), e]
    simp only
    split
    · exact ⟨_, rfl⟩
    · split
      · exact ⟨_, rfl⟩
      · exact ⟨_, rfl⟩

/-- Following the records leads to the same packages as following the dependencies. -/
theorem goes_iff {F : α → Prop} {b : Both α ρ} {f : α → Option (Meta α)} (h : SInv F b f) (o : RemoveOpts) (base : Option (List α)) (A : List α)
    (hF : ∀ x, Goes f o base A x → F x → ¬ Depended f x) (a x : α) (ha : Asked f o base A a) :
    Relation.ReflTransGen (Dependent b.world) a x ↔ Relation.ReflTransGen (DependsDirectly f) a x := by
  constructor
  · exact Relation.ReflTransGen.mono (fun p q hpq => dependent_sound h p q hpq) a x
  · intro hr
    induction hr with
    | refl => exact Relation.ReflTransGen.refl
    | @tail y z hy hyz ih =>
      by_cases hf : F y
      · by_cases e : z = y
        · rw [e]; exact ih
        · exact absurd ⟨z, e, hyz⟩ (hF y ⟨a, ha, hy⟩ hf)
      · exact ih.tail (dependent_complete h y z hf hyz)

theorem removeCmd_mem {F : α → Prop} {b : Both α ρ} {f : α → Option (Meta α)} (h : SInv F b f) (σ : Sched α) (hσ : σ.Legal) (o : RemoveOpts)
    (ho : o.ignoreDep = false) (hc : o.confirm = true) (hd : o.dryRun = false) (base : Option (List α)) (A : List α) (hA : A.Nodup)
    (hF : ∀ x, Goes f o base A x → F x → ¬ Depended f x)
    (l : List α) (hl : removeCmd b.world σ o base A = .ok l) (x : α) : x ∈ l ↔ Goes f o base A x := by
  have hinst : ∀ y, b.world.isInstalled y = true ↔ ∃ m, f y = some m := fun y => by
    rw [← isInstalled_f h.both y, ← (world_reads h.both y).2.2.1]; rfl
  rw [remove_cmd_exact b.world σ hσ o base A hA hc hd l hl x]
  simp only [ho, Bool.false_eq_true, if_false]
  constructor
  · rintro ⟨_, a, ha, hi, hs, hr⟩
    have hk : Asked f o base A a := ⟨ha, (hinst a).mp hi, fun hb k hk => by
      rcases hs with hs | hs
      · rw [hb] at hs; cases hs
      · exact hs k hk⟩
    exact ⟨a, hk, (goes_iff h o base A hF a x hk).mp hr⟩
  · rintro ⟨a, hk, hr⟩
    have hr' := (goes_iff h o base A hF a x hk).mpr hr
    obtain ⟨ha, hi, hs⟩ := hk
    refine ⟨?_, a, ha, (hinst a).mpr hi, ?_, hr'⟩
    · rcases Relation.ReflTransGen.cases_tail hr with he | ⟨y, _, d, ⟨m, hm, _⟩, _⟩
      · rw [he]; exact (hinst a).mpr hi
      · exact (hinst x).mpr ⟨m, hm⟩
    · cases hb : o.bypassSafety with
      | true => exact Or.inl rfl
      | false => exact Or.inr (hs hb)

theorem removeNames_inv {F : α → Prop} {b : Both α ρ} {f : α → Option (Meta α)} (h : SInv F b f) (σ : Sched α) (hσ : σ.Legal) (o : RemoveOpts)
    (ho : o.ignoreDep = false) (base : Option (List α)) (A : List α) (hA : A.Nodup)
    (hF : ∀ x, Goes f o base A x → F x → ¬ Depended f x) :
    ∃ g, SInv F (b.removeNames σ o base A) g := by
  obtain ⟨l, hl⟩ := removeCmd_succeeds h σ hσ o ho base A hA
  unfold Both.removeNames
  rw [hl]
  simp only
  rcases removeCmd_cases _ _ _ _ _ _ hl with rfl | hl'
  · exact ⟨f, h⟩
  · obtain ⟨g, hg, _⟩ := removeLoop_inv h l (fun x y hx hxy => by
      rw [removeCmd_mem h σ hσ { o with confirm := true, dryRun := false } ho rfl rfl base A hA hF l hl'] at hx ⊢
      obtain ⟨a, ha, hr⟩ := hx
      exact ⟨a, ha, hr.tail hxy⟩)
    exact ⟨g, hg⟩

theorem complete_added {s s' : Stores α} (h : s.WF) {r : RepoId} (m : Meta α) (ha : addPackage r s m = .ok s') (Q : α → Prop)
    (hs : RevCompleteOn (fun x y => Q x ∧ y ≠ m.name) s r) : RevCompleteOn (fun x _ => Q x) s' r := by
  obtain ⟨_, _, _, _, c, v1, v2⟩ := (addPackage_spec h r m).2 s' ha
  intro x y m1 hx hm1 hd
  rw [c] at hm1
  by_cases hy : y = m.name
  · rw [if_pos hy] at hm1
    cases hm1
    rcases last_dep m.info.deps x with hno | ⟨a, d', b, he, rfl, hb⟩
    · obtain ⟨d, hd1, hd2⟩ := hd; exact absurd hd2 (hno d hd1)
    · exact ⟨d', by rw [v2 a d' b he hb, hy]; simp⟩
  · rw [if_neg hy] at hm1
    obtain ⟨d, hd⟩ := hs x y m1 ⟨hx, hy⟩ hm1 hd
    refine ⟨d, ?_⟩
    rcases last_dep m.info.deps x with hno | ⟨a, d', b, he, rfl, hb⟩
    · rw [v1 x hno]; exact hd
    · rw [v2 a d' b he hb]
      exact List.mem_append.mpr (Or.inl (List.mem_filter.mpr ⟨hd, by simpa using hy⟩))

theorem suits_iff {f : α → Option (Meta α)} {m : Meta α} (hc : Consistent f) (ha : Accepted f m false) :
    Consistent (fun p => if p = m.name then some m else f p) ↔ Suits f m := by
  constructor
  · intro h
    refine ⟨fun y d hy ⟨k, hk, hd⟩ hp => ?_, fun d hd hp => ?_⟩
    · obtain ⟨q, q1, q2⟩ := h y d ⟨k, by simp only [if_neg hy]; exact hk, hd⟩
      simp only [if_pos hp, Option.some.injEq] at q1
      exact q1 ▸ q2
    · obtain ⟨q, q1, q2⟩ := h m.name d ⟨m, by simp, hd⟩
      simp only [if_pos hp, Option.some.injEq] at q1
      exact q1 ▸ q2
  · rintro ⟨h1, h2⟩ y d ⟨k, hk, hd⟩
    simp only at hk ⊢
    by_cases hp : d.package = m.name
    · refine ⟨m, by rw [if_pos hp], ?_⟩
      by_cases hy : y = m.name
      · rw [if_pos hy] at hk
        cases hk
        exact h2 d hd hp
      · rw [if_neg hy] at hk
        exact h1 y d hy ⟨k, hk, hd⟩ hp
    · rw [if_neg hp]
      by_cases hy : y = m.name
      · rw [if_pos hy] at hk
        cases hk
        rcases ha.2 with hh | hh
        · cases hh
        · exact hh d hd
      · rw [if_neg hy] at hk
        exact hc y d ⟨k, hk, hd⟩

/-- The states of the databases that `update_databases` makes of consistent ones. -/
theorem update_inv {F : α → Prop} {b : Both α ρ} {f : α → Option (Meta α)} (h : SInv F b f) (m : Meta α) (later : Bool)
    (hm : m.info.compDeps = [] ∧ m.partOf.isSome)
    (hcons : Consistent (fun q => if q = m.name then some m else f q)) :
    SInv (fun x => F x ∨ (x = m.name ∧ Depended f x)) ((b.updateDatabases m later).getD b) (fun q => if q = m.name then some m else f q) := by
  have hall := both_step h.both (.install m later : BothOp α ρ)
  simp only [BothOp.step, installedStep, hm, and_self, if_true] at hall
  have rest : ∃ b1 : Both α ρ, (if b.inst.isInstalled m.name = true then b.removeDb m.name else some b) = some b1 ∧
      BothInv b1 (fun q => if q = m.name then none else f q) ∧ RevSound b1.sys.stores .installed ∧
      RevCompleteOn (fun x y => ¬ (F x ∨ (x = m.name ∧ Depended f x)) ∧ y ≠ m.name) b1.sys.stores .installed := by
    by_cases hi : b.inst.isInstalled m.name = true
    · obtain ⟨b', e, hb'⟩ := inv_removeDb h.both hi
      obtain ⟨l, hl⟩ := h.both.sys
      obtain ⟨s1, c1⟩ := removeTracking_rev (fun x y => ¬ (F x ∨ (x = m.name ∧ Depended f x)) ∧ y ≠ m.name) hl.wf m.name h.sound
        (fun x y k hp hk hd => h.complete x y k (fun hf => hp.1 (Or.inl hf)) hk hd)
        (fun y k hp hk ⟨d, h3, h4⟩ => by
          exact absurd (Or.inr ⟨rfl, y, hp.2, d, ⟨k, by rw [← h.both.cell]; exact hk, h3⟩, h4⟩) hp.1) (removeDb_stores e)
      exact ⟨b', by rw [if_pos hi]; exact e, hb', s1, c1⟩
    · refine ⟨b, by rw [if_neg hi], ?_, h.sound, fun x y k hp hk hd => h.complete x y k (fun hf => hp.1 (Or.inl hf)) hk hd⟩
      have hn : f m.name = none := by
        cases hf : f m.name with
        | none => rfl
        | some k => exact absurd ((isInstalled_f h.both m.name).mpr ⟨k, hf⟩) hi
      have e : (fun q => if q = m.name then none else f q) = f := by
        funext q
        by_cases hq : q = m.name
        · rw [if_pos hq, hq, hn]
        · rw [if_neg hq]
      rw [e]
      exact h.both
  obtain ⟨b1, e, hb1, hs1, hc1⟩ := rest
  have hni : b1.inst.isInstalled m.name = false := by
    rw [isInstalled_ver, hb1.ver]; simp
  obtain ⟨d, s, e1, e2, _⟩ := inv_add hb1 later hni hm
  obtain ⟨l, hl⟩ := hb1.sys
  have eu : (b.updateDatabases m later).getD b = ⟨d, { b1.sys with stores := s }⟩ := by
    unfold Both.updateDatabases
    simp only [e, e1, e2, Option.getD_some]
  rw [eu] at hall ⊢
  refine ⟨hall, addPackage_sound hl.wf _ m hs1 (by rw [hb1.cell]; simp) e2, ?_, hcons⟩
  exact complete_added hl.wf m e2 _ hc1

theorem installSingle_none {b : Both α ρ} {f : α → Option (Meta α)} (h : BothInv b f) (m : Meta α) (later ig : Bool)
    (ha : ¬ Accepted f m ig) : b.installSingle m later ig = b := by
  unfold Both.installSingle PkgInfo.runtimeDeps
  by_cases hc : m.info.compDeps = []
  case neg => rw [if_neg hc]
  case pos =>
    rw [if_pos hc]
    by_cases hp : m.partOf.isSome = true
    case neg =>
      have e : b.updateDatabases m later = none := by
        unfold Both.updateDatabases
        by_cases hi : b.inst.isInstalled m.name = true
        · obtain ⟨b', e, hb'⟩ := inv_removeDb h hi
          obtain ⟨l', hl'⟩ := hb'.sys
          simp only [hi, if_true, e]
          cases b'.inst.install m.name m.ver later with
          | error _ => rfl
          | ok d =>
            cases ha : addPackage .installed b'.sys.stores m with
            | error _ => rfl
            | ok s => exact absurd ((addPackage_spec hl'.wf .installed m).1.1 ⟨s, ha⟩).2 hp
        · have hn : b.inst.isInstalled m.name = false := by simpa using hi
          obtain ⟨l, hl⟩ := h.sys
          simp only [hn]
          cases hin : b.inst.install m.name m.ver later with
          | error _ => simp [hin]
          | ok d =>
            cases ha : addPackage .installed b.sys.stores m with
            | error _ => simp [hin, ha]
            | ok s => exact absurd ((addPackage_spec hl.wf .installed m).1.1 ⟨s, ha⟩).2 hp
      rw [e]
      simp only [Option.getD_none]
      split <;> rfl
    case pos =>
      simp only
      split
      · rename_i e
        refine absurd ⟨⟨hc, hp⟩, ?_⟩ ha
        cases ig with
        | true => exact Or.inl rfl
        | false =>
          simp only [Bool.false_eq_true, if_false] at e
          exact Or.inr fun d hd => (satisfied_iff h d).mp ((satDeps_iff _ _).mp e d hd)
      · rfl

theorem install_inv {F : α → Prop} {b : Both α ρ} {f : α → Option (Meta α)} (h : SInv F b f) (m : Meta α) (later : Bool)
    (hg : Accepted f m false → Suits f m) :
    ∃ g, SInv (fun x => F x ∨ (x = m.name ∧ Accepted f m false ∧ Depended f x)) (b.installSingle m later false) g := by
  by_cases ha : Accepted f m false
  · have hu := update_inv h m later ha.1 ((suits_iff h.cons ha).mpr (hg ha))
    have e : b.installSingle m later false = (b.updateDatabases m later).getD b := by
      unfold Both.installSingle PkgInfo.runtimeDeps
      rw [if_pos ha.1.1]
      have hs : installOne.satDeps b.world m.info.deps = .ok true := by
        rw [satDeps_iff]
        rcases ha.2 with hh | hh
        · cases hh
        · exact fun d hd => (satisfied_iff h.both d).mpr (hh d hd)
      simp only [Bool.false_eq_true, if_false, hs]
    rw [e]
    exact ⟨_, hu.both, hu.sound, fun x y k hx => hu.complete x y k (fun hf => hx (hf.imp id fun hh => ⟨hh.1, ha, hh.2⟩)), hu.cons⟩
  · rw [installSingle_none h.both m later false ha]
    exact ⟨f, h.both, h.sound, fun x y k hx => h.complete x y k (fun hf => hx (Or.inl hf)), h.cons⟩

/-- The other operations leave the installed packages alone. -/
theorem other_inv {F : α → Prop} {b : Both α ρ} {f : α → Option (Meta α)} (h : SInv F b f) (op : BothOp α ρ) (hp : Plain (.other op : Cmd α ρ)) :
    SInv F (op.step b) f := by
  have hb := both_step h.both op
  obtain ⟨l, hl⟩ := h.both.sys
  have off : ∀ (r : RepoId) (s : Stores α), RepoId.installed ≠ r → b.sys.stores.SameOff r s →
      RevSound s .installed ∧ RevCompleteOn (fun x _ => ¬ F x) s .installed := fun r s hr ho =>
    ⟨revSound_off ho hr h.sound, revComplete_off _ ho hr h.complete⟩
  have fin : (RevSound (op.step b).sys.stores .installed ∧ RevCompleteOn (fun x _ => ¬ F x) (op.step b).sys.stores .installed) →
      installedStep f op = f → SInv F (op.step b) f := fun hh he => ⟨he ▸ hb, hh.1, hh.2, h.cons⟩
  cases op with
  | install m later => exact absurd hp id
  | remove p => exact absurd hp id
  | configured p => exact fin ⟨h.sound, h.complete⟩ rfl
  | thirdparty m =>
    refine fin ?_ rfl
    simp only [BothOp.step, SysOp.step]
    cases ha : addPackage .thirdparty b.sys.stores m with
    | error e => exact ⟨h.sound, h.complete⟩
    | ok s => exact off .thirdparty s (by simp) ((addPackage_spec hl.wf .thirdparty m).2 s ha).2.1
  | addRepo n x pos =>
    refine fin ?_ rfl
    simp only [BothOp.step, SysOp.step]
    cases b.sys.repos.addRepo n x pos <;> exact ⟨h.sound, h.complete⟩
  | removeRepo n =>
    refine fin ?_ rfl
    simp only [BothOp.step, SysOp.step]
    rcases removeRepo_sys hl n with ⟨e, _⟩ | ⟨_, y', e, _, ho, _⟩
    · rw [e]; exact ⟨h.sound, h.complete⟩
    · rw [e]; exact off (.repo n) _ (by simp) ho
  | updateRepo n ix =>
    refine fin ?_ rfl
    simp only [BothOp.step, SysOp.step, System.updateRepo]
    by_cases hh : b.sys.repos.hasRepo n = true
    · simp only [hh, if_true]
      cases hu : ix.updateDb (.repo n) b.sys.stores with
      | error e => exact ⟨h.sound, h.complete⟩
      | ok s => exact off (.repo n) s (by simp) ((updateDb_spec hl.wf ix (.repo n)).2 s hu).2.1
    · simp only [hh]; exact ⟨h.sound, h.complete⟩

theorem cmd_inv {F : α → Prop} {b : Both α ρ} {f : α → Option (Meta α)} (h : SInv F b f) (c : Cmd α ρ) (hp : Plain c) (hg : Gentle F f c) :
    ∃ g, SInv (fun x => F x ∨ ∃ m later ig, c = .install m later ig ∧ m.name = x ∧ Accepted f m ig ∧ Depended f x) (c.step b) g := by
  have weak : ∀ {b' : Both α ρ} {g : α → Option (Meta α)}, SInv F b' g →
      SInv (fun x => F x ∨ ∃ m later ig, c = .install m later ig ∧ m.name = x ∧ Accepted f m ig ∧ Depended f x) b' g :=
    fun h => ⟨h.both, h.sound, fun x y k hx => h.complete x y k (fun hf => hx (Or.inl hf)), h.cons⟩
  cases c with
  | install m later ig =>
    have : ig = false := hp
    subst this
    obtain ⟨g, hi⟩ := install_inv h m later hg
    exact ⟨g, hi.both, hi.sound, fun x y k hx => hi.complete x y k (fun hf => hx (hf.imp id fun hh =>
      ⟨m, later, false, rfl, hh.1.symm, hh.2.1, hh.2.2⟩)), hi.cons⟩
  | remove σ o base A =>
    obtain ⟨g, hi⟩ := removeNames_inv h σ hp.1 o hp.2.1 base A hp.2.2 hg
    exact ⟨g, weak hi⟩
  | conflict p =>
    obtain ⟨g1, g2, g3, g4, g5⟩ := removeLoop_keeps (fun x y => ¬ F x ∧ y ≠ p) [p] b f h.both h.sound
      (fun x y m hp hm hd => h.complete x y m hp.1 hm hd) (fun y x hy hx hd => by
        simp only [List.mem_singleton] at hx
        subst hx
        exact hg ⟨y, hy.2, hd⟩)
    refine ⟨g1, weak ⟨g2, g4, ?_, ?_⟩⟩
    · intro x y m hx hm hd
      refine g5 x y m ⟨hx, fun hy => ?_⟩ hm hd
      rw [show (Cmd.step b (.conflict p)).sys.stores = (b.removeLoop [p]).sys.stores from rfl, g2.cell, g3, hy] at hm
      simp at hm
    · rintro y d ⟨m, hm, hd⟩
      rw [g3] at hm
      by_cases hy : y = p
      · rw [hy] at hm; simp at hm
      · rw [if_neg (by simpa using hy)] at hm
        obtain ⟨q, q1, q2⟩ := h.cons y d ⟨m, hm, hd⟩
        refine ⟨q, ?_, q2⟩
        rw [g3, if_neg (fun hx => hg ⟨y, hy, d, ⟨m, hm, hd⟩, by simpa using hx⟩)]
        exact q1
  | other op => exact ⟨f, weak (other_inv h op hp)⟩

/-- Commands without `--ignore-dependency` where replacements suit the other packages, and no package is removed that others depend on and
that was replaced while it was depended on, or that others depend on because of a conflict. -/
def GentleRun (cs : List (Cmd α ρ)) : Prop :=
  ∀ pre c post, cs = pre ++ c :: post → Plain c ∧ Gentle (Forgotten pre) (Cmd.run pre).getInstalled c

theorem session_inv (cs : List (Cmd α ρ)) (h : GentleRun cs) : SInv (Forgotten cs) (Cmd.run cs) (Cmd.run cs).getInstalled := by
  have key : ∃ f, SInv (Forgotten cs) (Cmd.run cs) f := by
    induction cs using snoc_induction with
    | h0 =>
      refine ⟨fun _ => none, both_run [], ?_, ?_, ?_⟩
      · intro x y d hm; simp [Cmd.run, rv, cell_nil] at hm
      · intro x y m _ hm; simp [Cmd.run, cell_nil] at hm
      · rintro y d ⟨m, hm, _⟩; cases hm
    | hs l a ih =>
      obtain ⟨f, hf⟩ := ih (fun pre c post e => h pre c (post ++ [a]) (by rw [e]; simp))
      obtain ⟨hp, hg⟩ := h l a [] rfl
      have hfe := getInstalled_eq hf.both
      rw [hfe] at hg
      rw [show Cmd.run (l ++ [a]) = a.step (Cmd.run l) by simp [Cmd.run]]
      obtain ⟨g, hi⟩ := cmd_inv hf a hp hg
      refine ⟨g, hi.both, hi.sound, fun x y k hx => hi.complete x y k (fun hh => hx ?_), hi.cons⟩
      rcases hh with ⟨pre, m, later, ig, post, e, h1, h2, h3⟩ | ⟨m, later, ig, e, h1, h2, h3⟩
      · exact ⟨pre, m, later, ig, post ++ [a], by rw [e]; simp, h1, h2, h3⟩
      · exact ⟨l, m, later, ig, [], by rw [e], h1, by rw [hfe]; exact h2, by rw [hfe]; exact h3⟩
  obtain ⟨f, hf⟩ := key
  rw [getInstalled_eq hf.both]
  exact hf

/-- **C197, full statement.**  Whatever is installed, removed, replaced or updated without `--ignore-dependency`, every dependency of every
installed package is met by an installed package. -/
def SessionFull : Prop := ∀ cs : List (Cmd Nat Unit), (∀ c ∈ cs, Plain c) → Consistent (Cmd.run cs).getInstalled

/-- **C197, proved part.**  It is so if every package that replaces another suits those that depend on it, and nothing is removed that
another installed package depends on because of a conflict, or after it was replaced while it was depended on. -/
theorem session_partial (cs : List (Cmd α ρ)) (h : GentleRun cs) : Consistent (Cmd.run cs).getInstalled := (session_inv cs h).cons

/-- **C198, proved part.**  After such commands a removal that is agreed to does not fail, and if among what goes with it nothing was
forgotten, it removes the packages it was asked for and the installed packages that depend on them, directly or not, and no others. -/
theorem removal_partial (cs : List (Cmd α ρ)) (h : GentleRun cs) (σ : Sched α) (hσ : σ.Legal) (o : RemoveOpts)
    (ho : o.ignoreDep = false) (base : Option (List α)) (A : List α) (hA : A.Nodup) :
    ∃ l, removeCmd (Cmd.run cs).world σ o base A = .ok l ∧ (Cmd.run cs).removeNames σ o base A = (Cmd.run cs).removeLoop l ∧
      (o.confirm = true → o.dryRun = false →
        (∀ x, Goes (Cmd.run cs).getInstalled o base A x → Forgotten cs x → ¬ Depended (Cmd.run cs).getInstalled x) →
        ∀ x, (Goes (Cmd.run cs).getInstalled o base A x → ((Cmd.run cs).removeNames σ o base A).getInstalled x = none) ∧
          (¬ Goes (Cmd.run cs).getInstalled o base A x →
            ((Cmd.run cs).removeNames σ o base A).getInstalled x = (Cmd.run cs).getInstalled x)) := by
  have hs := session_inv cs h
  obtain ⟨l, hl⟩ := removeCmd_succeeds hs σ hσ o ho base A hA
  have e : (Cmd.run cs).removeNames σ o base A = (Cmd.run cs).removeLoop l := by unfold Both.removeNames; rw [hl]
  refine ⟨l, hl, e, fun hc hd hF x => ?_⟩
  have hm := removeCmd_mem hs σ hσ o ho hc hd base A hA hF l hl
  obtain ⟨g, g1, g2⟩ := removeLoop_inv hs l (fun x y hx hxy => by
    rw [hm] at hx ⊢
    obtain ⟨a, ha, hr⟩ := hx
    exact ⟨a, ha, hr.tail hxy⟩)
  rw [e, getInstalled_eq g1.both, ← hm x]
  exact ⟨fun hx => by rw [g2, if_pos hx], fun hx => by rw [g2, if_neg hx]⟩

/-- Every command keeps the two databases in agreement. -/
theorem removeLoop_both (l : List α) : ∀ {b : Both α ρ} {f : α → Option (Meta α)}, BothInv b f → ∃ g, BothInv (b.removeLoop l) g := by
  induction l with
  | nil => exact fun h => ⟨_, h⟩
  | cons p ps ih =>
    intro b f h
    unfold Both.removeLoop
    by_cases hi : b.inst.isInstalled p = true
    · obtain ⟨b', e, hb'⟩ := inv_removeDb h hi
      rw [if_pos hi, e]
      exact ih hb'
    · rw [if_neg hi]
      exact ih h

theorem installSingle_both {b : Both α ρ} {f : α → Option (Meta α)} (h : BothInv b f) (m : Meta α) (later ig : Bool) :
    (Accepted f m ig → BothInv (b.installSingle m later ig) (fun q => if q = m.name then some m else f q)) ∧
    (¬ Accepted f m ig → BothInv (b.installSingle m later ig) f) := by
  have hstep := both_step h (.install m later : BothOp α ρ)
  simp only [BothOp.step, installedStep] at hstep
  unfold Both.installSingle PkgInfo.runtimeDeps
  by_cases hc : m.info.compDeps = []
  case neg =>
    rw [if_neg hc]
    exact ⟨fun ha => absurd ha.1.1 hc, fun _ => h⟩
  case pos =>
    rw [if_pos hc]
    by_cases hp : m.partOf.isSome = true
    case neg =>
      have hf : BothInv ((b.updateDatabases m later).getD b) f := by
        simpa only [hp, hc, and_false, Bool.false_eq_true, if_false] using hstep
      refine ⟨fun ha => absurd ha.1.2 hp, fun _ => ?_⟩
      simp only
      split
      · exact hf
      · exact h
    case pos =>
      have hf : BothInv ((b.updateDatabases m later).getD b) (fun q => if q = m.name then some m else f q) := by
        simpa only [hp, hc, and_self, if_true] using hstep
      have hsat : installOne.satDeps b.world m.info.deps = .ok true ↔ ∀ d ∈ m.info.deps, ∃ k, f d.package = some k ∧ Meets d k.info := by
        rw [satDeps_iff]
        exact forall_congr' fun d => imp_congr_right fun _ => satisfied_iff h d
      have key : (if ig = true then (.ok true : Except (PErr α) Bool) else installOne.satDeps b.world m.info.deps) = .ok true ↔ Accepted f m ig := by
        cases ig with
        | true => simp [Accepted, hc, hp]
        | false => simp [Accepted, hc, hp, hsat]
      simp only
      constructor
      · intro ha
        rw [key.mpr ha]
        exact hf
      · intro ha
        have hn : ¬ _ := fun e => ha (key.mp e)
        split
        · rename_i e; exact absurd e hn
        · exact h

theorem cmd_both {b : Both α ρ} {f : α → Option (Meta α)} (h : BothInv b f) (c : Cmd α ρ) : ∃ g, BothInv (c.step b) g := by
  cases c with
  | install m later ig =>
    by_cases ha : Accepted f m ig
    · exact ⟨_, (installSingle_both h m later ig).1 ha⟩
    · exact ⟨_, (installSingle_both h m later ig).2 ha⟩
  | remove σ o base A =>
    simp only [Cmd.step, Both.removeNames]
    split
    · exact removeLoop_both _ h
    · exact ⟨f, h⟩
  | conflict p => exact removeLoop_both _ h
  | other op => exact ⟨_, both_step h op⟩

theorem run_both (cs : List (Cmd α ρ)) : BothInv (Cmd.run cs) (Cmd.run cs).getInstalled := by
  have key : ∃ f, BothInv (Cmd.run cs) f := by
    induction cs using snoc_induction with
    | h0 => exact ⟨_, both_run []⟩
    | hs l a ih =>
      obtain ⟨f, hf⟩ := ih
      rw [show Cmd.run (l ++ [a]) = a.step (Cmd.run l) by simp [Cmd.run]]
      exact cmd_both hf a
  obtain ⟨f, hf⟩ := key
  rw [getInstalled_eq hf]
  exact hf

/-- **C199.**  After any commands at all, installing a package has its effect if the package is accepted, and otherwise none. -/
theorem install_exact (cs : List (Cmd α ρ)) (m : Meta α) (later ig : Bool) (p : α) :
    (Accepted (Cmd.run cs).getInstalled m ig →
      (Cmd.run (cs ++ [.install m later ig])).getInstalled p = if p = m.name then some m else (Cmd.run cs).getInstalled p) ∧
    (¬ Accepted (Cmd.run cs).getInstalled m ig →
      (Cmd.run (cs ++ [.install m later ig])).getInstalled p = (Cmd.run cs).getInstalled p) := by
  rw [show Cmd.run (cs ++ [.install m later ig]) = (Cmd.run cs).installSingle m later ig by simp [Cmd.run, Cmd.step]]
  have h := installSingle_both (run_both cs) m later ig
  exact ⟨fun ha => by rw [getInstalled_eq (h.1 ha)], fun ha => by rw [getInstalled_eq (h.2 ha)]⟩

/-- **C199.**  If the dependencies of all installed packages are met, they are met after the installation of an accepted package too if and
only if that package meets what the installed packages, and it itself, ask of its name. -/
theorem install_consistent (cs : List (Cmd α ρ)) (m : Meta α) (later : Bool) (hc : Consistent (Cmd.run cs).getInstalled)
    (ha : Accepted (Cmd.run cs).getInstalled m false) :
    Consistent (Cmd.run (cs ++ [.install m later false])).getInstalled ↔
      Suits (Cmd.run cs).getInstalled m := by
  have e : (Cmd.run (cs ++ [.install m later false])).getInstalled = fun p => if p = m.name then some m else (Cmd.run cs).getInstalled p :=
    funext fun p => (install_exact cs m later false p).1 ha
  rw [e]
  exact suits_iff hc ha

/-- **C199.**  What is not installed yet can always be added. -/
theorem install_new (cs : List (Cmd α ρ)) (m : Meta α) (later : Bool) (hc : Consistent (Cmd.run cs).getInstalled)
    (hn : (Cmd.run cs).getInstalled m.name = none) :
    Consistent (Cmd.run (cs ++ [.install m later false])).getInstalled := by
  by_cases ha : Accepted (Cmd.run cs).getInstalled m false
  · refine (install_consistent cs m later hc ha).mpr ⟨fun y d _ hd hp => ?_, fun d hd hp => ?_⟩
    · obtain ⟨k, hk, _⟩ := hc y d hd
      rw [hp, hn] at hk
      cases hk
    · rcases ha.2 with hh | hh
      · cases hh
      · obtain ⟨k, hk, _⟩ := hh d hd
        rw [hp, hn] at hk
        cases hk
  · rw [show (Cmd.run (cs ++ [.install m later false])).getInstalled = (Cmd.run cs).getInstalled from
      funext fun p => (install_exact cs m later false p).2 ha]
    exact hc

/-- **C197.**  The condition on replacements is needed: one that is accepted and does not suit leaves a dependency that is not met. -/
theorem unsuited_breaks (cs : List (Cmd α ρ)) (m : Meta α) (later : Bool) (h : GentleRun cs)
    (ha : Accepted (Cmd.run cs).getInstalled m false) (hn : ¬ Suits (Cmd.run cs).getInstalled m) :
    ¬ Consistent (Cmd.run (cs ++ [.install m later false])).getInstalled :=
  fun hc => hn ((install_consistent cs m later (session_partial cs h) ha).mp hc)

/-- **C197.**  So is the condition on conflicts. -/
theorem conflict_breaks (cs : List (Cmd α ρ)) (p : α) (h : GentleRun cs) (hd : Depended (Cmd.run cs).getInstalled p) :
    ¬ Consistent (Cmd.run (cs ++ [.conflict p])).getInstalled := by
  intro hc
  have hs := session_inv cs h
  rw [show Cmd.run (cs ++ [.conflict p]) = (Cmd.run cs).removeLoop [p] by simp [Cmd.run, Cmd.step]] at hc
  obtain ⟨g, g1, g2, _⟩ := removeLoop_keeps (fun _ _ => False) [p] _ _ hs.both hs.sound (fun _ _ _ hf => hf.elim) (fun _ _ hf => hf.elim)
  rw [getInstalled_eq g1] at hc
  obtain ⟨y, hy, d, ⟨m, hm, hd⟩, he⟩ := hd
  obtain ⟨k, hk, _⟩ := hc y d ⟨m, by rw [g2, if_neg (by simpa using hy)]; exact hm, hd⟩
  rw [g2, he] at hk
  simp at hk

/-- **C198, full statement.** -/
def RemovalFull : Prop := ∀ cs : List (Cmd Nat Unit), (∀ c ∈ cs, Plain c) → ∀ (σ : Sched Nat), σ.Legal → ∀ (A : List Nat), A.Nodup →
  ∀ x, Goes (Cmd.run cs).getInstalled {} none A x → ((Cmd.run cs).removeNames σ {} none A).getInstalled x = none

theorem gentle_snoc {cs : List (Cmd α ρ)} (h : GentleRun cs) (c : Cmd α ρ) (hp : Plain c)
    (hg : Gentle (Forgotten cs) (Cmd.run cs).getInstalled c) : GentleRun (cs ++ [c]) := by
  intro pre c' post e
  rcases List.eq_nil_or_concat post with rfl | ⟨l, a, rfl⟩
  · have e' : cs ++ [c] = pre ++ [c'] := e
    obtain ⟨rfl, h2⟩ := List.append_inj' e' rfl
    simp only [List.cons.injEq, and_true] at h2
    exact h2 ▸ ⟨hp, hg⟩
  · have e' : cs ++ [c] = (pre ++ c' :: l) ++ [a] := by rw [e]; simp
    obtain ⟨h1, _⟩ := List.append_inj' e' rfl
    exact h pre c' l h1

/-- Installing what is not installed yet is always gentle. -/
theorem gentle_new {cs : List (Cmd α ρ)} (h : GentleRun cs) (m : Meta α) (later : Bool)
    (hn : (Cmd.run cs).getInstalled m.name = none) : GentleRun (cs ++ [.install m later false]) :=
  gentle_snoc h _ rfl (fun ha => (install_consistent cs m later (session_partial cs h) ha).mp
    (install_new cs m later (session_partial cs h) hn))

section Witness

/-- Package 2 needs nothing, package 1 needs 2. -/
def pTwo : Meta Nat := { name := 2, info := { version := ['1'], release := ['1'] }, partOf := some 9 }
def pOne : Meta Nat := { name := 1, info := { version := ['1'], release := ['1'], deps := [{ package := 2 }] }, partOf := some 9 }

/-- Package 2 is reinstalled after 1. -/
def again : List (Cmd Nat Unit) := [.install pTwo false false, .install pOne false false, .install pTwo false false]

theorem again_plain : ∀ c ∈ again, Plain c := by
  intro c hc
  simp only [again, List.mem_cons, List.not_mem_nil, or_false] at hc
  rcases hc with rfl | rfl | rfl <;> rfl

theorem again_installed : (Cmd.run again).getInstalled 1 = some pOne ∧ (Cmd.run again).getInstalled 2 = some pTwo := by
  decide +kernel

theorem again_removed : ((Cmd.run again).removeNames Sched.plain {} none [2]).getInstalled 1 = some pOne ∧
    ((Cmd.run again).removeNames Sched.plain {} none [2]).getInstalled 2 = none := by decide +kernel

/-- **C197 is false of the code**: after reinstalling a package its dependents are forgotten, and it can be removed from under them. -/
theorem session_refuted : ¬ SessionFull := by
  intro h
  have h1 := h (again ++ [.remove Sched.plain {} none [2]]) (fun c hc => by
    rcases List.mem_append.mp hc with hc | hc
    · exact again_plain c hc
    · simp only [List.mem_singleton] at hc
      subst hc
      exact ⟨Sched.plain_legal, rfl, by simp⟩)
  have e : Cmd.run (again ++ [.remove Sched.plain {} none [2]]) = (Cmd.run again).removeNames Sched.plain {} none [2] := by
    simp [Cmd.run, Cmd.step]
  rw [e] at h1
  obtain ⟨m, hm, _⟩ := h1 1 { package := 2 } ⟨pOne, again_removed.1, by simp [pOne]⟩
  rw [again_removed.2] at hm
  cases hm

/-- **C198 is false of the code**, for the same reason. -/
theorem removal_refuted : ¬ RemovalFull := by
  intro h
  have h1 := h again again_plain Sched.plain Sched.plain_legal [2] (by simp) 1
    ⟨2, ⟨by simp, ⟨pTwo, again_installed.2⟩, by simp⟩, Relation.ReflTransGen.single
      ⟨{ package := 2 }, ⟨pOne, again_installed.1, by simp [pOne]⟩, rfl⟩⟩
  rw [again_removed.1] at h1
  cases h1

/-- A new version of package 2, and a package 3 that needs package 1. -/
def pTwoNew : Meta Nat := { name := 2, info := { version := ['2'], release := ['2'] }, partOf := some 9 }
def pThree : Meta Nat := { name := 3, info := { version := ['1'], release := ['1'], deps := [{ package := 1 }] }, partOf := some 9 }

def three : List (Cmd Nat Unit) := [.install pTwo false false] ++ [.install pOne false false] ++ [.install pThree false false]

theorem three_gentle : GentleRun three := by
  refine gentle_new ?_ _ _ (by decide +kernel)
  refine gentle_new ?_ _ _ (by decide +kernel)
  exact gentle_new (cs := []) (fun pre c post e => by simp at e) _ _ (by decide +kernel)

theorem three_cells : (Cmd.run three).getInstalled 1 = some pOne ∧ (Cmd.run three).getInstalled 2 = some pTwo ∧
    (Cmd.run three).getInstalled 3 = some pThree := by decide +kernel

theorem three_other (y : Nat) (h1 : y ≠ 1) (h2 : y ≠ 2) (h3 : y ≠ 3) : (Cmd.run three).getInstalled y = none := by
  have step : ∀ (cs : List (Cmd Nat Unit)) (m : Meta Nat), y ≠ m.name → (Cmd.run cs).getInstalled y = none →
      (Cmd.run (cs ++ [.install m false false])).getInstalled y = none := fun cs m hy hn => by
    by_cases ha : Accepted (Cmd.run cs).getInstalled m false
    · rw [(install_exact cs m false false y).1 ha, if_neg hy, hn]
    · rw [(install_exact cs m false false y).2 ha, hn]
  refine step _ pThree h3 (step _ pOne h1 (step [] pTwo h2 ?_))
  simp [Cmd.run, Both.getInstalled, getItem_one, cell_nil]

theorem three_needs (y : Nat) (d : Dep Nat) (h : NeedsDep (Cmd.run three).getInstalled y d) :
    (y = 1 ∧ d = { package := 2 }) ∨ (y = 3 ∧ d = { package := 1 }) := by
  obtain ⟨m, hm, hd⟩ := h
  by_cases h1 : y = 1
  · subst h1
    rw [three_cells.1] at hm
    cases hm
    exact Or.inl ⟨rfl, by simpa [pOne] using hd⟩
  · by_cases h2 : y = 2
    · subst h2
      rw [three_cells.2.1] at hm
      cases hm
      simp [pTwo] at hd
    · by_cases h3 : y = 3
      · subst h3
        rw [three_cells.2.2] at hm
        cases hm
        exact Or.inr ⟨rfl, by simpa [pThree] using hd⟩
      · rw [three_other y h1 h2 h3] at hm
        cases hm

theorem twoNew_suits : Suits (Cmd.run three).getInstalled pTwoNew := by
  refine ⟨fun y d _ hd hp => ?_, fun d hd => by simp [pTwoNew] at hd⟩
  rcases three_needs y d hd with ⟨_, rfl⟩ | ⟨_, rfl⟩
  · exact (testDep_true _ _).mp (by decide +kernel)
  · simp [pTwoNew] at hp

/-- A session that meets the condition: 2, 1 and 3 are installed, 2 is upgraded although 1 needs it, and 3 is removed. -/
def upgraded : List (Cmd Nat Unit) := three ++ [.install pTwoNew false false]

theorem upgraded_gentle : GentleRun upgraded :=
  gentle_snoc three_gentle _ rfl (fun _ => twoNew_suits)

theorem upgraded_depends (y : Nat) : ¬ DependsDirectly (Cmd.run upgraded).getInstalled 3 y := by
  rintro ⟨d, ⟨m, hm, hd⟩, hp⟩
  rw [show upgraded = three ++ [.install pTwoNew false false] from rfl,
    (install_exact three pTwoNew false false y).1 ⟨⟨rfl, rfl⟩, Or.inr (by simp [pTwoNew])⟩] at hm
  by_cases hy : y = pTwoNew.name
  · rw [if_pos hy] at hm
    cases hm
    simp [pTwoNew] at hd
  · rw [if_neg hy] at hm
    rcases three_needs y d ⟨m, hm, hd⟩ with ⟨_, rfl⟩ | ⟨_, rfl⟩ <;> simp at hp

example : Consistent (Cmd.run (upgraded ++ [.remove Sched.plain {} none [3]])).getInstalled :=
  session_partial _ (gentle_snoc upgraded_gentle _ ⟨Sched.plain_legal, rfl, by simp⟩ (by
    rintro x ⟨a, ⟨ha, _⟩, hr⟩ _ ⟨y, _, hd⟩
    simp only [List.mem_singleton] at ha
    subst ha
    rcases Relation.ReflTransGen.cases_head hr with rfl | ⟨z, hz, _⟩
    · exact upgraded_depends y hd
    · exact upgraded_depends z hz))
example : removeCmd (Cmd.run three).world Sched.plain {} none [2] = .ok [3, 1, 2] := by decide +kernel

/-- Reinstalling 2 keeps what 1 needs. -/
example : Accepted (Cmd.run ([.install pTwo false false, .install pOne false false] : List (Cmd Nat Unit))).getInstalled pTwo false :=
  ⟨⟨rfl, rfl⟩, Or.inr (by simp [pTwo])⟩
example : (Cmd.run ([.install pTwo false false] : List (Cmd Nat Unit))).getInstalled pOne.name = none := by decide +kernel
/-- A package whose dependency is missing is not installed. -/
example : (Cmd.run ([.install pOne false false] : List (Cmd Nat Unit))).getInstalled 1 = none := by decide +kernel

end Witness

end Pisi.DB
