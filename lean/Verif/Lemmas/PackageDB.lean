import Verif.Props.ItemByRepo

/-!
# Effects of the package, source and component databases on their cells
-/
set_option linter.unusedSectionVars false

namespace Pisi.DB
open Pisi.DBSpec
variable {α : Type} [DecidableEq α]

/-- All databases are well-formed. -/
structure Stores.WF (s : Stores α) : Prop where
  pkg : s.pkg.WF
  rev : s.rev.WF
  src : s.src.WF
  p2s : s.p2s.WF
  comp : s.comp.WF

/-- `d'` agrees with `d` outside store `r`. -/
def SameOff {ν : Type} (r : RepoId) (d d' : ItemDB α ν) : Prop := ∀ n q, q ≠ r → d'.cell n q = d.cell n q

theorem SameOff.refl {ν : Type} (r : RepoId) (d : ItemDB α ν) : SameOff r d d := fun _ _ _ => rfl

theorem SameOff.trans {ν : Type} {r : RepoId} {a b c : ItemDB α ν} (h : SameOff r a b) (h' : SameOff r b c) :
    SameOff r a c := fun n q hq => (h' n q hq).trans (h n q hq)

theorem addItem_off {ν : Type} {d : ItemDB α ν} (h : d.WF) (n : α) (v : ν) (r : RepoId) :
    SameOff r d (d.addItem n v r) := by
  intro m q hq
  rw [(addItem_spec h n v r).2, ItemMap.set, if_neg (fun e => hq e.2)]

theorem addItem_cell {ν : Type} {d : ItemDB α ν} (h : d.WF) (n : α) (v : ν) (r : RepoId) (m : α) :
    (d.addItem n v r).cell m r = if m = n then some v else d.cell m r := by
  rw [(addItem_spec h n v r).2]; simp [ItemMap.set]

/-! ## Reverse dependencies -/

/-- The reverse dependency list stored for `x` in store `r`. -/
def rv (rev : ItemDB α (List (α × Dep α))) (r : RepoId) (x : α) : List (α × Dep α) := (rev.cell x r).getD []

theorem getRevDeps_eq (s : Stores α) (x : α) (r : RepoId) : getRevDeps s x r = .ok (rv s.rev r x) := by
  unfold getRevDeps rv
  rw [hasKey_one, getItem_one]
  cases s.rev.cell x r <;> simp [liftI]

theorem listedRev_iff (s : Stores α) (r : RepoId) (x y : α) :
    ListedRev s r x y ↔ ∃ d, (y, d) ∈ rv s.rev r x := by
  unfold ListedRev
  simp only [getRevDeps_eq]
  constructor
  · rintro ⟨l, d, h, hm⟩; cases h; exact ⟨d, hm⟩
  · rintro ⟨d, hm⟩; exact ⟨_, d, rfl, hm⟩

theorem addRevDep_spec {rev : ItemDB α (List (α × Dep α))} (h : rev.WF) (name : α) (r : RepoId) (d : Dep α) :
    ∃ rev', addRevDep name r rev d = .ok rev' ∧ rev'.WF ∧ SameOff r rev rev' ∧
      ∀ x, rv rev' r x = if x = d.package then (rv rev r x).filter (fun e => e.1 ≠ name) ++ [(name, d)]
        else rv rev r x := by
  unfold addRevDep
  rw [hasKey_one, getItem_one]
  cases hc : rev.cell d.package r with
  | none =>
    refine ⟨_, rfl, (addItem_spec h _ _ _).1, addItem_off h _ _ _, fun x => ?_⟩
    simp only [rv, addItem_cell h]
    by_cases hx : x = d.package
    · subst hx; simp [hc]
    · simp [hx]
  | some l =>
    refine ⟨_, rfl, (addItem_spec h _ _ _).1, addItem_off h _ _ _, fun x => ?_⟩
    simp only [rv, addItem_cell h]
    by_cases hx : x = d.package
    · subst hx; simp [hc]
    · simp [hx]

theorem dropRevDep_spec {rev : ItemDB α (List (α × Dep α))} (h : rev.WF) (name : α) (r : RepoId) (d : Dep α) :
    ∃ rev', dropRevDep name r rev d = .ok rev' ∧ rev'.WF ∧ SameOff r rev rev' ∧
      ∀ x, rv rev' r x = if x = d.package then (rv rev r x).filter (fun e => e.1 ≠ name) else rv rev r x := by
  unfold dropRevDep
  rw [hasKey_one, getItem_one]
  cases hc : rev.cell d.package r with
  | none =>
    refine ⟨rev, rfl, h, SameOff.refl _ _, fun x => ?_⟩
    by_cases hx : x = d.package
    · subst hx; simp [rv, hc]
    · simp [hx]
  | some l =>
    refine ⟨_, rfl, (addItem_spec h _ _ _).1, addItem_off h _ _ _, fun x => ?_⟩
    simp only [rv, addItem_cell h]
    by_cases hx : x = d.package
    · subst hx; simp [hc]
    · simp [hx]

theorem addRevDeps_spec (name : α) (r : RepoId) (ds : List (Dep α)) :
    ∀ rev : ItemDB α (List (α × Dep α)), rev.WF →
    ∃ rev', forM' (addRevDep name r) ds rev = .ok rev' ∧ rev'.WF ∧ SameOff r rev rev' ∧
      (∀ x, (∀ d ∈ ds, d.package ≠ x) → rv rev' r x = rv rev r x) ∧
      (∀ a d b, ds = a ++ d :: b → (∀ e ∈ b, e.package ≠ d.package) →
        rv rev' r d.package = (rv rev r d.package).filter (fun e => e.1 ≠ name) ++ [(name, d)]) := by
  induction ds with
  | nil => intro rev h; exact ⟨rev, rfl, h, SameOff.refl _ _, fun _ _ => rfl, fun a d b e => by simp at e⟩
  | cons d ds ih =>
    intro rev h
    obtain ⟨r1, e1, w1, o1, v1⟩ := addRevDep_spec h name r d
    obtain ⟨r2, e2, w2, o2, v2, v3⟩ := ih r1 w1
    refine ⟨r2, by simp [forM', e1, e2], w2, o1.trans o2, fun x hx => ?_, fun a d' b hd hb => ?_⟩
    · rw [v2 x (fun e he => hx e (by simp [he])), v1, if_neg (fun e => hx d (by simp) e.symm)]
    · cases a with
      | nil =>
        simp only [List.nil_append, List.cons.injEq] at hd
        obtain ⟨rfl, rfl⟩ := hd
        rw [v2 _ hb, v1, if_pos rfl]
      | cons c a =>
        simp only [List.cons_append, List.cons.injEq] at hd
        obtain ⟨rfl, hd⟩ := hd
        rw [v3 a d' b hd hb, v1]
        by_cases hp : d'.package = d.package
        · simp [hp, List.filter_append]
        · simp [hp]

theorem dropRevDeps_spec (name : α) (r : RepoId) (ds : List (Dep α)) :
    ∀ rev : ItemDB α (List (α × Dep α)), rev.WF →
    ∃ rev', forM' (dropRevDep name r) ds rev = .ok rev' ∧ rev'.WF ∧ SameOff r rev rev' ∧
      (∀ x, (∀ d ∈ ds, d.package ≠ x) → rv rev' r x = rv rev r x) ∧
      (∀ x, (∃ d ∈ ds, d.package = x) → rv rev' r x = (rv rev r x).filter (fun e => e.1 ≠ name)) := by
  induction ds with
  | nil =>
    intro rev h
    exact ⟨rev, rfl, h, SameOff.refl _ _, fun _ _ => rfl, fun x ⟨d, hd, _⟩ => by simp at hd⟩
  | cons d ds ih =>
    intro rev h
    obtain ⟨r1, e1, w1, o1, v1⟩ := dropRevDep_spec h name r d
    obtain ⟨r2, e2, w2, o2, v2, v3⟩ := ih r1 w1
    refine ⟨r2, by simp [forM', e1, e2], w2, o1.trans o2, fun x hx => ?_, fun x hx => ?_⟩
    · rw [v2 x (fun e he => hx e (by simp [he])), v1, if_neg (fun e => hx d (by simp) e.symm)]
    · by_cases hin : ∃ d ∈ ds, d.package = x
      · rw [v3 x hin, v1]
        split <;> simp [List.filter_filter]
      · obtain ⟨d', hd', he⟩ := hx
        rcases List.mem_cons.mp hd' with rfl | hd'
        · rw [v2 x (fun e hm hp => hin ⟨e, hm, hp⟩), v1, if_pos he.symm]
        · exact absurd ⟨d', hd', he⟩ hin

/-! ## Components -/

theorem compAdd_spec {c : ItemDB α (Comp α)} (h : c.WF) (n : Option α) (r : RepoId) (f : Comp α → Comp α) :
    match n with
    | none => compAdd c n r f = .error .assertion
    | some k => ∃ c', compAdd c n r f = .ok c' ∧ c'.WF ∧ SameOff r c c' ∧
        ∀ m, c'.cell m r = if m = k then some (f ((c.cell k r).getD {})) else c.cell m r := by
  cases n with
  | none => rfl
  | some k =>
    simp only [compAdd]
    rw [hasKey_one, getItem_one]
    cases hc : c.cell k r with
    | none => exact ⟨_, rfl, (addItem_spec h _ _ _).1, addItem_off h _ _ _, fun m => by rw [addItem_cell h]; rfl⟩
    | some x => exact ⟨_, rfl, (addItem_spec h _ _ _).1, addItem_off h _ _ _, fun m => by rw [addItem_cell h]; rfl⟩

theorem updateComponent_spec {c : ItemDB α (Comp α)} (h : c.WF) (n : α) (x : Comp α) (r : RepoId) :
    ∃ c', updateComponent c n x r = .ok c' ∧ c'.WF ∧ SameOff r c c' ∧
      ∀ m, c'.cell m r = if m = n then some { x with packages := ((c.cell n r).map (·.packages)).getD x.packages }
        else c.cell m r := by
  unfold updateComponent
  rw [hasKey_one, getItem_one]
  cases hc : c.cell n r with
  | none => exact ⟨_, rfl, (addItem_spec h _ _ _).1, addItem_off h _ _ _, fun m => by rw [addItem_cell h]; rfl⟩
  | some y => exact ⟨_, rfl, (addItem_spec h _ _ _).1, addItem_off h _ _ _, fun m => by rw [addItem_cell h]; rfl⟩

theorem compRemovePackage_spec {c c' : ItemDB α (Comp α)} (h : c.WF) (n : Option α) (p : α) (r : RepoId)
    (hc : compRemovePackage c n p r = .ok c') : c'.WF ∧ SameOff r c c' := by
  unfold compRemovePackage at hc
  cases n with
  | none => cases hc
  | some k =>
    simp only [getItem_one] at hc
    split at hc
    · cases hx : c.cell k r with
      | none => simp [hx] at hc
      | some x =>
        simp only [hx] at hc
        cases hc
        exact ⟨(addItem_spec h _ _ _).1, addItem_off h _ _ _⟩
    · cases hc

/-! ## Whole operations -/

/-- What an operation on store `r` leaves alone. -/
structure Stores.SameOff (r : RepoId) (s s' : Stores α) : Prop where
  pkg : DB.SameOff r s.pkg s'.pkg
  rev : DB.SameOff r s.rev s'.rev
  src : DB.SameOff r s.src s'.src
  p2s : DB.SameOff r s.p2s s'.p2s
  comp : DB.SameOff r s.comp s'.comp

theorem Stores.SameOff.refl (r : RepoId) (s : Stores α) : s.SameOff r s :=
  ⟨DB.SameOff.refl _ _, DB.SameOff.refl _ _, DB.SameOff.refl _ _, DB.SameOff.refl _ _, DB.SameOff.refl _ _⟩

theorem Stores.SameOff.trans {r : RepoId} {a b c : Stores α} (h : a.SameOff r b) (h' : b.SameOff r c) : a.SameOff r c :=
  ⟨h.pkg.trans h'.pkg, h.rev.trans h'.rev, h.src.trans h'.src, h.p2s.trans h'.p2s, h.comp.trans h'.comp⟩

/-- A description the databases accept: no component dependency and a component it is part of. -/
def Acceptable (m : Meta α) : Prop := m.info.compDeps = [] ∧ m.partOf.isSome

theorem addPackage_spec {s : Stores α} (h : s.WF) (r : RepoId) (m : Meta α) :
    ((∃ s', addPackage r s m = .ok s') ↔ Acceptable m) ∧
    ∀ s', addPackage r s m = .ok s' → s'.WF ∧ s.SameOff r s' ∧ s'.src = s.src ∧ s'.p2s = s.p2s ∧
      (∀ n, s'.pkg.cell n r = if n = m.name then some m else s.pkg.cell n r) ∧
      (∀ x, (∀ d ∈ m.info.deps, d.package ≠ x) → rv s'.rev r x = rv s.rev r x) ∧
      (∀ a d b, m.info.deps = a ++ d :: b → (∀ e ∈ b, e.package ≠ d.package) →
        rv s'.rev r d.package = (rv s.rev r d.package).filter (fun e => e.1 ≠ m.name) ++ [(m.name, d)]) := by
  unfold addPackage Acceptable PkgInfo.runtimeDeps
  by_cases hcd : m.info.compDeps = []
  · simp only [hcd, if_true, true_and]
    obtain ⟨rev', e, w, o, v1, v2⟩ := addRevDeps_spec m.name r m.info.deps s.rev h.rev
    simp only [e]
    have hc := compAdd_spec h.comp m.partOf r (Comp.addPackage m.name)
    cases hp : m.partOf with
    | none => simp only [hp] at hc; simp [hc]
    | some k =>
      simp only [hp] at hc
      obtain ⟨c', ec, wc, oc, _⟩ := hc
      simp only [ec]
      refine ⟨by simp, fun s' hs => ?_⟩
      cases hs
      exact ⟨⟨(addItem_spec h.pkg _ _ _).1, w, h.src, h.p2s, wc⟩,
        ⟨addItem_off h.pkg _ _ _, o, DB.SameOff.refl _ _, DB.SameOff.refl _ _, oc⟩, rfl, rfl,
        fun n => addItem_cell h.pkg _ _ _ _, v1, v2⟩
  · simp [hcd]

theorem removePackage_spec {s s' : Stores α} (h : s.WF) (r : RepoId) (name : α) (m : Meta α)
    (hm : s.pkg.cell name r = some m) (hr : removePackage r s name = .ok s') :
    s'.WF ∧ s.SameOff r s' ∧ s'.src = s.src ∧ s'.p2s = s.p2s ∧
      (∀ n, s'.pkg.cell n r = if n = name then none else s.pkg.cell n r) ∧ m.info.compDeps = [] ∧
      (∀ x, x ≠ name → (∀ d ∈ m.info.deps, d.package ≠ x) → rv s'.rev r x = rv s.rev r x) ∧
      (∀ x, x ≠ name → (∃ d ∈ m.info.deps, d.package = x) →
        rv s'.rev r x = (rv s.rev r x).filter (fun e => e.1 ≠ name)) ∧ rv s'.rev r name = [] := by
  unfold removePackage at hr
  rw [getItem_one, hm] at hr
  simp only [ItemDB.removeItem] at hr
  cases hp : s.pkg.removeItemRepo name r with
  | error e => rw [hp] at hr; cases hr
  | ok pkg =>
    rw [hp] at hr
    obtain ⟨wp, cp, _⟩ := removeItemRepo_spec h.pkg hp
    simp only [PkgInfo.runtimeDeps] at hr
    by_cases hcd : m.info.compDeps = []
    · simp only [hcd, if_true] at hr
      obtain ⟨rev1, e, w, o, v1, v2⟩ := dropRevDeps_spec name r m.info.deps s.rev h.rev
      simp only [e] at hr
      have key : ∀ rev2 : ItemDB α (List (α × Dep α)),
          (if rev1.hasKey name (.one r) = true then liftI (rev1.removeItemRepo name r) else .ok rev1) = .ok rev2 →
          rev2.WF ∧ DB.SameOff r rev1 rev2 ∧ (∀ x, x ≠ name → rv rev2 r x = rv rev1 r x) ∧ rv rev2 r name = [] := by
        intro rev2 h2
        split at h2
        · cases h3 : rev1.removeItemRepo name r with
          | error e => rw [h3] at h2; cases h2
          | ok d =>
            rw [h3] at h2; cases h2
            obtain ⟨a, b, _⟩ := removeItemRepo_spec w h3
            refine ⟨a, fun n q hq => ?_, fun x hx => ?_, ?_⟩
            · rw [b, ItemMap.set, if_neg (fun e => hq e.2)]
            · simp only [rv]; rw [b, ItemMap.set, if_neg (fun e => hx e.1)]
            · simp only [rv]; rw [b, ItemMap.set, if_pos ⟨rfl, rfl⟩]; rfl
        · next hk =>
          cases h2
          refine ⟨w, DB.SameOff.refl _ _, fun _ _ => rfl, ?_⟩
          rw [hasKey_one] at hk
          simp only [rv]
          cases hcc : rev1.cell name r with
          | none => rfl
          | some z => simp [hcc] at hk
      split at hr
      · cases hr
      · next rev2 h2 =>
        obtain ⟨w2, o2, v3, v4⟩ := key rev2 h2
        split at hr
        · cases hr
        · next comp hc =>
          cases hr
          obtain ⟨wc, oc⟩ := compRemovePackage_spec h.comp _ _ _ hc
          refine ⟨⟨wp, w2, h.src, h.p2s, wc⟩, ⟨fun n q hq => ?_, o.trans o2, DB.SameOff.refl _ _, DB.SameOff.refl _ _, oc⟩,
            rfl, rfl, fun n => ?_, hcd, fun x hx hd => ?_, fun x hx hd => ?_, v4⟩
          · show ItemDB.cell pkg n q = _
            rw [cp, ItemMap.set, if_neg (fun e => hq e.2)]
          · show ItemDB.cell pkg n r = _
            rw [cp, ItemMap.set]; simp
          · show rv rev2 r x = _
            rw [v3 x hx, v1 x hd]
          · show rv rev2 r x = _
            rw [v3 x hx, v2 x hd]
    · simp [hcd] at hr

theorem removePackage_absent (s : Stores α) (r : RepoId) (name : α) (hm : s.pkg.cell name r = none) :
    removePackage r s name = .error (.item .notFound) := by
  unfold removePackage
  rw [getItem_one, hm]

theorem pkgRemoveRepo_spec {s : Stores α} (h : s.WF) (r : RepoId) :
    ∃ s', pkgRemoveRepo s r = .ok s' ∧ s'.WF ∧ s.SameOff r s' ∧ s'.src = s.src ∧ s'.p2s = s.p2s ∧ s'.comp = s.comp ∧
      (∀ n, s'.pkg.cell n r = none) ∧ ∀ n, s'.rev.cell n r = none := by
  obtain ⟨p, ep, wp, cp⟩ := removeRepo_spec h.pkg r
  obtain ⟨v, ev, wv, cv⟩ := removeRepo_spec h.rev r
  refine ⟨{ s with pkg := p, rev := v }, by simp [pkgRemoveRepo, ep, ev], ⟨wp, wv, h.src, h.p2s, h.comp⟩,
    ⟨fun n q hq => ?_, fun n q hq => ?_, DB.SameOff.refl _ _, DB.SameOff.refl _ _, DB.SameOff.refl _ _⟩, rfl, rfl, rfl,
    fun n => ?_, fun n => ?_⟩
  · rw [cp, if_neg hq]
  · rw [cv, if_neg hq]
  · rw [cp, if_pos rfl]
  · rw [cv, if_pos rfl]

theorem srcRemoveRepo_spec {s : Stores α} (h : s.WF) (r : RepoId) :
    ∃ s', srcRemoveRepo s r = .ok s' ∧ s'.WF ∧ s.SameOff r s' ∧ s'.pkg = s.pkg ∧ s'.rev = s.rev ∧ s'.comp = s.comp ∧
      (∀ n, s'.src.cell n r = none) ∧ ∀ n, s'.p2s.cell n r = none := by
  obtain ⟨p, ep, wp, cp⟩ := removeRepo_spec h.src r
  obtain ⟨v, ev, wv, cv⟩ := removeRepo_spec h.p2s r
  refine ⟨{ s with src := p, p2s := v }, by simp [srcRemoveRepo, ep, ev], ⟨h.pkg, h.rev, wp, wv, h.comp⟩,
    ⟨DB.SameOff.refl _ _, DB.SameOff.refl _ _, fun n q hq => ?_, fun n q hq => ?_, DB.SameOff.refl _ _⟩, rfl, rfl, rfl,
    fun n => ?_, fun n => ?_⟩
  · rw [cp, if_neg hq]
  · rw [cv, if_neg hq]
  · rw [cp, if_pos rfl]
  · rw [cv, if_pos rfl]

theorem compRemoveRepo_spec {s : Stores α} (h : s.WF) (r : RepoId) :
    ∃ s', compRemoveRepo s r = .ok s' ∧ s'.WF ∧ s.SameOff r s' ∧ s'.pkg = s.pkg ∧ s'.rev = s.rev ∧ s'.src = s.src ∧
      s'.p2s = s.p2s ∧ ∀ n, s'.comp.cell n r = none := by
  obtain ⟨p, ep, wp, cp⟩ := removeRepo_spec h.comp r
  refine ⟨{ s with comp := p }, by simp [compRemoveRepo, ep], ⟨h.pkg, h.rev, h.src, h.p2s, wp⟩,
    ⟨DB.SameOff.refl _ _, DB.SameOff.refl _ _, DB.SameOff.refl _ _, DB.SameOff.refl _ _, fun n q hq => ?_⟩, rfl, rfl, rfl,
    rfl, fun n => ?_⟩
  · rw [cp, if_neg hq]
  · rw [cp, if_pos rfl]

theorem p2s_fold_spec (name : α) (r : RepoId) (ps : List α) : ∀ d : ItemDB α α, d.WF →
    (ps.foldl (fun d p => ItemDB.addItem d p name r) d).WF ∧
    DB.SameOff r d (ps.foldl (fun d p => ItemDB.addItem d p name r) d) ∧
    ∀ n, (ps.foldl (fun d p => ItemDB.addItem d p name r) d).cell n r = if n ∈ ps then some name else d.cell n r := by
  induction ps with
  | nil => intro d h; exact ⟨h, DB.SameOff.refl _ _, fun n => by simp⟩
  | cons p ps ih =>
    intro d h
    obtain ⟨a, b, c⟩ := ih (d.addItem p name r) (addItem_spec h _ _ _).1
    refine ⟨a, (addItem_off h _ _ _).trans b, fun n => ?_⟩
    simp only [List.foldl_cons]
    rw [c, addItem_cell h]
    by_cases h1 : n = p <;> by_cases h2 : n ∈ ps <;> simp [h1, h2]

/-- A spec file the source database accepts. -/
def AcceptableSpec (sp : SrcSpec α) : Prop := sp.valid = true ∧ sp.partOf.isSome

theorem addSpec_spec {s : Stores α} (h : s.WF) (r : RepoId) (sp : SrcSpec α) :
    ((∃ s', addSpec r s sp = .ok s') ↔ AcceptableSpec sp) ∧
    ∀ s', addSpec r s sp = .ok s' → s'.WF ∧ s.SameOff r s' ∧ s'.pkg = s.pkg ∧ s'.rev = s.rev ∧
      (∀ n, s'.src.cell n r = if n = sp.name then some sp else s.src.cell n r) ∧
      (∀ n, s'.p2s.cell n r = if n ∈ sp.packages then some sp.name else s.p2s.cell n r) := by
  unfold addSpec AcceptableSpec
  by_cases hv : sp.valid = true
  · simp only [hv, if_true, true_and]
    have hc := compAdd_spec h.comp sp.partOf r (Comp.addSource sp.name)
    cases hp : sp.partOf with
    | none => simp only [hp] at hc; simp [hc]
    | some k =>
      simp only [hp] at hc
      obtain ⟨c', ec, wc, oc, _⟩ := hc
      simp only [ec]
      refine ⟨by simp, fun s' hs => ?_⟩
      cases hs
      obtain ⟨a, b, c⟩ := p2s_fold_spec sp.name r sp.packages s.p2s h.p2s
      exact ⟨⟨h.pkg, h.rev, (addItem_spec h.src _ _ _).1, a, wc⟩,
        ⟨DB.SameOff.refl _ _, DB.SameOff.refl _ _, addItem_off h.src _ _ _, b, oc⟩, rfl, rfl,
        fun n => addItem_cell h.src _ _ _ _, c⟩
  · simp [hv]

/-! ## Loops -/

theorem updateComponents_spec (r : RepoId) (cs : List (α × Comp α)) : ∀ c : ItemDB α (Comp α), c.WF →
    ∃ c', forM' (fun c (x : α × Comp α) => updateComponent c x.1 x.2 r) cs c = .ok c' ∧ c'.WF ∧ SameOff r c c' := by
  induction cs with
  | nil => intro c h; exact ⟨c, rfl, h, SameOff.refl _ _⟩
  | cons x cs ih =>
    intro c h
    obtain ⟨c1, e1, w1, o1, _⟩ := updateComponent_spec h x.1 x.2 r
    obtain ⟨c2, e2, w2, o2⟩ := ih c1 w1
    exact ⟨c2, by simp [forM', e1, e2], w2, o1.trans o2⟩

theorem lastNamed_cons_iff {β : Type} (name : β → α) (y : β) (l : List β) (n : α) (x : β) :
    LastNamed name (y :: l) n x ↔ LastNamed name l n x ∨ (x = y ∧ name y = n ∧ ∀ z ∈ l, name z ≠ n) := by
  constructor
  · rintro ⟨a, b, he, hn, hb⟩
    cases a with
    | nil => simp at he; obtain ⟨rfl, rfl⟩ := he; exact Or.inr ⟨rfl, hn, hb⟩
    | cons c a => simp at he; exact Or.inl ⟨a, b, he.2, hn, hb⟩
  · rintro (⟨a, b, rfl, hn, hb⟩ | ⟨rfl, hn, hb⟩)
    · exact ⟨y :: a, b, rfl, hn, hb⟩
    · exact ⟨[], l, rfl, hn, hb⟩

theorem addPackages_spec' (r : RepoId) (ms : List (Meta α)) : ∀ s : Stores α, s.WF →
    ((∃ s', forM' (addPackage r) ms s = .ok s') ↔ ∀ m ∈ ms, Acceptable m) ∧
    ∀ s', forM' (addPackage r) ms s = .ok s' → s'.WF ∧ s.SameOff r s' ∧ s'.src = s.src ∧ s'.p2s = s.p2s ∧
      (∀ n m, LastNamed Meta.name ms n m → s'.pkg.cell n r = some m) ∧
      (∀ n, (∀ m ∈ ms, m.name ≠ n) → s'.pkg.cell n r = s.pkg.cell n r) := by
  induction ms with
  | nil =>
    intro s h
    refine ⟨by simp [forM'], fun s' hs => ?_⟩
    cases hs
    exact ⟨h, Stores.SameOff.refl _ _, rfl, rfl, fun n m ⟨a, b, e, _⟩ => by simp at e, fun _ _ => rfl⟩
  | cons m ms ih =>
    intro s h
    obtain ⟨i1, i2⟩ := addPackage_spec h r m
    cases hp : addPackage r s m with
    | error e =>
      have : ¬ Acceptable m := fun ha => by obtain ⟨s', hs⟩ := i1.mpr ha; rw [hp] at hs; cases hs
      simp [forM', hp, this]
    | ok s1 =>
      obtain ⟨w1, o1, a1, b1, c1, _⟩ := i2 s1 hp
      obtain ⟨j1, j2⟩ := ih s1 w1
      have hm : Acceptable m := i1.mp ⟨s1, hp⟩
      refine ⟨by simp [forM', hp, j1, hm], fun s' hs => ?_⟩
      simp only [forM', hp] at hs
      obtain ⟨w2, o2, a2, b2, c2, d2⟩ := j2 s' hs
      refine ⟨w2, o1.trans o2, a2.trans a1, b2.trans b1, fun n x hx => ?_, fun n hn => ?_⟩
      · rcases (lastNamed_cons_iff _ _ _ _ _).mp hx with hx | ⟨rfl, hn, hno⟩
        · exact c2 n x hx
        · rw [d2 n hno, c1, if_pos hn.symm]
      · rw [d2 n (fun x hx => hn x (by simp [hx])), c1, if_neg (fun e => hn m (by simp) e.symm)]

theorem addSpecs_spec (r : RepoId) (ms : List (SrcSpec α)) : ∀ s : Stores α, s.WF →
    ((∃ s', forM' (addSpec r) ms s = .ok s') ↔ ∀ m ∈ ms, AcceptableSpec m) ∧
    ∀ s', forM' (addSpec r) ms s = .ok s' → s'.WF ∧ s.SameOff r s' ∧ s'.pkg = s.pkg ∧ s'.rev = s.rev ∧
      (∀ n m, LastNamed SrcSpec.name ms n m → s'.src.cell n r = some m) ∧
      (∀ n, (∀ m ∈ ms, m.name ≠ n) → s'.src.cell n r = s.src.cell n r) := by
  induction ms with
  | nil =>
    intro s h
    refine ⟨by simp [forM'], fun s' hs => ?_⟩
    cases hs
    exact ⟨h, Stores.SameOff.refl _ _, rfl, rfl, fun n m ⟨a, b, e, _⟩ => by simp at e, fun _ _ => rfl⟩
  | cons m ms ih =>
    intro s h
    obtain ⟨i1, i2⟩ := addSpec_spec h r m
    cases hp : addSpec r s m with
    | error e =>
      have : ¬ AcceptableSpec m := fun ha => by obtain ⟨s', hs⟩ := i1.mpr ha; rw [hp] at hs; cases hs
      simp [forM', hp, this]
    | ok s1 =>
      obtain ⟨w1, o1, a1, b1, c1, _⟩ := i2 s1 hp
      obtain ⟨j1, j2⟩ := ih s1 w1
      have hm : AcceptableSpec m := i1.mp ⟨s1, hp⟩
      refine ⟨by simp [forM', hp, j1, hm], fun s' hs => ?_⟩
      simp only [forM', hp] at hs
      obtain ⟨w2, o2, a2, b2, c2, d2⟩ := j2 s' hs
      refine ⟨w2, o1.trans o2, a2.trans a1, b2.trans b1, fun n x hx => ?_, fun n hn => ?_⟩
      · rcases (lastNamed_cons_iff _ _ _ _ _).mp hx with hx | ⟨rfl, hn, hno⟩
        · exact c2 n x hx
        · rw [d2 n hno, c1, if_pos hn.symm]
      · rw [d2 n (fun x hx => hn x (by simp [hx])), c1, if_neg (fun e => hn m (by simp) e.symm)]

/-- `Index.update_db` on well-formed databases. -/
theorem updateDb_spec {s : Stores α} (h : s.WF) (ix : Index α) (r : RepoId) :
    ((∃ s', ix.updateDb r s = .ok s') ↔
      (∀ m ∈ ix.packages, Acceptable m) ∧ ∀ sp ∈ ix.specs, AcceptableSpec sp) ∧
    ∀ s', ix.updateDb r s = .ok s' → s'.WF ∧ s.SameOff r s' ∧
      (∀ n m, LastNamed Meta.name ix.packages n m → s'.pkg.cell n r = some m) ∧
      (∀ n, (∀ m ∈ ix.packages, m.name ≠ n) → s'.pkg.cell n r = none) ∧
      (∀ n m, LastNamed SrcSpec.name ix.specs n m → s'.src.cell n r = some m) ∧
      (∀ n, (∀ m ∈ ix.specs, m.name ≠ n) → s'.src.cell n r = none) ∧
      ∃ s2 s3 : Stores α, s2.WF ∧ (∀ n, s2.pkg.cell n r = none) ∧ (∀ n, s2.rev.cell n r = none) ∧
        forM' (addPackage r) ix.packages s2 = .ok s3 ∧ s'.pkg = s3.pkg ∧ s'.rev = s3.rev := by
  obtain ⟨s1, e1, w1, o1, p1, v1, sr1, ps1, _⟩ := compRemoveRepo_spec h r
  obtain ⟨c, ec, wc, oc⟩ := updateComponents_spec r ix.components s1.comp w1.comp
  have w1' : Stores.WF { s1 with comp := c } := ⟨w1.pkg, w1.rev, w1.src, w1.p2s, wc⟩
  have o1' : Stores.SameOff r s { s1 with comp := c } :=
    ⟨o1.pkg, o1.rev, o1.src, o1.p2s, o1.comp.trans oc⟩
  obtain ⟨s2, e2, w2, o2, _, _, _, n2, m2⟩ := pkgRemoveRepo_spec w1' r
  obtain ⟨k1, k2⟩ := addPackages_spec' r ix.packages s2 w2
  unfold Index.updateDb
  simp only [e1, ec, e2]
  cases h3 : forM' (addPackage r) ix.packages s2 with
  | error e =>
    have : ¬ ∀ m ∈ ix.packages, Acceptable m := fun ha => by
      obtain ⟨s', hs⟩ := k1.mpr ha; rw [h3] at hs; cases hs
    simp [this]
  | ok s3 =>
    have hacc := k1.mp ⟨s3, h3⟩
    obtain ⟨w3, o3, _, _, c3, d3⟩ := k2 s3 h3
    obtain ⟨s4, e4, w4, o4, p4, v4, _, n4, _⟩ := srcRemoveRepo_spec w3 r
    obtain ⟨l1, l2⟩ := addSpecs_spec r ix.specs s4 w4
    simp only [e4]
    refine ⟨by rw [l1]; exact ⟨fun h => ⟨hacc, h⟩, fun h => h.2⟩, fun s' hs => ?_⟩
    obtain ⟨w5, o5, p5, v5, c5, d5⟩ := l2 s' hs
    refine ⟨w5, o1'.trans (o2.trans (o3.trans (o4.trans o5))), fun n m hm => ?_, fun n hn => ?_, c5, fun n hn => ?_,
      s2, s3, w2, n2, m2, h3, p5.trans p4, v5.trans v4⟩
    · rw [p5, p4]; exact c3 n m hm
    · rw [p5, p4, d3 n hn, n2]
    · rw [d5 n hn, n4]

end Pisi.DB
