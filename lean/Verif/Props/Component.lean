import Verif.Props.PackageDB
import Verif.Model.Component

/-!
# C53, C55, C56, C57: lookups over all stores, component membership, component expansion, tracked packages
-/
set_option linter.unusedSectionVars false

namespace Pisi.DB
open Pisi.DBSpec
variable {α ρ ν : Type} [DecidableEq α]

/-! ## C55 -/

/-- C55: a lookup over all stores takes the repositories in priority order, then the third-party store, then the
installed store. -/
theorem lookup_all (ops : List (ItemOp α ν)) (l : List Str) (n : α) (v : ν) (r : RepoId) :
    (ItemOp.run ops).getItemRepo l n .alldb = .ok (v, r) ↔
      ItemMap.run ops n r = some v ∧
        FirstWith (fun q => (ItemMap.run ops n q).isSome) (l.map RepoId.repo ++ [.thirdparty, .installed]) r := by
  rw [getItemRepo_order _ _ _ _ (Or.inr rfl), (run_spec ops).2]
  rfl

/-- C55: existence over all stores means that some store has the name. -/
theorem exists_all (ops : List (ItemOp α ν)) (n : α) :
    (ItemOp.run ops).hasKey n .alldb = true ↔ ∃ r, (ItemMap.run ops n r).isSome := by
  obtain ⟨w, c⟩ := run_spec ops
  rw [← c]
  simp only [ItemDB.hasKey, ItemDB.cell, Dict.has]
  cases hg : (ItemOp.run ops).get n with
  | none => simp
  | some s =>
    obtain ⟨hu, hne⟩ := w.inner n s hg
    simp only [Option.isSome_some, Option.bind_some, true_iff]
    cases s with
    | nil => exact absurd rfl hne
    | cons e t => exact ⟨e.1, by obtain ⟨k, v⟩ := e; simp [Dict.get]⟩

/-- C55: the listing over all stores is exactly the names some store has, each once. -/
theorem list_all (ops : List (ItemOp α ν)) :
    ((ItemOp.run ops).list .alldb).Nodup ∧
    ∀ n, n ∈ (ItemOp.run ops).list .alldb ↔ ∃ r, (ItemMap.run ops n r).isSome := by
  obtain ⟨w, c⟩ := run_spec ops
  refine ⟨w.uniq, fun n => ?_⟩
  rw [← exists_all]
  simp only [ItemDB.list, ItemDB.hasKey, Dict.has]
  exact Dict.mem_keys _ _

/-! ## Component cells -/

theorem addPackage_comp {s s' : Stores α} (h : s.WF) (r : RepoId) (m : Meta α) (ha : addPackage r s m = .ok s') (c : α) :
    s'.comp.cell c r =
      if m.partOf = some c then some (Comp.addPackage m.name ((s.comp.cell c r).getD {})) else s.comp.cell c r := by
  unfold addPackage at ha
  simp only [] at ha
  split at ha
  · cases ha
  · split at ha
    · cases ha
    · split at ha
      · cases ha
      · next comp hc =>
        cases ha
        have hs := compAdd_spec h.comp m.partOf r (Comp.addPackage m.name)
        cases hp : m.partOf with
        | none => simp only [hp] at hs hc; rw [hs] at hc; cases hc
        | some k =>
          simp only [hp] at hs hc
          obtain ⟨c', e, _, _, hcell⟩ := hs
          rw [e] at hc; cases hc
          show ItemDB.cell _ c r = _
          rw [hcell]
          by_cases hck : c = k
          · subst hck; simp
          · have : k ≠ c := fun e => hck e.symm
            simp [hck, this]

/-- What removal needs and does on the component. -/
theorem removePackage_comp {s : Stores α} (h : s.WF) (r : RepoId) (n : α) (m : Meta α)
    (hm : s.pkg.cell n r = some m) :
    ((∃ s', removePackage r s n = .ok s') ↔
      m.info.compDeps = [] ∧ ∃ c, m.partOf = some c ∧ (s.comp.cell c r).isSome) ∧
    ∀ s', removePackage r s n = .ok s' → ∀ c, s'.comp.cell c r =
      if m.partOf = some c then (s.comp.cell c r).map (fun x => { x with packages := x.packages.erase m.name })
      else s.comp.cell c r := by
  unfold removePackage
  rw [getItem_one, hm]
  simp only [ItemDB.removeItem]
  have hok : ∃ p, s.pkg.removeItemRepo n r = .ok p := by
    unfold ItemDB.removeItemRepo
    unfold ItemDB.cell at hm
    cases hg : s.pkg.get n with
    | none => rw [hg] at hm; cases hm
    | some d => simp only []; split <;> split <;> exact ⟨_, rfl⟩
  obtain ⟨p, hp⟩ := hok
  simp only [hp, PkgInfo.runtimeDeps]
  by_cases hcd : m.info.compDeps = []
  · simp only [hcd, if_true, true_and]
    obtain ⟨rev1, e, w, _⟩ := dropRevDeps_spec n r m.info.deps s.rev h.rev
    simp only [e]
    have key : ∃ rev2, (if rev1.hasKey n (.one r) = true then liftI (rev1.removeItemRepo n r) else .ok rev1) = .ok rev2 := by
      split
      · next hk =>
        rw [hasKey_one] at hk
        unfold ItemDB.cell at hk
        unfold ItemDB.removeItemRepo
        cases hg : rev1.get n with
        | none => simp [hg] at hk
        | some d => simp only []; split <;> split <;> exact ⟨_, rfl⟩
      · exact ⟨_, rfl⟩
    obtain ⟨rev2, e2⟩ := key
    simp only [e2]
    unfold compRemovePackage
    cases hpo : m.partOf with
    | none => simp
    | some k =>
      simp only [hasKey_one, getItem_one]
      cases hc : s.comp.cell k r with
      | none => simp [hc]
      | some x =>
        simp only [Option.isSome_some, if_true, Option.some.injEq]
        refine ⟨⟨fun _ => ⟨k, rfl, by simp [hc]⟩, fun _ => ⟨_, rfl⟩⟩, ?_⟩
        intro s' hs c
        cases hs
        show ItemDB.cell _ c r = _
        rw [addItem_cell h.comp]
        by_cases hck : c = k
        · subst hck; simp [hc]
        · have : k ≠ c := fun e => hck e.symm
          simp [hck, this]
  · simp [hcd]

/-! ## C56 -/

/-- The component database lists package `p` under component `c` of store `r`. -/
def ListedIn (s : Stores α) (r : RepoId) (c p : α) : Prop :=
  ∃ x, s.comp.getItem [] c (.one r) = .ok x ∧ p ∈ x.packages

theorem listedIn_iff (s : Stores α) (r : RepoId) (c p : α) :
    ListedIn s r c p ↔ ∃ x, s.comp.cell c r = some x ∧ p ∈ x.packages := by
  unfold ListedIn
  rw [getItem_one]
  cases s.comp.cell c r <;> simp

/-- C56, full statement: a component lists exactly the packages of the store that are part of it. -/
def ComponentsExact (α : Type) [DecidableEq α] : Prop :=
  ∀ (r : RepoId) (ops : List (PkgOp α)) (c p : α),
    ListedIn (PkgOp.run r ops) r c p ↔ ∃ m, Has (PkgOp.run r ops) r p m ∧ m.partOf = some c

/-- C56 fails: a package added again under another component stays listed under the old one. -/
theorem components_exact_refuted : ¬ ComponentsExact Nat := by
  intro h
  obtain ⟨m, hm, hp⟩ := (h .installed [.add mOne, .add { mOne with partOf := some 8 }] 9 1).mp
    ⟨_, rfl, List.mem_singleton.mpr rfl⟩
  have e : (PkgOp.run .installed [.add mOne, .add { mOne with partOf := some 8 }]).pkg.getItem [] 1 (.one .installed) =
    .ok { mOne with partOf := some 8 } := by rfl
  unfold Has at hm
  rw [e] at hm
  cases hm
  simp at hp

/-- Component lists agree with the package descriptions, and have no duplicates. -/
structure CompInv (s : Stores α) (r : RepoId) : Prop where
  mem : ∀ c x, s.comp.cell c r = some x → ∀ p, p ∈ x.packages ↔ ∃ m, s.pkg.cell p r = some m ∧ m.partOf = some c
  has : ∀ p m, s.pkg.cell p r = some m → ∃ c, m.partOf = some c ∧ (s.comp.cell c r).isSome
  nodup : ∀ c x, s.comp.cell c r = some x → x.packages.Nodup
  name : ∀ p m, s.pkg.cell p r = some m → m.name = p

theorem mem_addPackage (p q : α) (x : Comp α) : q ∈ (Comp.addPackage p x).packages ↔ q = p ∨ q ∈ x.packages := by
  unfold Comp.addPackage
  split
  · next h => constructor
              · exact Or.inr
              · rintro (rfl | h')
                · exact h
                · exact h'
  · simp [or_comm]

theorem nodup_addPackage (p : α) (x : Comp α) (h : x.packages.Nodup) : (Comp.addPackage p x).packages.Nodup := by
  unfold Comp.addPackage
  split
  · exact h
  · next hp => exact List.nodup_append.mpr ⟨h, by simp, fun a ha b hb => by simp at hb; subst hb; exact fun e => hp (e ▸ ha)⟩

theorem compInv_add {s s' : Stores α} (h : s.WF) (r : RepoId) (m : Meta α) (hi : CompInv s r)
    (hf : s.pkg.cell m.name r = none) (ha : addPackage r s m = .ok s') : CompInv s' r := by
  have hc := addPackage_comp h r m ha
  obtain ⟨_, _, _, _, cp, _⟩ := (addPackage_spec h r m).2 s' ha
  obtain ⟨_, hpo⟩ := (addPackage_spec h r m).1.mp ⟨s', ha⟩
  obtain ⟨k, hk⟩ := Option.isSome_iff_exists.mp hpo
  have hother : ∀ c p, c ≠ k → ((∃ m', s'.pkg.cell p r = some m' ∧ m'.partOf = some c) ↔
      ∃ m', s.pkg.cell p r = some m' ∧ m'.partOf = some c) := by
    intro c p hck
    by_cases hp : p = m.name
    · subst hp
      rw [cp, if_pos rfl, hf]
      simp only [Option.some.injEq, reduceCtorEq, false_and, exists_false, iff_false]
      rintro ⟨m', rfl, h2⟩; rw [hk] at h2; exact hck (by simpa using h2.symm)
    · rw [cp, if_neg hp]
  refine ⟨?_, ?_, ?_, ?_⟩
  · intro c x hx p
    rw [hc] at hx
    by_cases hck : c = k
    · subst hck
      rw [if_pos hk] at hx
      cases hx
      rw [mem_addPackage]
      by_cases hp : p = m.name
      · subst hp
        rw [cp, if_pos rfl]; simp [hk]
      · rw [cp, if_neg hp]
        simp only [hp, false_or]
        cases hcell : s.comp.cell c r with
        | none =>
          simp only [Option.getD_none, List.not_mem_nil, false_iff]
          rintro ⟨m', h1, h2⟩
          obtain ⟨c', h3, h4⟩ := hi.has p m' h1
          rw [h2] at h3; cases h3; rw [hcell] at h4; cases h4
        | some y => exact hi.mem c y hcell p
    · have : k ≠ c := fun e => hck e.symm
      rw [if_neg (by simpa [hk] using this)] at hx
      rw [hi.mem c x hx p, hother c p hck]
  · intro p m' hm'
    rw [cp] at hm'
    have up : ∀ c, (s.comp.cell c r).isSome → (s'.comp.cell c r).isSome := by
      intro c h1; rw [hc]; split <;> simp [h1]
    split at hm'
    · cases hm'; exact ⟨k, hk, by rw [hc, if_pos hk]; rfl⟩
    · obtain ⟨c, h1, h2⟩ := hi.has p m' hm'; exact ⟨c, h1, up c h2⟩
  · intro c x hx
    rw [hc] at hx
    split at hx
    · cases hx
      refine nodup_addPackage _ _ ?_
      cases hcell : s.comp.cell c r with
      | none => simp
      | some y => exact hi.nodup c y hcell
    · exact hi.nodup c x hx
  · intro p m' hm'
    rw [cp] at hm'
    split at hm'
    · next e => cases hm'; exact e.symm
    · exact hi.name p m' hm'

theorem compInv_remove {s s' : Stores α} (h : s.WF) (r : RepoId) (n : α) (hi : CompInv s r)
    (ha : removePackage r s n = .ok s') : CompInv s' r := by
  cases hcn : s.pkg.cell n r with
  | none => rw [removePackage_absent s r n hcn] at ha; cases ha
  | some m =>
    have hc := (removePackage_comp h r n m hcn).2 s' ha
    obtain ⟨_, _, _, _, cp, _⟩ := removePackage_spec h r n m hcn ha
    have hname : m.name = n := hi.name n m hcn
    refine ⟨?_, ?_, ?_, ?_⟩
    · intro c x hx p
      rw [hc] at hx
      by_cases hpo : m.partOf = some c
      · rw [if_pos hpo] at hx
        cases hcell : s.comp.cell c r with
        | none => rw [hcell] at hx; cases hx
        | some y =>
          rw [hcell] at hx; cases hx
          show p ∈ y.packages.erase m.name ↔ _
          rw [(hi.nodup c y hcell).mem_erase_iff, hi.mem c y hcell p, hname, cp]
          by_cases hp : p = n
          · simp [hp]
          · simp [hp]
      · rw [if_neg hpo] at hx
        rw [hi.mem c x hx p, cp]
        by_cases hp : p = n
        · subst hp
          simp only [hcn, if_true, Option.some.injEq, reduceCtorEq, false_and, exists_false, iff_false]
          rintro ⟨m', rfl, h2⟩; exact hpo h2
        · simp [hp]
    · intro p m' hm'
      rw [cp] at hm'
      split at hm'
      · cases hm'
      · obtain ⟨c, h1, h2⟩ := hi.has p m' hm'
        refine ⟨c, h1, ?_⟩
        rw [hc]; split <;> simp [h2]
    · intro c x hx
      rw [hc] at hx
      split at hx
      · cases hcell : s.comp.cell c r with
        | none => rw [hcell] at hx; cases hx
        | some y => rw [hcell] at hx; cases hx; exact (hi.nodup c y hcell).erase _
      · exact hi.nodup c x hx
    · intro p m' hm'
      rw [cp] at hm'
      split at hm'
      · cases hm'
      · exact hi.name p m' hm'

theorem compInv_run (r : RepoId) (ops : List (PkgOp α)) (hf : FreshAdds r ops) : CompInv (PkgOp.run r ops) r := by
  induction ops using snoc_induction with
  | h0 => exact ⟨by simp [PkgOp.run, cell_nil], by simp [PkgOp.run, cell_nil], by simp [PkgOp.run, cell_nil],
      by simp [PkgOp.run, cell_nil]⟩
  | hs ops op ih =>
    have ih' := ih (fun pre m post e => hf pre m (post ++ [op]) (by simp [e]))
    rw [pkg_run_snoc]
    cases op with
    | add m =>
      simp only [PkgOp.step]
      cases hp : addPackage r (PkgOp.run r ops) m with
      | error e => exact ih'
      | ok s' =>
        refine compInv_add (pkg_run_wf r ops) r m ih' ?_ hp
        cases hc : (PkgOp.run r ops).pkg.cell m.name r with
        | none => rfl
        | some m' => exact absurd ((has_iff_cell _ _ _ _).mpr hc) (hf ops m [] rfl m')
    | remove n =>
      simp only [PkgOp.step]
      cases hp : removePackage r (PkgOp.run r ops) n with
      | error e => exact ih'
      | ok s' => exact compInv_remove (pkg_run_wf r ops) r n ih' hp

/-- C56 for histories that add packages only when absent (as install, reinstall and upgrade do).  Missing for the full
statement: histories that overwrite a package, for which it is false. -/
theorem components_exact_partial (r : RepoId) (ops : List (PkgOp α)) (hf : FreshAdds r ops) (c p : α) :
    ListedIn (PkgOp.run r ops) r c p ↔ ∃ m, Has (PkgOp.run r ops) r p m ∧ m.partOf = some c := by
  have hi := compInv_run r ops hf
  rw [listedIn_iff]
  simp only [has_iff_cell]
  constructor
  · rintro ⟨x, hx, hp⟩; exact (hi.mem c x hx p).mp hp
  · rintro ⟨m, hm, hp⟩
    obtain ⟨c', h1, h2⟩ := hi.has p m hm
    rw [hp] at h1; cases h1
    obtain ⟨x, hx⟩ := Option.isSome_iff_exists.mp h2
    exact ⟨x, hx, (hi.mem c x hx p).mpr ⟨m, hm, hp⟩⟩

/-! ## C57 -/

/-- What every reachable state satisfies for each tracking store: descriptions were accepted and their component exists. -/
def TrackOK (s : Stores α) (r : RepoId) : Prop :=
  ∀ p m, s.pkg.cell p r = some m → m.info.compDeps = [] ∧ ∃ c, m.partOf = some c ∧ (s.comp.cell c r).isSome

theorem trackOK_off {s s' : Stores α} {q r : RepoId} (h : TrackOK s r) (ho : s.SameOff q s') (hq : r ≠ q) :
    TrackOK s' r := by
  intro p m hm
  rw [ho.pkg p r hq] at hm
  obtain ⟨a, c, b, d⟩ := h p m hm
  exact ⟨a, c, b, by rw [ho.comp c r hq]; exact d⟩

theorem trackOK_add {s s' : Stores α} (h : s.WF) (q r : RepoId) (m : Meta α) (hi : TrackOK s r)
    (ha : addPackage q s m = .ok s') : TrackOK s' r := by
  obtain ⟨_, o, _, _, cp, _⟩ := (addPackage_spec h q m).2 s' ha
  by_cases hq : r = q
  · subst hq
    have hc := addPackage_comp h r m ha
    obtain ⟨hcd, hpo⟩ := (addPackage_spec h r m).1.mp ⟨s', ha⟩
    obtain ⟨k, hk⟩ := Option.isSome_iff_exists.mp hpo
    intro p m' hm'
    rw [cp] at hm'
    split at hm'
    · cases hm'; exact ⟨hcd, k, hk, by rw [hc, if_pos hk]; rfl⟩
    · obtain ⟨a, c, b, d⟩ := hi p m' hm'
      exact ⟨a, c, b, by rw [hc]; split <;> simp [d]⟩
  · exact trackOK_off hi o hq

theorem trackOK_remove {s s' : Stores α} (h : s.WF) (q r : RepoId) (n : α) (hi : TrackOK s r)
    (ha : removePackage q s n = .ok s') : TrackOK s' r := by
  cases hcn : s.pkg.cell n q with
  | none => rw [removePackage_absent s q n hcn] at ha; cases ha
  | some m =>
    obtain ⟨_, o, _, _, cp, _⟩ := removePackage_spec h q n m hcn ha
    by_cases hq : r = q
    · subst hq
      have hc := (removePackage_comp h r n m hcn).2 s' ha
      intro p m' hm'
      rw [cp] at hm'
      split at hm'
      · cases hm'
      · obtain ⟨a, c, b, d⟩ := hi p m' hm'
        exact ⟨a, c, b, by rw [hc]; split <;> simp [d]⟩
    · exact trackOK_off hi o hq

/-- One store of `remove_tracking_package`. -/
theorem untrack_one {s : Stores α} (h : s.WF) (r : RepoId) (n : α) (hi : TrackOK s r) :
    ∃ s', (if s.pkg.hasKey n (.one r) = true then removePackage r s n else .ok s) = .ok s' ∧ s'.WF ∧
      s.SameOff r s' ∧ ∀ k, s'.pkg.cell k r = if k = n then none else s.pkg.cell k r := by
  rw [hasKey_one]
  cases hc : s.pkg.cell n r with
  | none =>
    refine ⟨s, by simp, h, Stores.SameOff.refl _ _, fun k => ?_⟩
    split
    · next e => rw [e, hc]
    · rfl
  | some m =>
    obtain ⟨s', hs'⟩ := (removePackage_comp h r n m hc).1.mpr (hi n m hc)
    obtain ⟨w, o, _, _, cp, _⟩ := removePackage_spec h r n m hc hs'
    exact ⟨s', by simp [hs'], w, o, cp⟩

theorem untrack_spec {s : Stores α} (h : s.WF) (n : α) (h1 : TrackOK s .installed) (h2 : TrackOK s .thirdparty) :
    ∃ s', removeTracking s n = .ok s' ∧
      (∀ k r, s'.pkg.cell k r = if k = n ∧ (r = .installed ∨ r = .thirdparty) then none else s.pkg.cell k r) ∧
      TrackOK s' .installed ∧ TrackOK s' .thirdparty := by
  obtain ⟨a, ea, wa, oa, ca⟩ := untrack_one h .installed n h1
  obtain ⟨b, eb, wb, ob, cb⟩ := untrack_one wa .thirdparty n (trackOK_off h2 oa (by simp))
  have t1 : TrackOK a .installed := by
    split at ea
    · exact trackOK_remove h _ _ n h1 ea
    · cases ea; exact h1
  refine ⟨b, by simp only [removeTracking, ea, eb], fun k r => ?_, trackOK_off t1 ob (by simp), ?_⟩
  · cases r with
    | repo x => rw [ob.pkg k _ (by simp), oa.pkg k _ (by simp)]; simp
    | thirdparty => rw [cb, oa.pkg k _ (by simp)]; simp
    | installed => rw [ob.pkg k _ (by simp), ca]; simp
  · have t2 := trackOK_off h2 oa (by simp)
    split at eb
    · exact trackOK_remove wa _ _ n t2 eb
    · cases eb; exact t2

theorem track_run (ops : List (SysOp α ρ)) :
    TrackOK (SysOp.run ops).stores .installed ∧ TrackOK (SysOp.run ops).stores .thirdparty := by
  induction ops using snoc_induction with
  | h0 => constructor <;> · intro p m hm; simp [SysOp.run, cell_nil] at hm
  | hs ops op ih =>
    obtain ⟨l, hs⟩ := sys_run ops
    have e : SysOp.run (ops ++ [op]) = SysOp.step (SysOp.run ops) op := by simp [SysOp.run]
    rw [e]
    generalize SysOp.run ops = y at hs ih
    obtain ⟨i1, i2⟩ := ih
    cases op with
    | addRepo n x pos =>
      simp only [SysOp.step]
      cases y.repos.addRepo n x pos <;> exact ⟨i1, i2⟩
    | removeRepo n =>
      simp only [SysOp.step]
      rcases removeRepo_sys hs n with ⟨e, _⟩ | ⟨_, y', e, _, o, _⟩
      · rw [e]; exact ⟨i1, i2⟩
      · rw [e]; exact ⟨trackOK_off i1 o (by simp), trackOK_off i2 o (by simp)⟩
    | updateRepo n ix =>
      simp only [SysOp.step, System.updateRepo]
      by_cases hh : y.repos.hasRepo n = true
      · simp only [hh, if_true]
        cases hu : ix.updateDb (.repo n) y.stores with
        | error e => exact ⟨i1, i2⟩
        | ok s =>
          obtain ⟨_, o, _⟩ := (updateDb_spec hs.wf ix (.repo n)).2 s hu
          exact ⟨trackOK_off i1 o (by simp), trackOK_off i2 o (by simp)⟩
      · simp only [hh]; exact ⟨i1, i2⟩
    | track r m =>
      cases r with
      | repo n => exact ⟨i1, i2⟩
      | thirdparty =>
        simp only [SysOp.step]
        cases ha : addPackage .thirdparty y.stores m with
        | error e => exact ⟨i1, i2⟩
        | ok s => exact ⟨trackOK_add hs.wf _ _ m i1 ha, trackOK_add hs.wf _ _ m i2 ha⟩
      | installed =>
        simp only [SysOp.step]
        cases ha : addPackage .installed y.stores m with
        | error e => exact ⟨i1, i2⟩
        | ok s => exact ⟨trackOK_add hs.wf _ _ m i1 ha, trackOK_add hs.wf _ _ m i2 ha⟩
    | untrack name =>
      obtain ⟨s', e, _, t1, t2⟩ := untrack_spec hs.wf name i1 i2
      simp only [SysOp.step, e]
      exact ⟨t1, t2⟩

/-- C57: in every reachable state `remove_tracking_package` succeeds; afterwards the package is in neither tracking
store, and every other description in every store is as before. -/
theorem remove_tracking_exact (ops : List (SysOp α ρ)) (n : α) :
    ∃ s, removeTracking (SysOp.run ops).stores n = .ok s ∧
      ∀ k r, s.pkg.getItem [] k (.one r) =
        if k = n ∧ (r = .installed ∨ r = .thirdparty) then .error .notFound
        else (SysOp.run ops).stores.pkg.getItem [] k (.one r) := by
  obtain ⟨l, hs⟩ := sys_run ops
  obtain ⟨s', e, hc, _⟩ := untrack_spec hs.wf n (track_run ops).1 (track_run ops).2
  refine ⟨s', e, fun k r => ?_⟩
  simp only [getItem_one, hc]
  by_cases hk : k = n ∧ (r = .installed ∨ r = .thirdparty)
  · rw [if_pos hk, if_pos hk]
  · rw [if_neg hk, if_neg hk]

/-- C57: adding to a tracking store succeeds exactly for descriptions without component dependencies that name a
component; afterwards the store has that description, and every other description is as before. -/
theorem track_exact (ops : List (SysOp α ρ)) (q : RepoId) (m : Meta α) :
    ((∃ s, addPackage q (SysOp.run ops).stores m = .ok s) ↔ m.info.compDeps = [] ∧ m.partOf.isSome) ∧
    ∀ s, addPackage q (SysOp.run ops).stores m = .ok s → ∀ k r, s.pkg.getItem [] k (.one r) =
      if k = m.name ∧ r = q then .ok m else (SysOp.run ops).stores.pkg.getItem [] k (.one r) := by
  obtain ⟨l, hs⟩ := sys_run ops
  refine ⟨(addPackage_spec hs.wf q m).1, fun s e k r => ?_⟩
  obtain ⟨_, o, _, _, cp, _⟩ := (addPackage_spec hs.wf q m).2 s e
  simp only [getItem_one]
  by_cases hr : r = q
  · subst hr
    rw [cp]
    by_cases hk : k = m.name <;> simp [hk]
  · rw [o.pkg k r hr]; simp [hr]

/-! ## C53 -/

theorem mem_unionField (f : Comp α → List α) (s : Dict RepoId (Comp α)) (rs : List RepoId) (p : α) :
    p ∈ unionField f s rs ↔ ∃ r ∈ rs, ∃ c, s.get r = some c ∧ p ∈ f c := by
  induction rs with
  | nil => simp [unionField]
  | cons r rs ih =>
    simp only [unionField]
    cases h : s.get r with
    | none => simp [ih, h]
    | some c => simp [ih, h]

/-- `name` is a component of some listed repository. -/
def IsComponent (c : ItemDB α (Comp α)) (l : List Str) (x : α) : Prop :=
  ∃ repo ∈ l, ∃ u, c.getItem [] x (.one (.repo repo)) = .ok u

/-- `p` belongs to the expansion of `A`: a requested name that is no component, or a member (`f`) of a requested
component in some listed repository. -/
def InExpansion (f : Comp α → List α) (c : ItemDB α (Comp α)) (l : List Str) (A : List α) (p : α) : Prop :=
  (p ∈ A ∧ ¬ IsComponent c l p) ∨
  ∃ x ∈ A, ∃ repo ∈ l, ∃ u, c.getItem [] x (.one (.repo repo)) = .ok u ∧ p ∈ f u

theorem getUnionComp_spec {c : ItemDB α (Comp α)} (h : c.WF) (l : List Str) (ho : OnlyListed l c) (x : α) :
    (c.hasKey x .repos = true ↔ IsComponent c l x) ∧
    (c.hasKey x .repos = true → ∃ u, getUnionComp c l x = .ok u ∧
      (∀ p, p ∈ u.packages ↔ ∃ repo ∈ l, ∃ v, c.getItem [] x (.one (.repo repo)) = .ok v ∧ p ∈ v.packages) ∧
      (∀ p, p ∈ u.sources ↔ ∃ repo ∈ l, ∃ v, c.getItem [] x (.one (.repo repo)) = .ok v ∧ p ∈ v.sources)) := by
  have hcell : ∀ repo v, c.getItem [] x (.one (.repo repo)) = .ok v ↔ c.cell x (.repo repo) = some v := by
    intro repo v; rw [getItem_one]; cases c.cell x (.repo repo) <;> simp
  have h1 : c.hasKey x .repos = true ↔ ∃ y, (c.cell x (.repo y)).isSome := by
    unfold ItemDB.hasKey ItemDB.cell
    cases hg : c.get x with
    | none => simp
    | some s =>
      obtain ⟨hu, hne⟩ := h.inner x s hg
      simpa using notJustTracking_iff s hu hne
  refine ⟨?_, fun hk => ?_⟩
  · rw [h1]
    unfold IsComponent
    simp only [hcell]
    constructor
    · rintro ⟨y, hy⟩; exact ⟨y, ho x y hy, Option.isSome_iff_exists.mp hy⟩
    · rintro ⟨y, _, u, hu⟩; exact ⟨y, by simp [hu]⟩
  · obtain ⟨v, hv⟩ := (exists_iff_lookup_cells h l ho x).mp hk
    unfold getUnionComp
    cases hg : c.get x with
    | none => simp [ItemDB.hasKey, hg] at hk
    | some s =>
      simp only [hv]
      have hm : ∀ (f : Comp α → List α) p, p ∈ unionField f s (ItemDB.order l .repos) ↔
          ∃ repo ∈ l, ∃ v, c.getItem [] x (.one (.repo repo)) = .ok v ∧ p ∈ f v := by
        intro f p
        rw [mem_unionField]
        simp only [hcell, ItemDB.cell, hg, Option.bind_some, ItemDB.order, List.mem_map]
        constructor
        · rintro ⟨_, ⟨y, hy, rfl⟩, hc⟩; exact ⟨y, hy, hc⟩
        · rintro ⟨y, hy, hc⟩; exact ⟨_, ⟨y, hy, rfl⟩, hc⟩
      exact ⟨_, rfl, hm _, hm _⟩

theorem expandWith_spec (f : Comp α → List α) (hf : f = Comp.packages ∨ f = Comp.sources) {c : ItemDB α (Comp α)} (h : c.WF)
    (l : List Str) (ho : OnlyListed l c) (A : List α) :
    ∃ E, expandWith f c l A = .ok E ∧ ∀ p, p ∈ E ↔ InExpansion f c l A p := by
  induction A with
  | nil => exact ⟨[], rfl, by simp [InExpansion]⟩
  | cons x xs ih =>
    obtain ⟨E', e', hE'⟩ := ih
    obtain ⟨g1, g2⟩ := getUnionComp_spec h l ho x
    simp only [expandWith]
    by_cases hk : c.hasKey x .repos = true
    · obtain ⟨u, hu, hp, hs⟩ := g2 hk
      have hfu : ∀ p, p ∈ f u ↔ ∃ repo ∈ l, ∃ v, c.getItem [] x (.one (.repo repo)) = .ok v ∧ p ∈ f v := by
        rcases hf with rfl | rfl
        · exact hp
        · exact hs
      simp only [hk, if_true, hu, e']
      refine ⟨_, rfl, fun p => ?_⟩
      rw [List.mem_append, hE', hfu]
      have hx := g1.mp hk
      unfold InExpansion
      constructor
      · rintro (h1 | ⟨h1, h2⟩ | ⟨y, hy, h1⟩)
        · exact Or.inr ⟨x, by simp, h1⟩
        · exact Or.inl ⟨by simp [h1], h2⟩
        · exact Or.inr ⟨y, by simp [hy], h1⟩
      · rintro (⟨h1, h2⟩ | ⟨y, hy, h1⟩)
        · rcases List.mem_cons.mp h1 with rfl | h1
          · exact absurd hx h2
          · exact Or.inr (Or.inl ⟨h1, h2⟩)
        · rcases List.mem_cons.mp hy with rfl | hy
          · exact Or.inl h1
          · exact Or.inr (Or.inr ⟨y, hy, h1⟩)
    · simp only [hk, e']
      refine ⟨[x] ++ E', rfl, fun p => ?_⟩
      have hx : ¬ IsComponent c l x := fun hh => hk (g1.mpr hh)
      rw [List.mem_append, hE', List.mem_singleton]
      unfold InExpansion
      constructor
      · rintro (rfl | ⟨h1, h2⟩ | ⟨y, hy, h1⟩)
        · exact Or.inl ⟨by simp, hx⟩
        · exact Or.inl ⟨by simp [h1], h2⟩
        · exact Or.inr ⟨y, by simp [hy], h1⟩
      · rintro (⟨h1, h2⟩ | ⟨y, hy, h1⟩)
        · rcases List.mem_cons.mp h1 with rfl | h1
          · exact Or.inl rfl
          · exact Or.inr (Or.inl ⟨h1, h2⟩)
        · rcases List.mem_cons.mp hy with rfl | hy
          · obtain ⟨repo, hr, u, hu, _⟩ := h1
            exact absurd ⟨repo, hr, u, hu⟩ hx
          · exact Or.inr (Or.inr ⟨y, hy, h1⟩)

/-- C53: in every reachable state, expanding names succeeds, keeps names that are no components and
replaces every component by its packages (sources) in all listed repositories, and adds nothing else. -/
theorem expand_components_exact (ops : List (SysOp α ρ)) (l : List Str) (hl : (SysOp.run ops).repos.list = .ok l)
    (A : List α) :
    (∃ E, expandWith Comp.packages (SysOp.run ops).stores.comp l A = .ok E ∧
      ∀ p, p ∈ E ↔ InExpansion Comp.packages (SysOp.run ops).stores.comp l A p) ∧
    (∃ E, expandWith Comp.sources (SysOp.run ops).stores.comp l A = .ok E ∧
      ∀ p, p ∈ E ↔ InExpansion Comp.sources (SysOp.run ops).stores.comp l A p) := by
  obtain ⟨l0, h⟩ := sys_run ops
  have : l0 = l := by simp [RepoDB.list, h.repos.order] at hl; exact hl
  subst this
  exact ⟨expandWith_spec _ (Or.inl rfl) h.wf.comp l0 h.comp A, expandWith_spec _ (Or.inr rfl) h.wf.comp l0 h.comp A⟩

/-! ## Non-vacuity -/
section Examples

example : expandWith Comp.packages (SysOp.run sysEx).stores.comp [['b'], ['a']] [9, 4] = .ok [2, 1, 4] := by rfl
example : expandWith Comp.sources (SysOp.run sysEx).stores.comp [['b'], ['a']] [9, 4] = .ok [5, 4] := by rfl
example : (ItemOp.run opsEx).getItemRepo [['a'], ['b']] 2 .alldb = .ok (50, .thirdparty) := by rfl
example : ListedIn (PkgOp.run .installed [.add mTwo, .add mOne, .remove 1]) .installed 9 2 :=
  ⟨_, rfl, List.mem_singleton.mpr rfl⟩
example : ∃ s, removeTracking (SysOp.run sysEx).stores 2 = .ok s ∧ s.pkg.hasKey 2 (.one .installed) = false ∧
  s.pkg.hasKey 2 (.one (.repo ['a'])) = true := ⟨_, rfl, rfl, rfl⟩

end Examples

end Pisi.DB
