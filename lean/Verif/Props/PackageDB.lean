import Verif.Lemmas.PackageDB
import Verif.Props.InstallDB

/-!
# C20, C26, C27, C28: package records, the repository list, index updates
-/
set_option linter.unusedSectionVars false

namespace Pisi.DB
open Pisi.DBSpec
variable {α ρ : Type} [DecidableEq α]

theorem has_iff_cell (s : Stores α) (r : RepoId) (y : α) (m : Meta α) : Has s r y m ↔ s.pkg.cell y r = some m := by
  unfold Has
  rw [getItem_one]
  cases s.pkg.cell y r <;> simp

/-! ## C20 -/

/-- Additions and removals in one store. -/
inductive PkgOp (α : Type) where
  | add (m : Meta α)
  | remove (name : α)

/-- One operation on store `r`; an error leaves the state unchanged. -/
def PkgOp.step (r : RepoId) (s : Stores α) : PkgOp α → Stores α
  | .add m => match addPackage r s m with
    | .ok s' => s'
    | .error _ => s
  | .remove n => match removePackage r s n with
    | .ok s' => s'
    | .error _ => s

/-- The state after a history. -/
def PkgOp.run (r : RepoId) (ops : List (PkgOp α)) : Stores α := ops.foldl (PkgOp.step r) {}

theorem stores_wf_nil : Stores.WF ({} : Stores α) := ⟨wf_nil, wf_nil, wf_nil, wf_nil, wf_nil⟩

theorem pkg_run_snoc (r : RepoId) (ops : List (PkgOp α)) (op : PkgOp α) :
    PkgOp.run r (ops ++ [op]) = PkgOp.step r (PkgOp.run r ops) op := by simp [PkgOp.run]

theorem pkg_step_wf {s : Stores α} (h : s.WF) (r : RepoId) (op : PkgOp α) : (op.step r s).WF := by
  cases op with
  | add m =>
    simp only [PkgOp.step]
    cases hp : addPackage r s m with
    | ok s' => exact ((addPackage_spec h r m).2 s' hp).1
    | error e => exact h
  | remove n =>
    simp only [PkgOp.step]
    cases hp : removePackage r s n with
    | ok s' =>
      cases hc : s.pkg.cell n r with
      | none => rw [removePackage_absent s r n hc] at hp; cases hp
      | some m => exact (removePackage_spec h r n m hc hp).1
    | error e => exact h

theorem pkg_run_wf (r : RepoId) (ops : List (PkgOp α)) : (PkgOp.run r ops).WF := by
  induction ops using snoc_induction with
  | h0 => exact stores_wf_nil
  | hs l a ih => rw [pkg_run_snoc]; exact pkg_step_wf ih r a

/-- C20, full statement. -/
def RevDepsExact (α : Type) [DecidableEq α] : Prop :=
  ∀ (r : RepoId) (ops : List (PkgOp α)) (x y : α),
    ListedRev (PkgOp.run r ops) r x y ↔ ∃ m, Has (PkgOp.run r ops) r y m ∧ DependsOn m x

section Witness

/-- Package 1 depends on package 2. -/
def mOne : Meta Nat := { name := 1, info := { version := ['1'], release := ['1'], deps := [{ package := 2 }] }, partOf := some 9 }
/-- Package 2. -/
def mTwo : Meta Nat := { name := 2, info := { version := ['1'], release := ['1'] }, partOf := some 9 }
/-- Package 1 without dependencies. -/
def mOne' : Meta Nat := { mOne with info := { version := ['2'], release := ['1'] } }

/-- C20 fails: replacing package 2 (remove, then add, as reinstall and upgrade do) forgets that package 1 depends on it. -/
theorem rev_deps_refuted : ¬ RevDepsExact Nat := by
  intro h
  have h1 := (h .installed [.add mTwo, .add mOne, .remove 2, .add mTwo] 2 1).mpr
    ⟨mOne, by rfl, ⟨{ package := 2 }, by simp [mOne], rfl⟩⟩
  obtain ⟨l, d, hl, hm⟩ := h1
  have e : getRevDeps (PkgOp.run .installed [.add mTwo, .add mOne, .remove 2, .add mTwo]) 2 .installed = .ok [] := by rfl
  rw [e] at hl; cases hl; cases hm

/-- C20 fails in the other direction too: adding a package again without a dependency it had keeps the old record. -/
theorem rev_deps_stale : ListedRev (PkgOp.run .installed [.add mOne, .add mOne']) .installed 2 1 ∧
    ∀ m, Has (PkgOp.run .installed [.add mOne, .add mOne']) .installed 1 m → ¬ DependsOn m 2 := by
  refine ⟨⟨_, _, rfl, List.mem_singleton.mpr rfl⟩, ?_⟩
  intro m hm
  have e : (PkgOp.run .installed [.add mOne, .add mOne']).pkg.getItem [] 1 (.one .installed) = .ok mOne' := by rfl
  unfold Has at hm
  rw [e] at hm
  cases hm
  rintro ⟨d, hd, _⟩; simp [mOne'] at hd

end Witness

/-- Packages are added only when the store does not have them. -/
def FreshAdds (r : RepoId) (ops : List (PkgOp α)) : Prop :=
  ∀ pre m post, ops = pre ++ .add m :: post → ∀ m', ¬ Has (PkgOp.run r pre) r m.name m'

/-- Packages are removed only when no other package of the store depends on them. -/
def LeafRemoves (r : RepoId) (ops : List (PkgOp α)) : Prop :=
  ∀ pre x post, ops = pre ++ .remove x :: post → ∀ y m, Has (PkgOp.run r pre) r y m → DependsOn m x → y = x

/-- Every reverse dependency record is genuine. -/
def RevSound (s : Stores α) (r : RepoId) : Prop :=
  ∀ x y d, (y, d) ∈ rv s.rev r x → ∃ m, s.pkg.cell y r = some m ∧ d ∈ m.info.deps ∧ d.package = x

/-- Every dependency has a record. -/
def RevComplete (s : Stores α) (r : RepoId) : Prop :=
  ∀ x y m, s.pkg.cell y r = some m → DependsOn m x → ∃ d, (y, d) ∈ rv s.rev r x

theorem last_dep (ds : List (Dep α)) (x : α) :
    (∀ d ∈ ds, d.package ≠ x) ∨ ∃ a d b, ds = a ++ d :: b ∧ d.package = x ∧ ∀ e ∈ b, e.package ≠ d.package := by
  induction ds with
  | nil => simp
  | cons f fs ih =>
    rcases ih with h | ⟨a, d, b, rfl, hd, hb⟩
    · by_cases hf : f.package = x
      · right; exact ⟨[], f, fs, rfl, hf, fun e he => by rw [hf]; exact h e he⟩
      · left; intro e he
        rcases List.mem_cons.mp he with rfl | he
        · exact hf
        · exact h e he
    · right; exact ⟨f :: a, d, b, rfl, hd, hb⟩

theorem addPackage_sound {s s' : Stores α} (h : s.WF) (r : RepoId) (m : Meta α) (hs : RevSound s r)
    (hf : s.pkg.cell m.name r = none) (ha : addPackage r s m = .ok s') : RevSound s' r := by
  obtain ⟨_, _, _, _, c, v1, v2⟩ := (addPackage_spec h r m).2 s' ha
  have old : ∀ x y d, (y, d) ∈ rv s.rev r x → ∃ m, s'.pkg.cell y r = some m ∧ d ∈ m.info.deps ∧ d.package = x := by
    intro x y d hm
    obtain ⟨m1, h1, h2, h3⟩ := hs x y d hm
    refine ⟨m1, ?_, h2, h3⟩
    rw [c, if_neg (fun e => by rw [e, hf] at h1; cases h1)]; exact h1
  intro x y d hm
  rcases last_dep m.info.deps x with hno | ⟨a, d', b, he, rfl, hb⟩
  · rw [v1 x hno] at hm; exact old x y d hm
  · rw [v2 a d' b he hb] at hm
    rcases List.mem_append.mp hm with hm | hm
    · exact old _ y d (List.mem_filter.mp hm).1
    · simp at hm; obtain ⟨rfl, rfl⟩ := hm
      exact ⟨m, by rw [c, if_pos rfl], by simp [he], rfl⟩

theorem addPackage_complete {s s' : Stores α} (h : s.WF) (r : RepoId) (m : Meta α) (hs : RevComplete s r)
    (ha : addPackage r s m = .ok s') : RevComplete s' r := by
  obtain ⟨_, _, _, _, c, v1, v2⟩ := (addPackage_spec h r m).2 s' ha
  intro x y m1 hm1 hd
  rw [c] at hm1
  by_cases hy : y = m.name
  · rw [if_pos hy] at hm1; cases hm1
    rcases last_dep m.info.deps x with hno | ⟨a, d', b, he, rfl, hb⟩
    · obtain ⟨d, hd1, hd2⟩ := hd; exact absurd hd2 (hno d hd1)
    · exact ⟨d', by rw [v2 a d' b he hb, hy]; simp⟩
  · rw [if_neg hy] at hm1
    obtain ⟨d, hd⟩ := hs x y m1 hm1 hd
    refine ⟨d, ?_⟩
    rcases last_dep m.info.deps x with hno | ⟨a, d', b, he, rfl, hb⟩
    · rw [v1 x hno]; exact hd
    · rw [v2 a d' b he hb]
      exact List.mem_append.mpr (Or.inl (List.mem_filter.mpr ⟨hd, by simpa using hy⟩))

theorem removePackage_sound {s s' : Stores α} (h : s.WF) (r : RepoId) (n : α) (hs : RevSound s r)
    (ha : removePackage r s n = .ok s') : RevSound s' r := by
  cases hc : s.pkg.cell n r with
  | none => rw [removePackage_absent s r n hc] at ha; cases ha
  | some m =>
    obtain ⟨_, _, _, _, c, _, v1, v2, v3⟩ := removePackage_spec h r n m hc ha
    intro x y d hm
    by_cases hx : x = n
    · subst hx; rw [v3] at hm; cases hm
    · by_cases hd : ∃ d ∈ m.info.deps, d.package = x
      · rw [v2 x hx hd] at hm
        obtain ⟨hm1, hm2⟩ := List.mem_filter.mp hm
        obtain ⟨m1, h1, h2, h3⟩ := hs x y d hm1
        exact ⟨m1, by rw [c, if_neg (by simpa using hm2)]; exact h1, h2, h3⟩
      · rw [v1 x hx (fun d hd1 hd2 => hd ⟨d, hd1, hd2⟩)] at hm
        obtain ⟨m1, h1, h2, h3⟩ := hs x y d hm
        have hy : y ≠ n := fun e => by
          subst e; rw [hc] at h1; cases h1; exact hd ⟨d, h2, h3⟩
        exact ⟨m1, by rw [c, if_neg hy]; exact h1, h2, h3⟩

theorem removePackage_complete {s s' : Stores α} (h : s.WF) (r : RepoId) (n : α) (hs : RevComplete s r)
    (hl : ∀ y m, s.pkg.cell y r = some m → DependsOn m n → y = n) (ha : removePackage r s n = .ok s') :
    RevComplete s' r := by
  cases hc : s.pkg.cell n r with
  | none => rw [removePackage_absent s r n hc] at ha; cases ha
  | some m =>
    obtain ⟨_, _, _, _, c, _, v1, v2, v3⟩ := removePackage_spec h r n m hc ha
    intro x y m1 hm1 hdep
    rw [c] at hm1
    by_cases hy : y = n
    · rw [if_pos hy] at hm1; cases hm1
    · rw [if_neg hy] at hm1
      have hx : x ≠ n := fun e => hy (hl y m1 hm1 (e ▸ hdep))
      obtain ⟨d, hd⟩ := hs x y m1 hm1 hdep
      refine ⟨d, ?_⟩
      by_cases hdd : ∃ d ∈ m.info.deps, d.package = x
      · rw [v2 x hx hdd]; exact List.mem_filter.mpr ⟨hd, by simpa using hy⟩
      · rw [v1 x hx (fun d hd1 hd2 => hdd ⟨d, hd1, hd2⟩)]; exact hd

theorem rev_sound_run (r : RepoId) (ops : List (PkgOp α)) (hf : FreshAdds r ops) : RevSound (PkgOp.run r ops) r := by
  induction ops using snoc_induction with
  | h0 => intro x y d hm; simp [PkgOp.run, rv, cell_nil] at hm
  | hs ops op ih =>
    have ih' := ih (fun pre m post e => hf pre m (post ++ [op]) (by simp [e]))
    rw [pkg_run_snoc]
    cases op with
    | add m =>
      simp only [PkgOp.step]
      cases hp : addPackage r (PkgOp.run r ops) m with
      | error e => exact ih'
      | ok s' =>
        refine addPackage_sound (pkg_run_wf r ops) r m ih' ?_ hp
        cases hc : (PkgOp.run r ops).pkg.cell m.name r with
        | none => rfl
        | some m' => exact absurd ((has_iff_cell _ _ _ _).mpr hc) (hf ops m [] rfl m')
    | remove n =>
      simp only [PkgOp.step]
      cases hp : removePackage r (PkgOp.run r ops) n with
      | error e => exact ih'
      | ok s' => exact removePackage_sound (pkg_run_wf r ops) r n ih' hp

theorem rev_complete_run (r : RepoId) (ops : List (PkgOp α)) (hl : LeafRemoves r ops) :
    RevComplete (PkgOp.run r ops) r := by
  induction ops using snoc_induction with
  | h0 => intro x y m hm; simp [PkgOp.run, cell_nil] at hm
  | hs ops op ih =>
    have ih' := ih (fun pre m post e => hl pre m (post ++ [op]) (by simp [e]))
    rw [pkg_run_snoc]
    cases op with
    | add m =>
      simp only [PkgOp.step]
      cases hp : addPackage r (PkgOp.run r ops) m with
      | error e => exact ih'
      | ok s' => exact addPackage_complete (pkg_run_wf r ops) r m ih' hp
    | remove n =>
      simp only [PkgOp.step]
      cases hp : removePackage r (PkgOp.run r ops) n with
      | error e => exact ih'
      | ok s' =>
        refine removePackage_complete (pkg_run_wf r ops) r n ih' (fun y m hy hd => ?_) hp
        exact hl ops n [] rfl y m ((has_iff_cell _ _ _ _).mpr hy) hd

/-- C20, soundness: if packages are added only when absent (reinstall and upgrade remove first), every reported reverse
dependency is genuine, and the dependency reported with it is one the package declares.  Missing for the full statement:
completeness (`rev_deps_complete_partial`), which is false in general (`rev_deps_refuted`). -/
theorem rev_deps_sound_partial (r : RepoId) (ops : List (PkgOp α)) (hf : FreshAdds r ops) (x y : α) (d : Dep α)
    (l : List (α × Dep α)) (hl : getRevDeps (PkgOp.run r ops) x r = .ok l) (hm : (y, d) ∈ l) :
    ∃ m, Has (PkgOp.run r ops) r y m ∧ d ∈ m.info.deps ∧ d.package = x := by
  rw [getRevDeps_eq] at hl; cases hl
  obtain ⟨m, h1, h2, h3⟩ := rev_sound_run r ops hf x y d hm
  exact ⟨m, (has_iff_cell _ _ _ _).mpr h1, h2, h3⟩

/-- C20, completeness: if packages are removed only when nothing else depends on them, every dependency is reported. -/
theorem rev_deps_complete_partial (r : RepoId) (ops : List (PkgOp α)) (hl : LeafRemoves r ops) (x y : α) (m : Meta α)
    (hy : Has (PkgOp.run r ops) r y m) (hd : DependsOn m x) : ListedRev (PkgOp.run r ops) r x y :=
  (listedRev_iff _ _ _ _).mpr (rev_complete_run r ops hl x y m ((has_iff_cell _ _ _ _).mp hy) hd)

/-- C20 when both disciplines are kept.  Missing for the full statement: other histories, for which it is false. -/
theorem rev_deps_exact_partial (r : RepoId) (ops : List (PkgOp α)) (hf : FreshAdds r ops) (hl : LeafRemoves r ops)
    (x y : α) : ListedRev (PkgOp.run r ops) r x y ↔ ∃ m, Has (PkgOp.run r ops) r y m ∧ DependsOn m x := by
  constructor
  · rintro ⟨l, d, h, hm⟩
    obtain ⟨m, h1, h2, h3⟩ := rev_deps_sound_partial r ops hf x y d l h hm
    exact ⟨m, h1, d, h2, h3⟩
  · rintro ⟨m, h1, h2⟩; exact rev_deps_complete_partial r ops hl x y m h1 h2

/-- C20: `get_rev_deps` never fails. -/
theorem rev_deps_total (s : Stores α) (x : α) (r : RepoId) : ∃ l, getRevDeps s x r = .ok l := ⟨_, getRevDeps_eq s x r⟩

/-! ## C27 -/

/-- Consistency of the repository list. -/
structure RepoOK (d : RepoDB ρ) (l : List Str) : Prop where
  order : d.order = some l
  nodup : l.Nodup
  mem : ∀ n, n ∈ l ↔ d.entries.has n = true

theorem has_put {κ ν : Type} [DecidableEq κ] (d : Dict κ ν) (k k' : κ) (v : ν) :
    (d.put k v).has k' = true ↔ k = k' ∨ d.has k' = true := by
  simp only [Dict.has, Dict.get_put]
  by_cases h : k = k' <;> simp [h]

theorem has_del {κ ν : Type} [DecidableEq κ] (d : Dict κ ν) (k k' : κ) :
    (d.del k).has k' = true ↔ k ≠ k' ∧ d.has k' = true := by
  simp only [Dict.has, Dict.get_del]
  by_cases h : k = k' <;> simp [h]

theorem addRepo_ok {d : RepoDB ρ} {l : List Str} (h : RepoOK d l) {n : Str} {x : ρ} {pos : Option Int} {d' : RepoDB ρ}
    (ha : d.addRepo n x pos = .ok d') :
    n ∉ l ∧ d'.entries = d.entries.put n x ∧
      ((pos = none ∧ RepoOK d' (l ++ [n])) ∨
       ∃ i : Nat, pos = some (i : Int) ∧ i ≤ l.length ∧ RepoOK d' (l.insertIdx i n)) := by
  unfold RepoDB.addRepo at ha
  by_cases hh : d.entries.has n = true
  · simp [hh] at ha
  · have hn : n ∉ l := fun e => hh ((h.mem n).mp e)
    simp only [hh, h.order] at ha
    cases pos with
    | none =>
      cases ha
      refine ⟨hn, rfl, Or.inl ⟨rfl, rfl, ?_, fun k => ?_⟩⟩
      · exact List.nodup_append.mpr ⟨h.nodup, by simp, fun a ha b hb => by simp at hb; subst hb; exact fun e => hn (e ▸ ha)⟩
      · rw [has_put, ← h.mem]; simp [or_comm, eq_comm]
    | some i =>
      simp only [Bool.false_eq_true, if_false] at ha
      split at ha
      · cases ha
      · next hi =>
        cases ha
        have hi1 : 0 ≤ i := by omega
        have hi2 : i ≤ l.length := by omega
        refine ⟨hn, rfl, Or.inr ⟨i.toNat, by congr 1; omega, by omega, rfl, ?_, fun k => ?_⟩⟩
        · have hp : (l.insertIdx i.toNat n).Perm (n :: l) := List.perm_insertIdx _ _ (by omega)
          exact hp.nodup_iff.mpr (List.nodup_cons.mpr ⟨hn, h.nodup⟩)
        · have hp : (l.insertIdx i.toNat n).Perm (n :: l) := List.perm_insertIdx _ _ (by omega)
          rw [hp.mem_iff, has_put, ← h.mem]; simp [eq_comm]

theorem dropRepo_ok {d : RepoDB ρ} {l : List Str} (h : RepoOK d l) (n : Str) :
    (d.dropRepo n = .error .dbNotFound ∧ n ∉ l) ∨
    (n ∈ l ∧ ∃ d', d.dropRepo n = .ok d' ∧ d'.entries = d.entries.del n ∧ RepoOK d' (l.erase n)) := by
  unfold RepoDB.dropRepo
  by_cases hh : d.entries.has n = true
  · have hn := (h.mem n).mpr hh
    right
    refine ⟨hn, { entries := d.entries.del n, order := some (l.erase n) }, by simp [hh, h.order, hn], rfl, rfl,
      h.nodup.erase n, fun k => ?_⟩
    rw [has_del, ← h.mem, h.nodup.mem_erase_iff]
    constructor
    · rintro ⟨a, b⟩; exact ⟨fun e => a e.symm, b⟩
    · rintro ⟨a, b⟩; exact ⟨fun e => a e.symm, b⟩
  · left
    exact ⟨by simp [hh], fun e => hh ((h.mem n).mp e)⟩

/-- Items of repositories that are not listed do not exist. -/
def OnlyListed {ν : Type} (l : List Str) (d : ItemDB α ν) : Prop := ∀ n x, (d.cell n (.repo x)).isSome → x ∈ l

/-- Invariant of the whole system. -/
structure SysOK (y : System α ρ) (l : List Str) : Prop where
  repos : RepoOK y.repos l
  wf : y.stores.WF
  pkg : OnlyListed l y.stores.pkg
  src : OnlyListed l y.stores.src
  comp : OnlyListed l y.stores.comp

theorem OnlyListed.mono {ν : Type} {l l' : List Str} {d : ItemDB α ν} (h : OnlyListed l d) (hl : ∀ x ∈ l, x ∈ l') :
    OnlyListed l' d := fun n x hx => hl x (h n x hx)

theorem OnlyListed.off {ν : Type} {l : List Str} {d d' : ItemDB α ν} (h : OnlyListed l d) {r : RepoId}
    (ho : SameOff r d d') (hr : ∀ x, r = .repo x → x ∈ l) : OnlyListed l d' := by
  intro n x hx
  by_cases hxr : RepoId.repo x = r
  · exact hr x hxr.symm
  · rw [ho n _ hxr] at hx; exact h n x hx

theorem OnlyListed.drop {ν : Type} {l : List Str} {d d' : ItemDB α ν} (h : OnlyListed l d) {x : Str}
    (ho : SameOff (.repo x) d d') (hn : ∀ n, d'.cell n (.repo x) = none) (hl : l.Nodup) : OnlyListed (l.erase x) d' := by
  intro n z hz
  by_cases hzx : z = x
  · subst hzx; rw [hn] at hz; cases hz
  · rw [ho n _ (by simpa using hzx)] at hz
    exact (hl.mem_erase_iff).mpr ⟨hzx, h n z hz⟩

theorem removeTracking_spec {s s' : Stores α} (h : s.WF) (name : α) (hr : removeTracking s name = .ok s') :
    s'.WF ∧ s'.src = s.src ∧ (∀ n x, s'.pkg.cell n (.repo x) = s.pkg.cell n (.repo x)) ∧
      (∀ n x, s'.rev.cell n (.repo x) = s.rev.cell n (.repo x)) ∧
      (∀ n x, s'.comp.cell n (.repo x) = s.comp.cell n (.repo x)) := by
  have one : ∀ (r : RepoId) (a b : Stores α), (∀ x, r ≠ .repo x) → a.WF →
      (if a.pkg.hasKey name (.one r) = true then removePackage r a name else .ok a) = .ok b →
      b.WF ∧ b.src = a.src ∧ (∀ n x, b.pkg.cell n (.repo x) = a.pkg.cell n (.repo x)) ∧
      (∀ n x, b.rev.cell n (.repo x) = a.rev.cell n (.repo x)) ∧
      (∀ n x, b.comp.cell n (.repo x) = a.comp.cell n (.repo x)) := by
    intro r a b hr hw hab
    split at hab
    · cases hc : a.pkg.cell name r with
      | none => rw [removePackage_absent a r name hc] at hab; cases hab
      | some m =>
        obtain ⟨w, o, hs, _⟩ := removePackage_spec hw r name m hc hab
        exact ⟨w, hs, fun n x => o.pkg n _ (fun e => hr x e.symm), fun n x => o.rev n _ (fun e => hr x e.symm),
          fun n x => o.comp n _ (fun e => hr x e.symm)⟩
    · cases hab; exact ⟨hw, rfl, fun _ _ => rfl, fun _ _ => rfl, fun _ _ => rfl⟩
  unfold removeTracking at hr
  simp only [] at hr
  split at hr
  · cases hr
  · next s1 h1 =>
    obtain ⟨w1, a1, b1, c1, d1⟩ := one .installed s s1 (by simp) h h1
    obtain ⟨w2, a2, b2, c2, d2⟩ := one .thirdparty s1 s' (by simp) w1 hr
    exact ⟨w2, a2.trans a1, fun n x => (b2 n x).trans (b1 n x), fun n x => (c2 n x).trans (c1 n x),
      fun n x => (d2 n x).trans (d1 n x)⟩

theorem removeRepo_sys {y : System α ρ} {l : List Str} (h : SysOK y l) (n : Str) :
    (y.removeRepo n = .error .dbNotFound ∧ n ∉ l) ∨
    (n ∈ l ∧ ∃ y', y.removeRepo n = .ok y' ∧ SysOK y' (l.erase n) ∧ y.stores.SameOff (.repo n) y'.stores ∧
      y'.repos.entries = y.repos.entries.del n) := by
  rcases dropRepo_ok h.repos n with ⟨e, hn⟩ | ⟨hn, d', e, he, hr⟩
  · left; exact ⟨by simp [System.removeRepo, e], hn⟩
  · right
    obtain ⟨s1, e1, w1, o1, src1, p2s1, comp1, n1, _⟩ := pkgRemoveRepo_spec h.wf (.repo n)
    obtain ⟨s2, e2, w2, o2, pkg2, _, comp2, n2, _⟩ := srcRemoveRepo_spec w1 (.repo n)
    obtain ⟨s3, e3, w3, o3, pkg3, _, src3, _, n3⟩ := compRemoveRepo_spec w2 (.repo n)
    have off := o1.trans (o2.trans o3)
    refine ⟨hn, { repos := d', stores := s3 }, by simp [System.removeRepo, e, e1, e2, e3], ⟨hr, w3, ?_, ?_, ?_⟩, off, he⟩
    · exact h.pkg.drop off.pkg (fun k => by rw [pkg3, pkg2]; exact n1 k) h.repos.nodup
    · exact h.src.drop off.src (fun k => by rw [src3]; exact n2 k) h.repos.nodup
    · exact h.comp.drop off.comp n3 h.repos.nodup

theorem sys_step {y : System α ρ} {l : List Str} (h : SysOK y l) (op : SysOp α ρ) : ∃ l', SysOK (op.step y) l' := by
  cases op with
  | addRepo n x pos =>
    simp only [SysOp.step]
    cases ha : y.repos.addRepo n x pos with
    | error e => exact ⟨l, h⟩
    | ok d =>
      obtain ⟨_, _, ⟨_, hr⟩ | ⟨i, _, hi, hr⟩⟩ := addRepo_ok h.repos ha
      · have hl : ∀ x ∈ l, x ∈ l ++ [n] := fun x hx => by simp [hx]
        exact ⟨_, hr, h.wf, h.pkg.mono hl, h.src.mono hl, h.comp.mono hl⟩
      · have hl : ∀ x ∈ l, x ∈ l.insertIdx i n := fun x hx =>
          (List.perm_insertIdx n l hi).mem_iff.mpr (by simp [hx])
        exact ⟨_, hr, h.wf, h.pkg.mono hl, h.src.mono hl, h.comp.mono hl⟩
  | removeRepo n =>
    simp only [SysOp.step]
    rcases removeRepo_sys h n with ⟨e, _⟩ | ⟨_, y', e, hs, _⟩
    · rw [e]; exact ⟨l, h⟩
    · rw [e]; exact ⟨_, hs⟩
  | updateRepo n ix =>
    simp only [SysOp.step, System.updateRepo]
    by_cases hh : y.repos.hasRepo n = true
    · simp only [hh, if_true]
      cases hu : ix.updateDb (.repo n) y.stores with
      | error e => exact ⟨l, h⟩
      | ok s =>
        obtain ⟨w, o, _⟩ := (updateDb_spec h.wf ix (.repo n)).2 s hu
        have hn : ∀ x, RepoId.repo n = .repo x → x ∈ l := by
          intro x e; cases e; exact (h.repos.mem n).mpr hh
        exact ⟨l, h.repos, w, h.pkg.off o.pkg hn, h.src.off o.src hn, h.comp.off o.comp hn⟩
    · simp only [hh]; exact ⟨l, h⟩
  | track r m =>
    cases r with
    | repo n => exact ⟨l, h⟩
    | thirdparty =>
      simp only [SysOp.step]
      cases ha : addPackage .thirdparty y.stores m with
      | error e => exact ⟨l, h⟩
      | ok s =>
        obtain ⟨w, o, _⟩ := (addPackage_spec h.wf .thirdparty m).2 s ha
        exact ⟨l, h.repos, w, h.pkg.off o.pkg (by simp), h.src.off o.src (by simp), h.comp.off o.comp (by simp)⟩
    | installed =>
      simp only [SysOp.step]
      cases ha : addPackage .installed y.stores m with
      | error e => exact ⟨l, h⟩
      | ok s =>
        obtain ⟨w, o, _⟩ := (addPackage_spec h.wf .installed m).2 s ha
        exact ⟨l, h.repos, w, h.pkg.off o.pkg (by simp), h.src.off o.src (by simp), h.comp.off o.comp (by simp)⟩
  | untrack name =>
    simp only [SysOp.step]
    cases ha : removeTracking y.stores name with
    | error e => exact ⟨l, h⟩
    | ok s =>
      obtain ⟨w, a, b, _, c⟩ := removeTracking_spec h.wf name ha
      refine ⟨l, h.repos, w, fun n x hx => h.pkg n x ?_, fun n x hx => h.src n x ?_, fun n x hx => h.comp n x ?_⟩
      · rw [← b n x]; exact hx
      · rw [← a]; exact hx
      · rw [← c n x]; exact hx

theorem sys_run (ops : List (SysOp α ρ)) : ∃ l, SysOK (SysOp.run ops) l := by
  induction ops using snoc_induction with
  | h0 =>
    refine ⟨[], ⟨rfl, by simp, fun n => by simp [SysOp.run, Dict.has]⟩, stores_wf_nil, ?_, ?_, ?_⟩ <;>
    · intro n x hx; simp [SysOp.run, cell_nil] at hx
  | hs l a ih =>
    obtain ⟨l', h⟩ := ih
    have : SysOp.run (l ++ [a]) = SysOp.step (SysOp.run l) a := by simp [SysOp.run]
    rw [this]; exact sys_step h a

/-- C27: after any history the list has no duplicates and contains exactly the repositories that can be looked up. -/
theorem repo_list_consistent (ops : List (SysOp α ρ)) :
    ∃ l, (SysOp.run ops).repos.list = .ok l ∧ l.Nodup ∧
      (∀ n, n ∈ l ↔ (SysOp.run ops).repos.hasRepo n = true) ∧
      ∀ n, n ∈ l ↔ ∃ x, (SysOp.run ops).repos.getRepo n = .ok x := by
  obtain ⟨l, h⟩ := sys_run ops
  refine ⟨l, by simp [RepoDB.list, h.repos.order], h.repos.nodup, h.repos.mem, fun n => ?_⟩
  rw [h.repos.mem, RepoDB.getRepo, Dict.has]
  cases (SysOp.run ops).repos.entries.get n <;> simp

/-- C27: adding a repository succeeds exactly when the name is new and the position, if given, lies between
0 and the number of repositories. -/
theorem add_repo_succeeds_iff (ops : List (SysOp α ρ)) (l : List Str) (hl : (SysOp.run ops).repos.list = .ok l)
    (n : Str) (x : ρ) (pos : Option Int) :
    (∃ d, (SysOp.run ops).repos.addRepo n x pos = .ok d) ↔
      n ∉ l ∧ ∀ i, pos = some i → 0 ≤ i ∧ i ≤ l.length := by
  obtain ⟨l', h⟩ := sys_run ops
  have : l' = l := by simp [RepoDB.list, h.repos.order] at hl; exact hl
  subst this
  rw [h.repos.mem]
  unfold RepoDB.addRepo
  by_cases hh : (SysOp.run ops).repos.entries.has n = true
  · simp [hh]
  · simp only [hh, h.repos.order]
    cases pos with
    | none => simp
    | some i =>
      by_cases hi : i < 0 ∨ i > l'.length
      · simp [hi]; omega
      · simp [hi]; omega

/-- C27: a repository added without a position comes last; one added at position `i` has index `i`; the others keep
their relative order and their information. -/
theorem add_repo_position (ops : List (SysOp α ρ)) (l : List Str) (hl : (SysOp.run ops).repos.list = .ok l)
    (n : Str) (x : ρ) (pos : Option Int) (d : RepoDB ρ) (ha : (SysOp.run ops).repos.addRepo n x pos = .ok d) :
    ∃ l', d.list = .ok l' ∧ l'.erase n = l ∧ d.getRepo n = .ok x ∧
      (∀ k, k ≠ n → d.getRepo k = (SysOp.run ops).repos.getRepo k) ∧
      match pos with
      | none => l' = l ++ [n]
      | some i => d.repoName i.toNat = .ok (some n) := by
  obtain ⟨l0, h⟩ := sys_run ops
  have : l0 = l := by simp [RepoDB.list, h.repos.order] at hl; exact hl
  subst this
  obtain ⟨hn, he, hc⟩ := addRepo_ok h.repos ha
  have g1 : d.getRepo n = .ok x := by simp [RepoDB.getRepo, he, Dict.get_put]
  have g2 : ∀ k, k ≠ n → d.getRepo k = (SysOp.run ops).repos.getRepo k := by
    intro k hk
    have : n ≠ k := fun e => hk e.symm
    simp [RepoDB.getRepo, he, Dict.get_put, this]
  rcases hc with ⟨rfl, hr⟩ | ⟨i, rfl, hi, hr⟩
  · refine ⟨l0 ++ [n], by simp [RepoDB.list, hr.order], ?_, g1, g2, rfl⟩
    rw [List.erase_append_right _ hn]; simp
  · refine ⟨l0.insertIdx i n, by simp [RepoDB.list, hr.order], ?_, g1, g2, ?_⟩
    · clear hr ha hl h he g1 g2
      induction l0 generalizing i with
      | nil => have : i = 0 := by simpa using hi
               subst this; simp
      | cons a t ih =>
        cases i with
        | zero => simp
        | succ i =>
          simp only [List.insertIdx_succ_cons]
          have hna : n ≠ a := fun e => hn (by simp [e])
          rw [List.erase_cons_tail (by simpa using fun e => hna e.symm)]
          rw [ih (fun e => hn (by simp [e])) i (by simpa using hi)]
    · simp [RepoDB.repoName, RepoDB.list, hr.order, List.getElem?_insertIdx_self, Nat.not_lt.mpr hi]

/-- C27: removing a repository removes it from the list, keeping the order of the others; an unknown name is refused. -/
theorem remove_repo_list (ops : List (SysOp α ρ)) (l : List Str) (hl : (SysOp.run ops).repos.list = .ok l) (n : Str) :
    (n ∉ l → (SysOp.run ops).removeRepo n = .error .dbNotFound) ∧
    (n ∈ l → ∃ y, (SysOp.run ops).removeRepo n = .ok y ∧ y.repos.list = .ok (l.erase n) ∧
      ∀ k, k ≠ n → y.repos.getRepo k = (SysOp.run ops).repos.getRepo k) := by
  obtain ⟨l0, h⟩ := sys_run ops
  have : l0 = l := by simp [RepoDB.list, h.repos.order] at hl; exact hl
  subst this
  rcases removeRepo_sys h n with ⟨e, hn⟩ | ⟨hn, y', e, hs, _, he⟩
  · exact ⟨fun _ => e, fun h => absurd h hn⟩
  · refine ⟨fun h => absurd hn h, fun _ => ⟨y', e, by simp [RepoDB.list, hs.repos.order], fun k hk => ?_⟩⟩
    have : n ≠ k := fun e => hk e.symm
    simp [RepoDB.getRepo, he, Dict.get_del, this]

/-- C27: removing a repository removes exactly its packages, sources and components. -/
theorem remove_repo_items (ops : List (SysOp α ρ)) (n : Str) (y : System α ρ)
    (hy : (SysOp.run ops).removeRepo n = .ok y) (k : α) (r : RepoId) :
    y.stores.pkg.getItem [] k (.one r) =
      (if r = .repo n then .error .notFound else (SysOp.run ops).stores.pkg.getItem [] k (.one r)) ∧
    y.stores.src.getItem [] k (.one r) =
      (if r = .repo n then .error .notFound else (SysOp.run ops).stores.src.getItem [] k (.one r)) ∧
    y.stores.comp.getItem [] k (.one r) =
      (if r = .repo n then .error .notFound else (SysOp.run ops).stores.comp.getItem [] k (.one r)) := by
  obtain ⟨l, h⟩ := sys_run ops
  rcases removeRepo_sys h n with ⟨e, _⟩ | ⟨_, y', e, hs, ho, _⟩
  · rw [hy] at e; cases e
  · rw [hy] at e; cases e
    simp only [getItem_one]
    by_cases hr : r = .repo n
    · subst hr
      have none' : ∀ {ν : Type} (d : ItemDB α ν), OnlyListed (l.erase n) d → d.cell k (.repo n) = none := by
        intro ν d hd
        cases hc : d.cell k (.repo n) with
        | none => rfl
        | some v => exact absurd (hd k n (by simp [hc])) (by rw [h.repos.nodup.mem_erase_iff]; simp)
      simp [none' _ hs.pkg, none' _ hs.src, none' _ hs.comp]
    · simp [hr, ho.pkg k r hr, ho.src k r hr, ho.comp k r hr]

/-! ## C26 on the whole system -/

theorem exists_iff_lookup_cells {ν : Type} {d : ItemDB α ν} (h : d.WF) (l : List Str) (ho : OnlyListed l d) (n : α) :
    d.hasKey n .repos = true ↔ ∃ v, d.getItem l n .repos = .ok v := by
  have h1 : d.hasKey n .repos = true ↔ ∃ x, (d.cell n (.repo x)).isSome := by
    unfold ItemDB.hasKey ItemDB.cell
    cases hg : d.get n with
    | none => simp
    | some s =>
      obtain ⟨hu, hne⟩ := h.inner n s hg
      simpa using notJustTracking_iff s hu hne
  rw [h1]
  constructor
  · rintro ⟨x, hx⟩
    have hw := whichRepo_spec d l n
    cases hf : l.find? (fun x => (d.cell n (.repo x)).isSome) with
    | none =>
      have := List.find?_eq_none.mp hf x (ho n x hx)
      simp [hx] at this
    | some z =>
      simp only [hf] at hw
      unfold ItemDB.whichRepo at hw
      unfold ItemDB.getItem
      cases hg : d.getItemRepo l n .repos with
      | ok vr => obtain ⟨v, r⟩ := vr; exact ⟨v, rfl⟩
      | error e => rw [hg] at hw; cases hw
  · rintro ⟨v, hv⟩
    unfold ItemDB.getItem at hv
    cases hg : d.getItemRepo l n .repos with
    | error e => rw [hg] at hv; cases hv
    | ok vr =>
      obtain ⟨w, r⟩ := vr
      obtain ⟨h2, h3⟩ := (getItemRepo_order d l n .repos (Or.inl rfl) w r).mp hg
      obtain ⟨x, rfl, _⟩ := (firstWith_map _ _ _ _).mp h3
      exact ⟨x, by simp [h2]⟩

/-- C26: with the repository list kept by `RepoDB`, unqualified existence and retrieval agree in every reachable
state, for packages, sources and components. -/
theorem existence_retrieval_agree (ops : List (SysOp α ρ)) (l : List Str) (hl : (SysOp.run ops).repos.list = .ok l)
    (n : α) :
    ((SysOp.run ops).stores.pkg.hasKey n .repos = true ↔ ∃ v, (SysOp.run ops).stores.pkg.getItem l n .repos = .ok v) ∧
    ((SysOp.run ops).stores.src.hasKey n .repos = true ↔ ∃ v, (SysOp.run ops).stores.src.getItem l n .repos = .ok v) ∧
    ((SysOp.run ops).stores.comp.hasKey n .repos = true ↔ ∃ v, (SysOp.run ops).stores.comp.getItem l n .repos = .ok v) := by
  obtain ⟨l0, h⟩ := sys_run ops
  have : l0 = l := by simp [RepoDB.list, h.repos.order] at hl; exact hl
  subst this
  exact ⟨exists_iff_lookup_cells h.wf.pkg l0 h.pkg n, exists_iff_lookup_cells h.wf.src l0 h.src n,
    exists_iff_lookup_cells h.wf.comp l0 h.comp n⟩

/-! ## C28 -/

theorem mem_list_iff {ν : Type} {d : ItemDB α ν} (h : d.WF) (n : α) (r : RepoId) :
    n ∈ d.list (.one r) ↔ (d.cell n r).isSome := by
  simp only [ItemDB.list, List.mem_map, List.mem_filter, ItemDB.cell]
  constructor
  · rintro ⟨⟨k, s⟩, ⟨hm, hs⟩, rfl⟩
    rw [(Dict.mem_iff_get h.uniq k s).mp hm]; exact hs
  · intro hn
    cases hg : d.get n with
    | none => simp [hg] at hn
    | some s => exact ⟨(n, s), ⟨(Dict.mem_iff_get h.uniq n s).mpr hg, by simpa [hg, Dict.has] using hn⟩, rfl⟩

theorem last_named_exists {β : Type} (name : β → α) (l : List β) (n : α) :
    (∀ m ∈ l, name m ≠ n) ∨ ∃ m, LastNamed name l n m := by
  induction l with
  | nil => simp
  | cons a l ih =>
    rcases ih with h | ⟨m, hm⟩
    · by_cases ha : name a = n
      · exact Or.inr ⟨a, [], l, rfl, ha, h⟩
      · left; intro m hm
        rcases List.mem_cons.mp hm with rfl | hm
        · exact ha
        · exact h m hm
    · exact Or.inr ⟨m, (lastNamed_cons_iff _ _ _ _ _).mpr (Or.inl hm)⟩

/-- C28: after a successful update the repository holds exactly the packages and sources of the index (the last
of equal names), and every other store is unchanged. -/
theorem update_db_exact (ops : List (SysOp α ρ)) (ix : Index α) (r : RepoId) (s : Stores α)
    (hu : ix.updateDb r (SysOp.run ops).stores = .ok s) :
    (∀ n m, s.pkg.getItem [] n (.one r) = .ok m ↔ LastNamed Meta.name ix.packages n m) ∧
    (∀ n, n ∈ s.pkg.list (.one r) ↔ ∃ m ∈ ix.packages, m.name = n) ∧
    (∀ n m, s.src.getItem [] n (.one r) = .ok m ↔ LastNamed SrcSpec.name ix.specs n m) ∧
    ∀ n q, q ≠ r →
      s.pkg.getItem [] n (.one q) = (SysOp.run ops).stores.pkg.getItem [] n (.one q) ∧
      s.src.getItem [] n (.one q) = (SysOp.run ops).stores.src.getItem [] n (.one q) ∧
      s.comp.getItem [] n (.one q) = (SysOp.run ops).stores.comp.getItem [] n (.one q) ∧
      getRevDeps s n q = getRevDeps (SysOp.run ops).stores n q := by
  obtain ⟨l, h⟩ := sys_run ops
  obtain ⟨w, o, c1, c2, c3, c4, _⟩ := (updateDb_spec h.wf ix r).2 s hu
  refine ⟨fun n m => ?_, fun n => ?_, fun n m => ?_, fun n q hq => ?_⟩
  · rw [getItem_one]
    constructor
    · intro e
      rcases last_named_exists Meta.name ix.packages n with hn | ⟨m', hm'⟩
      · rw [c2 n hn] at e; cases e
      · rw [c1 n m' hm'] at e; cases e; exact hm'
    · intro e; rw [c1 n m e]
  · rw [mem_list_iff w.pkg]
    rcases last_named_exists Meta.name ix.packages n with hn | ⟨m', hm'⟩
    · rw [c2 n hn]; simp; exact hn
    · rw [c1 n m' hm']
      obtain ⟨a, b, e, hn, _⟩ := hm'
      simp only [Option.isSome_some, true_iff]
      exact ⟨m', by simp [e], hn⟩
  · rw [getItem_one]
    constructor
    · intro e
      rcases last_named_exists SrcSpec.name ix.specs n with hn | ⟨m', hm'⟩
      · rw [c4 n hn] at e; cases e
      · rw [c3 n m' hm'] at e; cases e; exact hm'
    · intro e; rw [c3 n m e]
  · simp only [getItem_one, o.pkg n q hq, o.src n q hq, o.comp n q hq, getRevDeps_eq, rv, o.rev n q hq, and_self]

/-- C28: the update succeeds exactly when every package has no component dependency and belongs to a component, and
every spec file is valid and belongs to a component. -/
theorem update_db_succeeds_iff (ops : List (SysOp α ρ)) (ix : Index α) (r : RepoId) :
    (∃ s, ix.updateDb r (SysOp.run ops).stores = .ok s) ↔
      (∀ m ∈ ix.packages, m.info.compDeps = [] ∧ m.partOf.isSome) ∧
      ∀ sp ∈ ix.specs, sp.valid = true ∧ sp.partOf.isSome := by
  obtain ⟨l, h⟩ := sys_run ops
  exact (updateDb_spec h.wf ix r).1

theorem rev_exact_loop (r : RepoId) (ms : List (Meta α)) (hn : (ms.map Meta.name).Nodup) :
    ∀ s s' : Stores α, s.WF → RevSound s r → RevComplete s r → (∀ m ∈ ms, s.pkg.cell m.name r = none) →
      forM' (addPackage r) ms s = .ok s' → RevSound s' r ∧ RevComplete s' r := by
  induction ms with
  | nil => intro s s' _ h1 h2 _ e; cases e; exact ⟨h1, h2⟩
  | cons m ms ih =>
    intro s s' hw h1 h2 hf e
    simp only [forM'] at e
    cases ha : addPackage r s m with
    | error x => rw [ha] at e; cases e
    | ok s1 =>
      rw [ha] at e
      obtain ⟨w1, _, _, _, c1, _⟩ := (addPackage_spec hw r m).2 s1 ha
      simp only [List.map_cons, List.nodup_cons] at hn
      refine ih hn.2 s1 s' w1 (addPackage_sound hw r m h1 (hf m (by simp)) ha) (addPackage_complete hw r m h2 ha) ?_ e
      intro m' hm'
      rw [c1, if_neg (fun e : m'.name = m.name => hn.1 (e ▸ List.mem_map.mpr ⟨m', hm', rfl⟩))]
      exact hf m' (by simp [hm'])

/-- C28 (and C20 for repositories): after updating from an index without duplicate names, the reverse dependencies
of that repository are exact. -/
theorem update_db_rev_deps (ops : List (SysOp α ρ)) (ix : Index α) (r : RepoId) (s : Stores α)
    (hn : (ix.packages.map Meta.name).Nodup) (hu : ix.updateDb r (SysOp.run ops).stores = .ok s) (x y : α) :
    ListedRev s r x y ↔ ∃ m ∈ ix.packages, m.name = y ∧ DependsOn m x := by
  obtain ⟨l, h⟩ := sys_run ops
  obtain ⟨_, _, _, _, _, _, s2, s3, w2, n2, m2, e3, p3, v3⟩ := (updateDb_spec h.wf ix r).2 s hu
  obtain ⟨hs, hc⟩ := rev_exact_loop r ix.packages hn s2 s3 w2
    (fun x y d hm => by simp [rv, m2] at hm) (fun x y m hm => by rw [n2] at hm; cases hm)
    (fun m _ => n2 _) e3
  have hex := (update_db_exact ops ix r s hu).1
  have cellm : ∀ y m, s.pkg.cell y r = some m ↔ m ∈ ix.packages ∧ m.name = y := by
    intro y m
    rw [← has_iff_cell, Has, hex y m]
    constructor
    · rintro ⟨a, b, e, hn, _⟩; exact ⟨by simp [e], hn⟩
    · rintro ⟨hm, rfl⟩
      obtain ⟨a, b, e⟩ := List.append_of_mem hm
      refine ⟨a, b, e, rfl, fun z hz hzn => ?_⟩
      rw [e, List.map_append, List.map_cons] at hn
      have := (List.nodup_append.mp hn).2.1
      rw [List.nodup_cons] at this
      exact this.1 (hzn ▸ List.mem_map.mpr ⟨z, hz, rfl⟩)
  rw [listedRev_iff, v3]
  constructor
  · rintro ⟨d, hd⟩
    obtain ⟨m, h1, h2, h3⟩ := hs x y d hd
    rw [← p3, cellm] at h1
    exact ⟨m, h1.1, h1.2, d, h2, h3⟩
  · rintro ⟨m, hm, rfl, hd⟩
    refine hc x m.name m ?_ hd
    rw [← p3, cellm]; exact ⟨hm, rfl⟩

/-! ## Non-vacuity -/
section Examples

def ixEx : Index Nat :=
  { components := [(9, {})], packages := [mTwo, mOne], specs := [⟨5, [1, 2], some 9, true, []⟩] }

def sysEx : List (SysOp Nat Nat) :=
  [.addRepo ['a'] 0 none, .addRepo ['b'] 1 (some 0), .updateRepo ['a'] ixEx, .track .installed mTwo]

example : (SysOp.run sysEx).repos.list = .ok [['b'], ['a']] := by rfl
example : (SysOp.run sysEx).stores.pkg.list (.one (.repo ['a'])) = [2, 1] := by rfl
example : (SysOp.run sysEx).stores.pkg.getItem [['b'], ['a']] 2 .repos = .ok mTwo := by rfl
example : ∃ d, (SysOp.run sysEx).repos.addRepo ['c'] 3 (some 1) = .ok d := ⟨_, rfl⟩
example : ∃ y, (SysOp.run sysEx).removeRepo ['a'] = .ok y ∧ y.stores.pkg.hasKey 2 .repos = false ∧
  y.stores.pkg.hasKey 2 (.one .installed) = true := ⟨_, rfl, rfl, rfl⟩
example : ∃ s, ixEx.updateDb (.repo ['b']) (SysOp.run sysEx).stores = .ok s ∧
  getRevDeps s 2 (.repo ['b']) = .ok [(1, { package := 2 })] := ⟨_, rfl, rfl⟩
example : (ixEx.packages.map Meta.name).Nodup := by decide

/-- The disciplines of C20 are kept by a history that removes the dependent package first. -/
example : FreshAdds .installed [.add mTwo, .add mOne, .remove 1, .remove 2] ∧
    LeafRemoves .installed [.add mTwo, .add mOne, .remove 1, .remove 2] := by
  constructor
  · intro pre m post h m'
    match pre, h with
    | [], h => simp at h; obtain ⟨rfl, _⟩ := h; unfold Has; intro e; cases e
    | [_], h => simp at h; obtain ⟨rfl, rfl, _⟩ := h; unfold Has; intro e; cases e
    | [_, _], h => simp at h
    | [_, _, _], h => simp at h
    | _ :: _ :: _ :: _ :: t, h => simp at h
  · intro pre x post h y m hy hd
    match pre, h with
    | [], h => simp at h
    | [_], h => simp at h
    | [_, _], h =>
      simp at h
      obtain ⟨rfl, rfl, rfl, _⟩ := h
      rw [has_iff_cell] at hy
      obtain ⟨d, hd, he⟩ := hd
      by_cases h1 : y = 1
      · exact h1
      · have : (PkgOp.run .installed [.add mTwo, .add mOne]).pkg.cell y .installed =
            if 2 = y then some mTwo else none := by
          have e : (PkgOp.run .installed [.add mTwo, .add mOne]).pkg =
            [(1, [(RepoId.installed, mOne)]), (2, [(RepoId.installed, mTwo)])] := by rfl
          rw [e]
          have : ¬ 1 = y := fun e => h1 e.symm
          simp only [ItemDB.cell, Dict.get, this, if_false]
          split <;> simp [Dict.get]
        rw [this] at hy
        split at hy
        · cases hy; simp [mTwo] at hd
        · cases hy
    | [_, _, _], h =>
      simp at h
      obtain ⟨rfl, rfl, rfl, rfl, _⟩ := h
      rw [has_iff_cell] at hy
      have e : (PkgOp.run .installed [.add mTwo, .add mOne, .remove 1]).pkg = [(2, [(RepoId.installed, mTwo)])] := by rfl
      rw [e] at hy
      simp only [ItemDB.cell, Dict.get] at hy
      split at hy
      · next h2 => exact h2.symm
      · cases hy
    | _ :: _ :: _ :: _ :: t, h => simp at h

end Examples

end Pisi.DB
