import Verif.Model.InstallSingle
import Verif.Spec.InstallSingle
import Verif.Lemmas.FS
import Verif.Lemmas.UpgradePlan

/-!
# C83-C85: installing one package

Vocabulary: `Verif/Spec/InstallSingle.lean`, `Verif/Spec/Plan.lean`.
-/
set_option linter.unusedSectionVars false

namespace Pisi.FS
open Pisi.Path
variable {α ι : Type} [DecidableEq α]

/-! ## C83: files of other packages -/

/-- `path` is recorded as a file of another package than `pkg`. -/
def Others (db : DB.FilesDB Str α ι) (pkg : α) (path : Str) : Prop := ∃ o i, db.get path = some (o, i) ∧ o ≠ pkg

theorem getFile_get (db : DB.FilesDB Str α ι) (p : Str) :
    db.getFile p = (db.get p).map (fun x => (x.1, p, x.2)) := by
  unfold DB.FilesDB.getFile Dict.has
  cases db.get p with
  | none => rfl
  | some x => obtain ⟨a, b⟩ := x; rfl

/-- **C83 (the check).** The conflicts found are exactly the recorded paths of other packages which are not directories
at their place in the destination. -/
theorem file_conflicts_exact (dest : Str) (db : DB.FilesDB Str α ι) (pkg : α) (fs : FS) (new : List FileInfo) (o : α) (p : Str) :
    (o, p) ∈ fileConflicts dest db pkg fs new ↔
      (∃ f ∈ new, f.path = p) ∧ (∃ i, db.get p = some (o, i)) ∧ o ≠ pkg ∧ isDir fs (joinPath dest [p]) = false := by
  unfold fileConflicts
  rw [List.mem_filterMap]
  constructor
  · rintro ⟨f, hf, h⟩
    rw [getFile_get] at h
    cases hg : db.get f.path with
    | none => simp [hg] at h
    | some x =>
      obtain ⟨a, i⟩ := x
      simp only [hg, Option.map_some] at h
      split at h
      · next hc =>
        simp only [Option.some.injEq, Prod.mk.injEq] at h
        obtain ⟨rfl, rfl⟩ := h
        exact ⟨⟨f, hf, rfl⟩, ⟨i, hg⟩, hc.1, hc.2⟩
      · cases h
  · rintro ⟨⟨f, hf, rfl⟩, ⟨i, hi⟩, h1, h2⟩
    refine ⟨f, hf, ?_⟩
    simp [getFile_get, hi, h1, h2]

/-- **C83 (refusal).** If a file of the package is recorded for another package and is no directory, installation is
refused before anything is changed, unless conflicts are to be ignored. -/
theorem conflict_refused (sha : Str → Str) (dest : Str) (db : DB.FilesDB Str α ι) (pkg : α) (old : Option (List FileInfo))
    (new : List FileInfo) (es : List Entry) (fs : FS) (f : FileInfo) (hf : f ∈ new) (hfor : Others db pkg f.path)
    (hdir : isDir fs (joinPath dest [f.path]) = false) :
    installFiles sha dest false db pkg old new es fs = ([], .error .pisi) := by
  obtain ⟨o, i, hi, hne⟩ := hfor
  have : (o, f.path) ∈ fileConflicts dest db pkg fs new :=
    (file_conflicts_exact dest db pkg fs new o f.path).mpr ⟨⟨f, hf, rfl⟩, ⟨i, hi⟩, hne, hdir⟩
  unfold installFiles
  rw [if_pos ⟨List.ne_nil_of_mem this, rfl⟩]

/-- **C83, full statement**: installing a package all of whose members are recorded never changes a regular file of
another package, at any moment. -/
def KeepsForeign : Prop :=
  ∀ (sha : Str → Str) (dest : Str) (ignore : Bool) (db : DB.FilesDB Str Nat Unit) (pkg : Nat) (old : Option (List FileInfo))
    (new : List FileInfo) (es : List Entry) (fs : FS) (path c : Str),
    (∀ e ∈ es, ∃ f ∈ new, e.path = joinPath dest [f.path]) → Others db pkg path →
    fs.get (joinPath dest [path]) = some (.file c) →
    (installFiles sha dest ignore db pkg old new es fs).Keeps fs (joinPath dest [path])

theorem not_keeps {x : Tr FS} {s t : FS} {k : Str} (h : x.Keeps s k) (hr : x.2 = .ok t) : t.get k = s.get k := h.2 t hr

/-- Package 2 owns `d/f`. -/
def ownedBy2 : DB.FilesDB Str Nat Unit := [(['d', '/', 'f'], (2, ())), (['c', '.', 'o', 'l', 'd'], (2, ())), (['e'], (2, ()))]

/-- See `ownedBy2`. -/
def ownedFS : FS := [(['/'], .dir), (['/', 'd'], .dir), (['/', 'd', '/', 'f'], .file ['x']), (['/', 'c'], .file ['y']),
  (['/', 'c', '.', 'o', 'l', 'd'], .file ['z']), (['/', 'e'], .file ['w'])]

/-- **C83 is false of the code (links)**: package 1 has a link in the place of a directory holding files of package 2;
directories are no conflict, and the tree is removed. -/
theorem keeps_foreign_refuted : ¬ KeepsForeign := by
  intro h
  have := h id ['/'] false ownedBy2 1 none [{ path := ['d'] }] [.link ['/', 'd'] ['/', 't']] ownedFS ['d', '/', 'f'] ['x']
    (by intro e he; rw [List.mem_singleton] at he; subst he; exact ⟨_, List.mem_singleton.mpr rfl, rfl⟩)
    ⟨2, (), rfl, by decide⟩ rfl
  have := not_keeps this (show _ = Except.ok _ from rfl)
  revert this
  decide

/-- **C83 is false of the code (backups)**: package 2 owns a file named like the backup of a configuration file of
package 1 which the user changed. -/
theorem keeps_foreign_refuted_backup : ¬ KeepsForeign := by
  intro h
  have := h id ['/'] false ownedBy2 1 none [{ path := ['c'], conf := true, hash := some ['n'] }] [.file ['/', 'c'] ['n']] ownedFS
    ['c', '.', 'o', 'l', 'd'] ['z']
    (by intro e he; rw [List.mem_singleton] at he; subst he; exact ⟨_, List.mem_singleton.mpr rfl, rfl⟩)
    ⟨2, (), rfl, by decide⟩ rfl
  have := not_keeps this (show _ = Except.ok _ from rfl)
  revert this
  decide

theorem overlapPairs_nil (new : List FileInfo) : overlapPairs new [] = [] := by simp [overlapPairs, sortFiles]

/-- **C83 is false of the code (upgrades)**: upgrades ignore file conflicts, pisi/op/upgrade.py:165. -/
theorem keeps_foreign_refuted_upgrade : ¬ KeepsForeign := by
  intro h
  have := h id ['/'] true ownedBy2 1 (some []) [{ path := ['e'] }] [.file ['/', 'e'] ['n']] ownedFS ['e'] ['w']
    (by intro e he; rw [List.mem_singleton] at he; subst he; exact ⟨_, List.mem_singleton.mpr rfl, rfl⟩)
    ⟨2, (), rfl, by decide⟩ rfl
  have hr : ∃ t, (installFiles id ['/'] true ownedBy2 1 (some []) [{ path := ['e'] }] [.file ['/', 'e'] ['n']] ownedFS).2 = .ok t ∧
      t.get ['/', 'e'] = some (.file ['n']) := by
    unfold installFiles extractInstall
    simp only [overlapPairs_nil]
    exact ⟨_, rfl, rfl⟩
  obtain ⟨t, ht, hg⟩ := hr
  have := not_keeps this ht
  rw [show joinPath ['/'] [['e']] = ['/', 'e'] from rfl, hg] at this
  revert this
  decide

theorem joinPath_inj (dest p q : Str) (hp : p.head? ≠ some '/') (hq : q.head? ≠ some '/')
    (h : joinPath dest [p] = joinPath dest [q]) : p = q := by
  have hs : ∀ s : Str, s.head? ≠ some '/' → lstripSlash s = s := by
    intro s hs
    cases s with
    | nil => rfl
    | cons c s =>
      have : c ≠ '/' := fun e => hs (by simp [e])
      simp [lstripSlash, this]
  simp only [joinPath, List.foldl_cons, List.foldl_nil, joinStep, hs p hp, hs q hq] at h
  split at h
  · exact List.append_cancel_left h
  · simpa using List.append_cancel_left h

theorem backupUpg_keeps (sha : Str → Str) (dest : Str) (k : Str) (l : List (FileInfo × FileInfo)) : ∀ (st : FS × List Str),
    (∀ x ∈ l, x.1.conf = true → k ≠ joinPath dest [x.1.path] ∧ k ≠ dotOld (joinPath dest [x.1.path])) →
    (backupUpg sha dest l st).Sat (fun t => t.get k = st.1.get k)
      (fun st' => st'.1.get k = st.1.get k ∧ ∀ q ∈ st'.2, q ∈ st.2 ∨ ∃ x ∈ l, x.1.conf = true ∧ q = joinPath dest [x.1.path]) := by
  induction l with
  | nil => intro st _; exact Tr.sat_pure ⟨rfl, fun q hq => .inl hq⟩
  | cons x l ih =>
    obtain ⟨n, o⟩ := x
    intro st hk
    unfold backupUpg
    by_cases hp : n.path = o.path
    · rw [if_neg (by simpa using hp)]
      by_cases hc : (n.conf && o.conf) = true
      · rw [if_pos hc]
        rw [Bool.and_eq_true] at hc
        obtain ⟨k1, k2⟩ := hk (n, o) (by simp) hc.1
        rw [← hp]
        refine Tr.Sat.bind (backupIf_keeps sha o.hash _ k st k1 k2) fun st' ⟨e, hl⟩ => ?_
        refine Tr.Sat.mono (ih st' fun q hq => hk q (by simp [hq])) (fun t ht => ht.trans e) (fun st'' ⟨e', hm⟩ => ?_)
        refine ⟨e'.trans e, fun q hq => ?_⟩
        rcases hm q hq with h | ⟨x, hx, hxc, hxq⟩
        · rcases hl with hl | hl
          · exact .inl (hl ▸ h)
          · rw [hl] at h
            rcases List.mem_append.mp h with h | h
            · exact .inl h
            · exact .inr ⟨(n, o), by simp, hc.1, by simpa using h⟩
        · exact .inr ⟨x, by simp [hx], hxc, hxq⟩
      · rw [if_neg hc]
        refine Tr.Sat.mono (ih st fun q hq => hk q (by simp [hq])) (fun t ht => ht) (fun st'' ⟨e', hm⟩ => ⟨e', fun q hq => ?_⟩)
        rcases hm q hq with h | ⟨x, hx, hxc, hxq⟩
        · exact .inl h
        · exact .inr ⟨x, by simp [hx], hxc, hxq⟩
    · rw [if_pos hp]
      exact Tr.sat_fail

theorem overlap_new (new old : List FileInfo) (x : FileInfo × FileInfo) (h : x ∈ overlapPairs new old) : x.1 ∈ new := by
  unfold overlapPairs at h
  have := (List.of_mem_zip h).1
  exact (List.mergeSort_perm _ _).mem_iff.mp (List.mem_filter.mp this).1

/-- Extraction touches only the members, the configuration files and their `.old` and `.newconfig` companions. -/
theorem extractInstall_keeps (sha : Str → Str) (dest : Str) (old : Option (List FileInfo)) (new : List FileInfo)
    (es : List Entry) (fs : FS) (k : Str) (hk : fs.get k ≠ none) (hes : ∀ e ∈ es, e.Spares k)
    (hconf : ∀ f ∈ new, f.conf = true → k ≠ joinPath dest [f.path] ∧ k ≠ dotOld (joinPath dest [f.path]) ∧
      k ≠ dotNew (joinPath dest [f.path])) :
    (extractInstall sha dest old new es fs).Keeps fs k := by
  unfold extractInstall
  have hb : (match old with
      | some old => backupUpg sha dest (overlapPairs new old) (fs, [])
      | none => backupNew sha dest new (fs, [])).Sat (fun t => t.get k = fs.get k)
      (fun st' => st'.1.get k = fs.get k ∧ ∀ q ∈ st'.2, ∃ f ∈ new, f.conf = true ∧ q = joinPath dest [f.path]) := by
    cases old with
    | none =>
      simp only [backupNew_eq]
      refine Tr.Sat.mono (backupList_keeps sha _ k (fs, []) ?_) (fun t ht => ht) (fun st' ⟨e, l, hl, hs⟩ => ⟨e, fun q hq => ?_⟩)
      · intro q hq
        obtain ⟨f, hf, rfl⟩ := List.mem_map.mp hq
        obtain ⟨hf, hc⟩ := List.mem_filter.mp hf
        exact ⟨(hconf f hf hc).1, (hconf f hf hc).2.1⟩
      · rw [hl] at hq
        have := hs.mem (by simpa using hq)
        obtain ⟨y, hy, rfl⟩ := List.mem_map.mp this
        obtain ⟨f, hf, rfl⟩ := List.mem_map.mp hy
        obtain ⟨hf, hc⟩ := List.mem_filter.mp hf
        exact ⟨f, hf, hc, rfl⟩
    | some old =>
      refine Tr.Sat.mono (backupUpg_keeps sha dest k (overlapPairs new old) (fs, []) ?_) (fun t ht => ht)
        (fun st' ⟨e, hm⟩ => ⟨e, fun q hq => ?_⟩)
      · intro x hx hc
        have := overlap_new new old x hx
        exact ⟨(hconf _ this hc).1, (hconf _ this hc).2.1⟩
      · rcases hm q hq with h | ⟨x, hx, hc, rfl⟩
        · simp at h
        · exact ⟨x.1, overlap_new new old x hx, hc, rfl⟩
  refine Tr.Sat.bind hb fun st ⟨e, hm⟩ => ?_
  refine Tr.Sat.bind (Tr.Sat.mono (extractAll_keeps es st.1 k (by rw [e]; exact hk) hes) (fun t ht => ht.trans e)
    (fun t ht => ht.trans e)) fun t ht => ?_
  refine Tr.Sat.bind (Tr.Sat.mono (restore_keeps st.2 k t ?_) (fun u hu => hu.trans ht) (fun u hu => hu.trans ht)) fun u hu => ?_
  · intro q hq
    obtain ⟨f, hf, hc, rfl⟩ := hm q hq
    exact hconf f hf hc
  · cases old with
    | none => exact Tr.sat_pure hu
    | some old =>
      show Tr.Sat (if _ then _ else _) _ _
      split
      · exact Tr.sat_pure hu
      · exact Tr.sat_fail

/-- **C83, proved part**: when conflicts are not ignored and recorded paths are relative, a regular file of another package
keeps its content at every moment and in the end, provided that it is not named like the backup of a configuration file of
the new package and does not lie below a link of the new package.  Missing: these cases, and upgrades. -/
theorem keeps_foreign_partial (sha : Str → Str) (dest : Str) (db : DB.FilesDB Str α ι) (pkg : α) (old : Option (List FileInfo))
    (new : List FileInfo) (es : List Entry) (fs : FS) (path c : Str)
    (hes : ∀ e ∈ es, ∃ f ∈ new, e.path = joinPath dest [f.path]) (hfor : Others db pkg path)
    (hfs : fs.get (joinPath dest [path]) = some (.file c))
    (hrel : path.head? ≠ some '/' ∧ ∀ f ∈ new, f.path.head? ≠ some '/')
    (hbak : ∀ f ∈ new, f.conf = true → joinPath dest [path] ≠ dotOld (joinPath dest [f.path]) ∧
      joinPath dest [path] ≠ dotNew (joinPath dest [f.path]))
    (hlink : ∀ p t, Entry.link p t ∈ es → ¬ Below p (joinPath dest [path])) :
    (installFiles sha dest false db pkg old new es fs).Keeps fs (joinPath dest [path]) := by
  by_cases hin : ∃ f ∈ new, f.path = path
  · obtain ⟨f, hf, rfl⟩ := hin
    have hdir : isDir fs (joinPath dest [f.path]) = false := by simp [isDir, stat, statN, hfs]
    rw [conflict_refused sha dest db pkg old new es fs f hf hfor hdir]
    exact keeps_fail _ _ _
  · have hne : ∀ f ∈ new, joinPath dest [f.path] ≠ joinPath dest [path] := fun f hf e =>
      hin ⟨f, hf, joinPath_inj dest _ _ (hrel.2 f hf) hrel.1 e⟩
    unfold installFiles
    split
    · exact keeps_fail _ _ _
    · refine extractInstall_keeps sha dest old new es fs _ (by simp [hfs]) ?_ ?_
      · intro e he
        obtain ⟨f, hf, hp⟩ := hes e he
        refine ⟨by rw [hp]; exact hne f hf, ?_⟩
        rintro p t rfl
        exact hlink p t he
      · intro f hf hc
        exact ⟨Ne.symm (hne f hf), hbak f hf hc⟩

/-- The hypotheses of `keeps_foreign_partial` are met when package 1 brings a configuration file and a link. -/
example : ∃ s, (installFiles id ['/'] false [(['d', '/', 'f'], (2, ()))] 1 none
      [{ path := ['c'], conf := true, hash := some ['n'] }, { path := ['d', '/', 'g'] }]
      [.file ['/', 'c'] ['n'], .link ['/', 'd', '/', 'g'] ['/', 'c']]
      [(['/'], .dir), (['/', 'd'], .dir), (['/', 'd', '/', 'f'], .file ['x']), (['/', 'c'], .file ['y'])]).2 = .ok s ∧
    s.get ['/', 'd', '/', 'f'] = some (.file ['x']) ∧ s.get ['/', 'd', '/', 'g'] = some (.link ['/', 'c']) ∧
    s.get ['/', 'c'] = some (.file ['y']) ∧ s.get (dotNew ['/', 'c']) = some (.file ['n']) := ⟨_, rfl, rfl, rfl, rfl, rfl⟩

end Pisi.FS

namespace Pisi.Plan
open Pisi.Version Pisi.Version.Spec Pisi.PlanSpec
variable {α : Type} [DecidableEq α]

/-! ## C84, C85: replacing an installed package -/

theorem verCmp_lt (a b : Str) : verCmp vlt a b = .ok true ↔ OlderStr a b := by
  unfold verCmp OlderStr
  simp only [← version_grammar]
  cases ha : parse a with
  | none => simp
  | some va =>
    cases hb : parse b with
    | none => simp
    | some vb => simp [(version_operators va vb).1]

theorem verCmp_gt (a b : Str) : verCmp vgt a b = .ok true ↔ OlderStr b a := by
  unfold verCmp OlderStr
  simp only [← version_grammar]
  cases ha : parse a with
  | none => simp
  | some va =>
    cases hb : parse b with
    | none => simp
    | some vb => simp [vgt_iff, older_iff]

theorem verCmp_eq (a b : Str) : verCmp veq a b = .ok true ↔ SameStr b a := by
  unfold verCmp SameStr
  simp only [← version_grammar]
  cases ha : parse a with
  | none => simp
  | some va =>
    cases hb : parse b with
    | none => simp
    | some vb =>
      simp only [Except.ok.injEq, veq_iff, Option.some.injEq, exists_and_left, exists_eq_left', same_iff]
      exact ⟨SeqEq.symm, SeqEq.symm⟩

theorem verCmp_error (rel : List Item → List Item → Bool) (a b : Str) (e : RErr) (h : verCmp rel a b = .error e) : e = .value := by
  unfold verCmp at h
  cases ha : parse a with
  | none => simp [ha] at h; exact h.symm
  | some va =>
    cases hb : parse b with
    | none => simp [ha, hb] at h; exact h.symm
    | some vb => simp [ha, hb] at h

theorem noBuild_iff (b : Option Int) : noBuild b = false ↔ ∃ n, b = some n ∧ n ≠ 0 := by
  cases b <;> simp [noBuild]

theorem builds_iff (ign : Bool) (i : InstRec) (p : PkgInfo α) :
    (noBuild i.build || noBuild p.build || ign) = false ↔ UseBuilds ign i p := by
  simp only [Bool.or_eq_false_iff, noBuild_iff, UseBuilds]
  exact ⟨fun ⟨⟨a, b⟩, c⟩ => ⟨c, a, b⟩, fun ⟨c, a, b⟩ => ⟨⟨a, b⟩, c⟩⟩

theorem sameVer_true (mismatch ign : Bool) (i : InstRec) (p : PkgInfo α) :
    sameVer mismatch ign i p = .ok true ↔ SameRelease mismatch ign i p := by
  unfold sameVer SameRelease
  have hb := builds_iff ign i p
  by_cases hu : UseBuilds ign i p
  · have h := hb.mpr hu
    cases mismatch
    · simp only [Bool.false_or, h, Bool.false_eq_true, if_false, hu, not_true_eq_false, or_self, false_and, or_false, true_and]
      simp [eq_comm]
    · simp [hu, verCmp_eq]
  · have h : (noBuild i.build || noBuild p.build || ign) = true := by
      cases hh : (noBuild i.build || noBuild p.build || ign)
      · exact absurd (hb.mp hh) hu
      · rfl
    rw [if_pos (by cases mismatch <;> simp [h])]
    simp [hu, verCmp_eq]

theorem isUpgrade_true (ign : Bool) (i : InstRec) (p : PkgInfo α) (h : isUpgrade ign i p = .ok true) : Newer ign i p := by
  unfold isUpgrade at h
  cases h1 : verCmp vgt p.version i.version with
  | error e => simp [h1] at h
  | ok b =>
    cases b with
    | true => exact .inl ((verCmp_gt _ _).mp h1)
    | false =>
      simp only [h1] at h
      cases h2 : verCmp vgt p.release i.release with
      | error e => simp [h2] at h
      | ok b =>
        cases b with
        | true => exact .inr (.inl ((verCmp_gt _ _).mp h2))
        | false =>
          simp only [h2, Except.ok.injEq, Bool.and_eq_true, Bool.not_eq_true'] at h
          obtain ⟨⟨⟨c1, c2⟩, c3⟩, c4⟩ := h
          refine .inr (.inr ⟨⟨c1, (noBuild_iff _).mp c2, (noBuild_iff _).mp c3⟩, ?_⟩)
          obtain ⟨a, ha, _⟩ := (noBuild_iff _).mp c2
          obtain ⟨b, hb, _⟩ := (noBuild_iff _).mp c3
          refine ⟨a, b, ha, hb, ?_⟩
          simpa [buildGt, ha, hb] using c4

/-- A package that is newer is recognised as an upgrade, if its version strings and those installed are well-formed. -/
theorem isUpgrade_newer (ign : Bool) (i : InstRec) (p : PkgInfo α)
    (hv : (∃ r, VersionG i.version r) ∧ (∃ r, VersionG p.version r) ∧ (∃ r, VersionG i.release r) ∧ ∃ r, VersionG p.release r)
    (h : Newer ign i p) : isUpgrade ign i p = .ok true := by
  obtain ⟨⟨iv, hiv⟩, ⟨pv, hpv⟩, ⟨ir, hir⟩, ⟨pr, hpr⟩⟩ := hv
  rw [← version_grammar] at hiv hpv hir hpr
  unfold isUpgrade
  cases h1 : verCmp vgt p.version i.version with
  | error e => simp [verCmp, hpv, hiv] at h1
  | ok b =>
    cases b with
    | true => rfl
    | false =>
      cases h2 : verCmp vgt p.release i.release with
      | error e => simp [verCmp, hpr, hir] at h2
      | ok b =>
        cases b with
        | true => rfl
        | false =>
          rcases h with h | h | ⟨⟨c1, c2, c3⟩, a, b, ha, hb, hab⟩
          · rw [← verCmp_gt, h1] at h; cases h
          · rw [← verCmp_gt, h2] at h; cases h
          · simp only [c1, (noBuild_iff _).mpr c2, (noBuild_iff _).mpr c3, Bool.not_false, Bool.true_and]
            simp [buildGt, ha, hb, hab]

/-- **C84 (who is asked).** Without the user's consent to any question, an installed package is replaced only by a newer
one, recognised as an upgrade, or by one of an older upstream version. -/
theorem unconfirmed_replacement (mismatch ign : Bool) (i : InstRec) (p : PkgInfo α) (b : Bool)
    (h : checkReinstall mismatch ign true (fun _ => false) i p = .ok b) :
    (b = true ∧ Newer ign i p) ∨ (b = false ∧ OlderStr p.version i.version) := by
  unfold checkReinstall at h
  cases h1 : sameVer mismatch ign i p with
  | error e => simp [h1] at h
  | ok c =>
    cases c with
    | true => simp [h1] at h
    | false =>
      simp only [h1] at h
      cases h2 : isUpgrade ign i p with
      | error e => simp [h2] at h
      | ok c =>
        cases c with
        | true =>
          simp only [h2, Except.ok.injEq] at h
          exact .inl ⟨h.symm, isUpgrade_true ign i p h2⟩
        | false =>
          simp only [h2, if_true] at h
          cases h3 : downgradeQuestion i p with
          | error e => simp [h3] at h
          | ok q =>
            cases q with
            | some q => simp [h3] at h
            | none =>
              simp only [h3, Except.ok.injEq] at h
              refine .inr ⟨h.symm, ?_⟩
              unfold downgradeQuestion at h3
              cases h4 : verCmp vlt p.version i.version with
              | error e => simp [h4] at h3
              | ok c =>
                cases c with
                | true => exact (verCmp_lt _ _).mp h4
                | false =>
                  simp only [h4] at h3
                  cases h5 : verCmp vlt p.release i.release with
                  | error e => simp [h5] at h3
                  | ok c => cases c <;> simp [h5] at h3

/-- **C84, full statement**: without the user's consent an installed package is only replaced by a newer one. -/
def ConfirmedDowngrade : Prop :=
  ∀ (mismatch ign : Bool) (i : InstRec) (p : PkgInfo Nat) (b : Bool),
    checkReinstall mismatch ign true (fun _ => false) i p = .ok b → Newer ign i p

/-- **C84 is false of the code**: the question about an older upstream version is switched off,
pisi/op/install.py:216-217. -/
theorem confirmed_downgrade_refuted : ¬ ConfirmedDowngrade := by
  intro h
  have hn := h false false ⟨['2'], ['2'], none⟩ { version := ['1'], release := ['1'] } false rfl
  have := isUpgrade_newer (α := Nat) false ⟨['2'], ['2'], none⟩ { version := ['1'], release := ['1'] }
    (by simp only [← version_grammar]; exact ⟨⟨_, rfl⟩, ⟨_, rfl⟩, ⟨_, rfl⟩, ⟨_, rfl⟩⟩) hn
  have h2 : isUpgrade (α := Nat) false ⟨['2'], ['2'], none⟩ { version := ['1'], release := ['1'] } = .ok false := rfl
  rw [h2] at this
  cases this

/-- **C84, proved part**: it holds if the upstream version is not older.  Missing: older upstream versions. -/
theorem confirmed_downgrade_partial (mismatch ign : Bool) (i : InstRec) (p : PkgInfo α) (b : Bool)
    (hver : ¬ OlderStr p.version i.version) (h : checkReinstall mismatch ign true (fun _ => false) i p = .ok b) :
    b = true ∧ Newer ign i p := by
  rcases unconfirmed_replacement mismatch ign i p b h with h | ⟨_, h⟩
  · exact h
  · exact absurd h hver

/-- **C84 (consent).** A replacement is declined only after a question that was not agreed to: about the same release (or
build), or about a package that is not newer. -/
theorem declined_question (mismatch ign ask : Bool) (confirm : Question → Bool) (i : InstRec) (p : PkgInfo α)
    (h : checkReinstall mismatch ign ask confirm i p = .error .declined) :
    ask = true ∧ ∃ q, confirm q = false ∧ match q with
      | .same => SameRelease mismatch ign i p
      | .release => OlderStr p.release i.release ∧ isUpgrade ign i p = .ok false
      | .build => isUpgrade ign i p = .ok false := by
  unfold checkReinstall at h
  cases h1 : sameVer mismatch ign i p with
  | error e =>
    simp only [h1, Except.error.injEq] at h
    subst h
    unfold sameVer at h1
    split at h1
    · have := verCmp_error _ _ _ _ h1; cases this
    · cases h1
  | ok c =>
    cases c with
    | true =>
      simp only [h1] at h
      split at h
      · next hc =>
        simp only [Bool.and_eq_true, Bool.not_eq_true'] at hc
        exact ⟨hc.1, .same, hc.2, (sameVer_true mismatch ign i p).mp h1⟩
      · cases h
    | false =>
      simp only [h1] at h
      cases h2 : isUpgrade ign i p with
      | error e =>
        simp only [h2, Except.error.injEq] at h
        subst h
        unfold isUpgrade at h2
        cases h3 : verCmp vgt p.version i.version with
        | error e => simp only [h3, Except.error.injEq] at h2; subst h2; have := verCmp_error _ _ _ _ h3; cases this
        | ok c =>
          cases c with
          | true => simp [h3] at h2
          | false =>
            simp only [h3] at h2
            cases h4 : verCmp vgt p.release i.release with
            | error e => simp only [h4, Except.error.injEq] at h2; subst h2; have := verCmp_error _ _ _ _ h4; cases this
            | ok c => cases c <;> simp [h4] at h2
      | ok c =>
        cases c with
        | true => simp [h2] at h
        | false =>
          simp only [h2] at h
          cases ask with
          | false => simp at h
          | true =>
            simp only [if_true] at h
            refine ⟨rfl, ?_⟩
            cases h3 : downgradeQuestion i p with
            | error e =>
              simp only [h3, Except.error.injEq] at h
              subst h
              unfold downgradeQuestion at h3
              cases h4 : verCmp vlt p.version i.version with
              | error e => simp only [h4, Except.error.injEq] at h3; subst h3; have := verCmp_error _ _ _ _ h4; cases this
              | ok c =>
                cases c with
                | true => simp [h4] at h3
                | false =>
                  simp only [h4] at h3
                  cases h5 : verCmp vlt p.release i.release with
                  | error e => simp only [h5, Except.error.injEq] at h3; subst h3; have := verCmp_error _ _ _ _ h5; cases this
                  | ok c => cases c <;> simp [h5] at h3
            | ok q =>
              cases q with
              | none => simp [h3] at h
              | some q =>
                simp only [h3] at h
                split at h
                · cases h
                · next hq =>
                  rw [Bool.not_eq_true] at hq
                  refine ⟨q, hq, ?_⟩
                  cases q with
                  | same =>
                    unfold downgradeQuestion at h3
                    cases h4 : verCmp vlt p.version i.version with
                    | error e => simp [h4] at h3
                    | ok c =>
                      cases c with
                      | true => simp [h4] at h3
                      | false =>
                        simp only [h4] at h3
                        cases h5 : verCmp vlt p.release i.release with
                        | error e => simp [h5] at h3
                        | ok c => cases c <;> simp [h5] at h3
                  | build => rfl
                  | release =>
                    refine ⟨?_, rfl⟩
                    unfold downgradeQuestion at h3
                    cases h4 : verCmp vlt p.version i.version with
                    | error e => simp [h4] at h3
                    | ok c =>
                      cases c with
                      | true => simp [h4] at h3
                      | false =>
                        simp only [h4] at h3
                        cases h5 : verCmp vlt p.release i.release with
                        | error e => simp [h5] at h3
                        | ok c =>
                          cases c with
                          | true => exact (verCmp_lt _ _).mp h5
                          | false => simp [h5] at h3

/-- A rebuild of the installed release is asked about, an older release too. -/
example : checkReinstall (α := Nat) false false true (fun _ => false) ⟨['1'], ['2'], some 3⟩
    { version := ['1'], release := ['2'], build := some 3 } = .error .declined := rfl
example : checkReinstall (α := Nat) false false true (fun q => q = .same) ⟨['1'], ['2'], some 3⟩
    { version := ['1'], release := ['1'], build := some 2 } = .error .declined := rfl
example : checkReinstall (α := Nat) false false true (fun _ => false) ⟨['1'], ['2'], some 3⟩
    { version := ['1'], release := ['2'], build := some 4 } = .ok true := rfl

/-- **C85, full statement**: a package the upgrade list offers is installed as an upgrade, without any question. -/
def OfferedIsUpgrade : Prop :=
  ∀ (mismatch ign ask : Bool) (confirm : Question → Bool) (i : InstRec) (p : PkgInfo Nat),
    (∃ r, VersionG i.version r) → (∃ r, VersionG p.version r) → newerInRepo ign i p = .ok true →
    (∃ r, VersionG i.release r) → (∃ r, VersionG p.release r) → checkReinstall mismatch ign ask confirm i p = .ok true

/-- **C85 is false of the code**: the list compares builds, but a package of another distribution with the same release
counts as the same. -/
theorem offered_is_upgrade_refuted : ¬ OfferedIsUpgrade := by
  intro h
  have := h true false true (fun _ => false) ⟨['1'], ['1'], some 1⟩ { version := ['1'], release := ['1'], build := some 2 }
    ((version_grammar _ _).mp rfl |> fun h => ⟨_, h⟩) ((version_grammar _ _).mp rfl |> fun h => ⟨_, h⟩) rfl
    ((version_grammar _ _).mp rfl |> fun h => ⟨_, h⟩) ((version_grammar _ _).mp rfl |> fun h => ⟨_, h⟩)
  have h2 : checkReinstall (α := Nat) true false true (fun _ => false) ⟨['1'], ['1'], some 1⟩
    { version := ['1'], release := ['1'], build := some 2 } = .error .declined := rfl
  rw [h2] at this
  cases this

/-- **C85, proved part**: it holds when the distributions agree, or builds are not compared.  Missing: a newer build from
another distribution. -/
theorem offered_is_upgrade_partial (mismatch ign ask : Bool) (confirm : Question → Bool) (i : InstRec) (p : PkgInfo α)
    (hv : (∃ r, VersionG i.version r) ∧ (∃ r, VersionG p.version r) ∧ (∃ r, VersionG i.release r) ∧ ∃ r, VersionG p.release r)
    (hm : mismatch = false ∨ ¬ UseBuilds ign i p) (h : newerInRepo ign i p = .ok true) :
    checkReinstall mismatch ign ask confirm i p = .ok true := by
  have hn : Newer ign i p := by
    rcases (newerInRepo_true ign i p).mp h with ⟨h1, h2⟩ | ⟨_, h2⟩
    · exact .inr (.inr ⟨h1, h2⟩)
    · exact .inr (.inl h2)
  have hs : sameVer mismatch ign i p = .ok false := by
    cases hs : sameVer mismatch ign i p with
    | error e =>
      obtain ⟨_, _, ⟨ir, hir⟩, ⟨pr, hpr⟩⟩ := hv
      rw [← version_grammar] at hir hpr
      unfold sameVer at hs
      split at hs
      · simp [verCmp, hpr, hir] at hs
      · cases hs
    | ok b =>
      cases b with
      | false => rfl
      | true =>
        exfalso
        rcases (sameVer_true mismatch ign i p).mp hs with ⟨hu, _, he⟩ | ⟨hu, r, s, hr, hs', hsame⟩
        · rcases (newerInRepo_true ign i p).mp h with ⟨_, a, b, ha, hb, hab⟩ | ⟨h1, _⟩
          · rw [ha, hb] at he
            cases he
            omega
          · exact h1 hu
        · have hnb : ¬ UseBuilds ign i p := by
            rcases hm with rfl | hm
            · rcases hu with hu | hu
              · exact hu
              · cases hu
            · exact hm
          rcases (newerInRepo_true ign i p).mp h with ⟨h1, _⟩ | ⟨_, r', s', hr', hs'', ho⟩
          · exact hnb h1
          · cases version_grammar_unique _ _ _ hr hr'
            cases version_grammar_unique _ _ _ hs' hs''
            exact SeqLt_irrefl_of_eq _ _ ((same_iff _ _).mp hsame) ((older_iff _ _).mp ho)
  unfold checkReinstall
  simp [hs, isUpgrade_newer ign i p hv hn]

example : newerInRepo (α := Nat) false ⟨['1'], ['2'], some 3⟩ { version := ['1'], release := ['2'], build := some 4 } = .ok true ∧
    checkReinstall (α := Nat) false false true (fun _ => false) ⟨['1'], ['2'], some 3⟩
      { version := ['1'], release := ['2'], build := some 4 } = .ok true := ⟨rfl, rfl⟩

end Pisi.Plan
