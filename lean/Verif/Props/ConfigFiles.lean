import Mathlib.Data.List.Nodup
import Verif.Lemmas.FS
import Verif.Spec.InstallFiles

/-!
# C31, C32: configuration files during installation
-/
namespace Pisi.FS
open Pisi.Path

/-! ## The pairs of old and new file records -/

theorem strLe_refl (a : Str) : strLe a a = true := by
  induction a with
  | nil => rfl
  | cons x s ih => simp [strLe, ih]

theorem strLe_total : ∀ a b : Str, strLe a b = true ∨ strLe b a = true
  | [], _ => .inl (by simp [strLe])
  | _ :: _, [] => .inr (by simp [strLe])
  | x :: s, y :: t => by
    unfold strLe
    by_cases h : x = y
    · subst h; simpa using strLe_total s t
    · rcases Nat.lt_trichotomy x.toNat y.toNat with h' | h' | h'
      · simp [h']
      · exact absurd (Char.toNat_inj.mp h') h
      · simp [h']

theorem strLe_antisymm : ∀ a b : Str, strLe a b = true → strLe b a = true → a = b
  | [], [] => fun _ _ => rfl
  | [], _ :: _ => fun _ h => by simp [strLe] at h
  | _ :: _, [] => fun h _ => by simp [strLe] at h
  | x :: s, y :: t => fun h1 h2 => by
    unfold strLe at h1 h2
    by_cases h : x = y
    · subst h
      simp at h1 h2
      rw [strLe_antisymm s t h1 h2]
    · have h' : y ≠ x := fun e => h e.symm
      simp [h] at h1
      simp [h'] at h2
      omega

theorem strLe_trans : ∀ a b c : Str, strLe a b = true → strLe b c = true → strLe a c = true
  | [], _, _ => fun _ _ => by simp [strLe]
  | _ :: _, [], _ => fun h _ => by simp [strLe] at h
  | _ :: _, _ :: _, [] => fun _ h => by simp [strLe] at h
  | x :: s, y :: t, z :: u => fun h1 h2 => by
    unfold strLe at h1 h2 ⊢
    by_cases e1 : x = y
    · subst e1
      by_cases e2 : x = z
      · subst e2
        simp at h1 h2 ⊢
        exact strLe_trans s t u h1 h2
      · simp [e2] at h2 ⊢; exact h2
    · simp [e1] at h1
      by_cases e2 : y = z
      · subst e2; simp [h1]
      · simp [e2] at h2
        have : x.toNat < z.toNat := by omega
        simp [this]

theorem sorted_paths (l : List FileInfo) : ((sortFiles l).map FileInfo.path).Pairwise (fun a b => strLe a b = true) := by
  rw [List.pairwise_map]
  exact List.pairwise_mergeSort (le := fun a b : FileInfo => strLe a.path b.path)
    (fun a b c => strLe_trans _ _ _)
    (fun a b => by simpa using strLe_total a.path b.path) l

theorem zip_of_map_eq {β γ δ : Type} (f : β → δ) (g : γ → δ) : ∀ (a : List β) (b : List γ), a.map f = b.map g →
    (∀ x ∈ a.zip b, f x.1 = g x.2) ∧ ∀ x ∈ a, ∃ y, (x, y) ∈ a.zip b
  | [], _, _ => by simp
  | _ :: _, [], h => by simp at h
  | x :: a, y :: b, h => by
    simp only [List.map_cons, List.cons.injEq] at h
    obtain ⟨i1, i2⟩ := zip_of_map_eq f g a b h.2
    constructor
    · intro z hz
      rw [List.zip_cons_cons, List.mem_cons] at hz
      rcases hz with rfl | hz
      · exact h.1
      · exact i1 z hz
    · intro z hz
      rcases List.mem_cons.mp hz with rfl | hz
      · exact ⟨y, by simp⟩
      · obtain ⟨w, hw⟩ := i2 z hz
        exact ⟨w, by simp [hw]⟩

theorem overlap_maps (new old : List FileInfo) (hn : (new.map FileInfo.path).Nodup) (ho : (old.map FileInfo.path).Nodup)
    (P : FileInfo → Bool) (hP : ∀ x, P x = true ↔ x.path ∈ new.map FileInfo.path ∧ x.path ∈ old.map FileInfo.path) :
    ((sortFiles new).filter P).map FileInfo.path = ((sortFiles old).filter P).map FileInfo.path := by
  have sub : ∀ l : List FileInfo, (((sortFiles l).filter P).map FileInfo.path).Sublist ((sortFiles l).map FileInfo.path) :=
    fun l => List.Sublist.map _ List.filter_sublist
  have perm : ∀ l : List FileInfo, (sortFiles l).Perm l := fun l => List.mergeSort_perm l _
  refine List.Perm.eq_of_pairwise (le := fun a b => strLe a b = true) (fun a b _ _ => strLe_antisymm a b)
    ((sorted_paths new).sublist (sub new)) ((sorted_paths old).sublist (sub old)) ?_
  rw [List.perm_ext_iff_of_nodup
    ((((perm new).map FileInfo.path).nodup_iff.mpr hn).sublist (sub new))
    ((((perm old).map FileInfo.path).nodup_iff.mpr ho).sublist (sub old))]
  intro p
  have mem : ∀ l : List FileInfo, p ∈ ((sortFiles l).filter P).map FileInfo.path ↔
      p ∈ l.map FileInfo.path ∧ p ∈ new.map FileInfo.path ∧ p ∈ old.map FileInfo.path := by
    intro l
    constructor
    · intro h
      obtain ⟨x, hx, rfl⟩ := List.mem_map.mp h
      obtain ⟨hx1, hx2⟩ := List.mem_filter.mp hx
      exact ⟨List.mem_map_of_mem ((perm l).mem_iff.mp hx1), (hP x).mp hx2⟩
    · rintro ⟨h1, h2⟩
      obtain ⟨x, hx, rfl⟩ := List.mem_map.mp h1
      exact List.mem_map_of_mem (List.mem_filter.mpr ⟨(perm l).mem_iff.mpr hx, (hP x).mpr h2⟩)
  rw [mem new, mem old]
  constructor
  · rintro ⟨_, h⟩; exact ⟨h.2, h⟩
  · rintro ⟨_, h⟩; exact ⟨h.1, h⟩

/-- The zip pairs exactly the records of the same path. -/
theorem overlapPairs_spec (new old : List FileInfo) (hn : (new.map FileInfo.path).Nodup)
    (ho : (old.map FileInfo.path).Nodup) (n o : FileInfo) :
    (n, o) ∈ overlapPairs new old ↔ n ∈ new ∧ o ∈ old ∧ n.path = o.path := by
  have perm : ∀ l : List FileInfo, (sortFiles l).Perm l := fun l => List.mergeSort_perm l _
  let P : FileInfo → Bool := fun x => decide (x.path ∈ new.map FileInfo.path ∧ x.path ∈ old.map FileInfo.path)
  have hP : ∀ x, P x = true ↔ x.path ∈ new.map FileInfo.path ∧ x.path ∈ old.map FileInfo.path := fun x => decide_eq_true_iff
  have em := overlap_maps new old hn ho P hP
  obtain ⟨z1, z2⟩ := zip_of_map_eq FileInfo.path FileInfo.path _ _ em
  have e : overlapPairs new old = ((sortFiles new).filter P).zip ((sortFiles old).filter P) := rfl
  rw [e]
  constructor
  · intro h
    obtain ⟨h1, h2⟩ := List.of_mem_zip h
    exact ⟨(perm new).mem_iff.mp (List.mem_filter.mp h1).1, (perm old).mem_iff.mp (List.mem_filter.mp h2).1, z1 _ h⟩
  · rintro ⟨h1, h2, h3⟩
    have : n ∈ (sortFiles new).filter P := List.mem_filter.mpr ⟨(perm new).mem_iff.mpr h1,
      (hP n).mpr ⟨List.mem_map_of_mem h1, h3 ▸ List.mem_map_of_mem h2⟩⟩
    obtain ⟨o', ho'⟩ := z2 n this
    have e2 : n.path = o'.path := z1 _ ho'
    have m2 : o' ∈ old := (perm old).mem_iff.mp (List.mem_filter.mp (List.of_mem_zip ho').2).1
    have : o' = o := List.inj_on_of_nodup_map ho m2 h2 (e2.symm.trans h3)
    exact this ▸ ho'

theorem zip_sublist_map {β γ δ : Type} (f : β → δ) (g : γ → δ) : ∀ (a : List β) (b : List γ), a.map f = b.map g →
    (a.zip b).map (fun x => g x.2) = b.map g
  | [], [], _ => rfl
  | [], _ :: _, h => by simp at h
  | _ :: _, [], h => by simp at h
  | x :: a, y :: b, h => by
    simp only [List.map_cons, List.cons.injEq] at h
    simp [zip_sublist_map f g a b h.2]

/-! ## The theorems -/

/-- What the partial theorems assume: records and members have different paths; no configuration file of the package has the
backup name or the `.newconfig` name of another one, no member has the backup name of a configuration file, and no directory
above a configuration file is packaged as a link. -/
structure Separate (dest : Str) (old : Option (List FileInfo)) (new : List FileInfo) (es : List Entry) : Prop where
  nodupNew : (new.map (fun f => joinPath dest [f.path])).Nodup
  nodupOld : ∀ l, old = some l → (l.map FileInfo.path).Nodup
  apart : ∀ f ∈ new, f.conf = true → ∀ g ∈ new, g.conf = true →
    joinPath dest [f.path] ≠ dotOld (joinPath dest [g.path]) ∧ joinPath dest [f.path] ≠ dotNew (joinPath dest [g.path])
  entries : (es.map Entry.path).Nodup
  noBackup : ∀ e ∈ es, ∀ f ∈ new, f.conf = true → e.path ≠ dotOld (joinPath dest [f.path])
  noLinkAbove : ∀ q t, Entry.link q t ∈ es → ∀ f ∈ new, f.conf = true → ¬ Below q (joinPath dest [f.path])

/-- The (recorded hash, path) list of the backup phase. -/
def confList (dest : Str) (old : Option (List FileInfo)) (new : List FileInfo) : List (Option Str × Str) :=
  match old with
  | none => (new.filter FileInfo.conf).map (fun f => (f.hash, joinPath dest [f.path]))
  | some l => ((overlapPairs new l).filter (fun x => x.1.conf && x.2.conf)).map (fun x => (x.2.hash, joinPath dest [x.2.path]))

variable {sha : Str → Str} {dest : Str} {old : Option (List FileInfo)} {new : List FileInfo} {es : List Entry}

theorem Separate.nodupPath (h : Separate dest old new es) : (new.map FileInfo.path).Nodup := by
  have := h.nodupNew
  rw [show (fun f : FileInfo => joinPath dest [f.path]) = (fun p => joinPath dest [p]) ∘ FileInfo.path from rfl,
    ← List.map_map] at this
  exact List.Nodup.of_map _ this

theorem confList_mem (h : Separate dest old new es) (x : Option Str) (p : Str) :
    (x, p) ∈ confList dest old new ↔ ∃ f ∈ new, f.conf = true ∧ p = joinPath dest [f.path] ∧
      match old with
      | none => x = f.hash
      | some l => ∃ o ∈ l, o.path = f.path ∧ o.conf = true ∧ x = o.hash := by
  unfold confList
  cases old with
  | none =>
    constructor
    · intro hm
      obtain ⟨f, hf, e⟩ := List.mem_map.mp hm
      cases e
      exact ⟨f, (List.mem_filter.mp hf).1, (List.mem_filter.mp hf).2, rfl, rfl⟩
    · rintro ⟨f, hf, hc, rfl, rfl⟩
      exact List.mem_map.mpr ⟨f, List.mem_filter.mpr ⟨hf, hc⟩, rfl⟩
  | some l =>
    constructor
    · intro hm
      obtain ⟨⟨n, o⟩, hf, e⟩ := List.mem_map.mp hm
      cases e
      obtain ⟨h1, h2⟩ := List.mem_filter.mp hf
      obtain ⟨a, b, c⟩ := (overlapPairs_spec new l h.nodupPath (h.nodupOld l rfl) n o).mp h1
      simp only [Bool.and_eq_true] at h2
      exact ⟨n, a, h2.1, by rw [c], o, b, c.symm, h2.2, rfl⟩
    · rintro ⟨f, hf, hc, rfl, o, ho, e, hoc, rfl⟩
      refine List.mem_map.mpr ⟨(f, o), List.mem_filter.mpr ⟨?_, by simp [hc, hoc]⟩, by rw [e]⟩
      exact (overlapPairs_spec new l h.nodupPath (h.nodupOld l rfl) f o).mpr ⟨hf, ho, e.symm⟩

theorem confList_conf (h : Separate dest old new es) {p : Str} (hp : p ∈ (confList dest old new).map Prod.snd) :
    ∃ f ∈ new, f.conf = true ∧ p = joinPath dest [f.path] := by
  obtain ⟨⟨x, q⟩, hm, rfl⟩ := List.mem_map.mp hp
  obtain ⟨f, hf, hc, e, _⟩ := (confList_mem h x q).mp hm
  exact ⟨f, hf, hc, e⟩

theorem confList_nodup (h : Separate dest old new es) : ((confList dest old new).map Prod.snd).Nodup := by
  unfold confList
  cases old with
  | none =>
    show (((new.filter FileInfo.conf).map (fun f => (f.hash, joinPath dest [f.path]))).map Prod.snd).Nodup
    rw [List.map_map]
    exact h.nodupNew.sublist (List.Sublist.map _ List.filter_sublist)
  | some l =>
    show ((((overlapPairs new l).filter (fun x => x.1.conf && x.2.conf)).map
      (fun x => (x.2.hash, joinPath dest [x.2.path]))).map Prod.snd).Nodup
    rw [List.map_map]
    have hsub : (((overlapPairs new l).filter (fun x => x.1.conf && x.2.conf)).map (fun x => joinPath dest [x.2.path])).Sublist
        ((overlapPairs new l).map (fun x => joinPath dest [x.2.path])) := List.Sublist.map _ List.filter_sublist
    refine List.Nodup.sublist hsub ?_
    have hn := h.nodupPath
    have ho := h.nodupOld l rfl
    let P : FileInfo → Bool := fun x => decide (x.path ∈ new.map FileInfo.path ∧ x.path ∈ l.map FileInfo.path)
    have em := overlap_maps new l hn ho P (fun x => decide_eq_true_iff)
    have e1 : (overlapPairs new l).map (fun x => x.2.path) = ((sortFiles new).filter P).map FileInfo.path :=
      (zip_sublist_map FileInfo.path FileInfo.path _ _ em).trans em.symm
    have e2 : (overlapPairs new l).map (fun x => joinPath dest [x.2.path]) =
        ((sortFiles new).filter P).map (fun f => joinPath dest [f.path]) := by
      have := congrArg (List.map (fun p => joinPath dest [p])) e1
      rw [List.map_map, List.map_map] at this
      exact this
    rw [e2]
    have perm : (sortFiles new).Perm new := List.mergeSort_perm new _
    exact ((perm.map _).nodup_iff.mpr h.nodupNew).sublist (List.Sublist.map _ List.filter_sublist)

theorem confList_apart (h : Separate dest old new es) : Apart ((confList dest old new).map Prod.snd) := by
  refine ⟨confList_nodup h, fun p hp q hq => ?_⟩
  obtain ⟨f, hf, hc, rfl⟩ := confList_conf h hp
  obtain ⟨g, hg, hc', rfl⟩ := confList_conf h hq
  exact h.apart f hf hc g hg hc'

theorem extractInstall_eq (h : Separate dest old new es) (fs : FS) :
    extractInstall sha dest old new es fs =
      Tr.bind (backupList sha (confList dest old new) (fs, [])) fun st =>
      Tr.bind (extractAll st.1 es) fun fs =>
      Tr.bind (restore fs st.2) fun fs =>
      match old with
      | none => ([], .ok fs)
      | some old => if old.all (fun f => f.path ∈ new.map FileInfo.path) then ([], .ok fs) else ([], .error .typeErr) := by
  unfold extractInstall confList
  cases old with
  | none => simp only [backupNew_eq]
  | some l =>
    simp only
    rw [backupUpg_eq]
    intro x hx
    exact ((overlapPairs_spec new l h.nodupPath (h.nodupOld l rfl) x.1 x.2).mp hx).2.2

theorem below_dotOld (q p : Str) : Below q (dotOld p) → Below q p := by
  rintro ⟨r, hr⟩
  unfold dotOld at hr
  have hlen : q.length < p.length := by
    apply Classical.byContradiction
    intro hn
    have h1 : (p ++ ['.', 'o', 'l', 'd'])[q.length]? = some '/' := by rw [hr]; simp
    rw [List.getElem?_append_right (by omega)] at h1
    match hk : q.length - p.length with
    | 0 => rw [hk] at h1; simp at h1
    | 1 => rw [hk] at h1; simp at h1
    | 2 => rw [hk] at h1; simp at h1
    | 3 => rw [hk] at h1; simp at h1
    | k + 4 => rw [hk] at h1; simp at h1
  have h1 : q ++ ['/'] <+: p ++ ['.', 'o', 'l', 'd'] := ⟨r, by rw [hr]; simp⟩
  have h2 : q ++ ['/'] <+: p := List.prefix_of_prefix_length_le h1 (List.prefix_append _ _) (by simp; omega)
  obtain ⟨t, ht⟩ := h2
  exact ⟨t, by rw [← ht]; simp⟩

theorem leftover_sat (fs : FS) (P : FS → Prop) (Q : FS → Prop) (h : Q fs) : Tr.Sat (match old with
      | none => (([], .ok fs) : Tr FS)
      | some old => if old.all (fun f => f.path ∈ new.map FileInfo.path) then ([], .ok fs) else ([], .error .typeErr)) P Q := by
  cases old with
  | none => exact Tr.sat_pure h
  | some l =>
    show Tr.Sat (if _ then _ else _) P Q
    split
    · exact Tr.sat_pure h
    · exact Tr.sat_fail

theorem modified_sat (hs : Separate dest old new es) (fs : FS) (p c : Str) (hm : UserModified sha dest old new fs p c) :
    (extractInstall sha dest old new es fs).Sat (Safe p (.file c)) (fun t => t.get p = some (.file c) ∧
      ∀ c', Entry.file p c' ∈ es → t.get (dotNew p) = some (.file c')) := by
  obtain ⟨hg, f, hf, hc, rfl, hh⟩ := hm
  obtain ⟨x, hx, hne⟩ : ∃ x, (x, joinPath dest [f.path]) ∈ confList dest old new ∧ some (sha c) ≠ x := by
    cases old with
    | none => exact ⟨f.hash, (confList_mem hs _ _).mpr ⟨f, hf, hc, rfl, rfl⟩, hh⟩
    | some l =>
      obtain ⟨o, ho, e, hoc, hne⟩ := hh
      exact ⟨o.hash, (confList_mem hs _ _).mpr ⟨f, hf, hc, rfl, o, ho, e, hoc, rfl⟩, hne⟩
  rw [extractInstall_eq hs]
  refine Tr.Sat.bind (backupList_changed sha _ c x hne _ (fs, []) (confList_apart hs) hx hg) fun st ⟨h1, l, hl, hsub, hpl⟩ => ?_
  have hl : st.2 = l := by simpa using hl
  have hap : Apart st.2 := hl ▸ (confList_apart hs).sublist hsub
  have hps : joinPath dest [f.path] ∈ st.2 := hl ▸ hpl
  have k1 := extractAll_keeps es st.1 (dotOld (joinPath dest [f.path])) (by rw [h1]; simp) fun e he =>
    ⟨hs.noBackup e he f hf hc, fun q t eq hb => hs.noLinkAbove q t (eq ▸ he) f hf hc (below_dotOld _ _ hb)⟩
  have k2 : (extractAll st.1 es).Sat (fun _ => True) (fun t => ∀ c', Entry.file (joinPath dest [f.path]) c' ∈ es →
      t.get (joinPath dest [f.path]) = some (.file c')) := by
    refine ⟨fun _ _ => trivial, fun b hb c' hc' => ?_⟩
    exact (extractAll_file_at es _ c' st.1 hc' hs.entries fun e he q t eq hb =>
      hs.noLinkAbove q t (eq ▸ he) f hf hc hb).2 b hb
  refine Tr.Sat.bind (Tr.Sat.mono (k1.and k2) (fun t ht => .inr (ht.1.trans h1))
    (Q' := fun t => t.get (dotOld (joinPath dest [f.path])) = some (.file c) ∧
      ∀ c', Entry.file (joinPath dest [f.path]) c' ∈ es → t.get (joinPath dest [f.path]) = some (.file c'))
    fun t ht => ⟨ht.1.trans h1, ht.2⟩) fun t ⟨ht1, ht2⟩ => ?_
  have r1 := restore_safe (joinPath dest [f.path]) (.file c) st.2 t hap hps ht1
  have r2 : (restore t st.2).Sat (fun _ => True) (fun t' => ∀ c', Entry.file (joinPath dest [f.path]) c' ∈ es →
      t'.get (dotNew (joinPath dest [f.path])) = some (.file c')) := by
    refine ⟨fun _ _ => trivial, fun b hb c' hc' => ?_⟩
    exact (restore_new (joinPath dest [f.path]) (.file c') st.2 t hap hps (ht2 c' hc')).2 b hb
  refine Tr.Sat.bind (Tr.Sat.mono (r1.and r2) (fun t ht => ht.1) fun _ h => h) fun t' ht' => ?_
  exact leftover_sat t' _ _ ht'

/-- C31, full statement. -/
def ConfigPreserved : Prop :=
  ∀ (sha : Str → Str) (dest : Str) (old : Option (List FileInfo)) (new : List FileInfo) (es : List Entry) (fs fs' : FS),
    (extractInstall sha dest old new es fs).2 = .ok fs' →
    (∀ p c, UserModified sha dest old new fs p c → fs'.get p = some (.file c) ∧
      ∀ c', Entry.file p c' ∈ es → fs'.get (dotNew p) = some (.file c')) ∧
    (∀ p c', Pristine sha dest old new fs p → Entry.file p c' ∈ es → fs'.get p = some (.file c'))

/-- C32, full statement. -/
def ConfigCrashSafe : Prop :=
  ∀ (sha : Str → Str) (dest : Str) (old : Option (List FileInfo)) (new : List FileInfo) (es : List Entry) (fs : FS),
    ∀ p c, UserModified sha dest old new fs p c →
    ∀ s ∈ (extractInstall sha dest old new es fs).1, s.get p = some (.file c) ∨ s.get (dotOld p) = some (.file c)

/-- **C31** when backup names do not clash (`Separate`).  Missing for the full statement: packages whose files have such
names, for which it is false. -/
theorem config_preserved_partial (hs : Separate dest old new es) (fs fs' : FS)
    (h : (extractInstall sha dest old new es fs).2 = .ok fs') :
    (∀ p c, UserModified sha dest old new fs p c → fs'.get p = some (.file c) ∧
      ∀ c', Entry.file p c' ∈ es → fs'.get (dotNew p) = some (.file c')) ∧
    (∀ p c', Pristine sha dest old new fs p → Entry.file p c' ∈ es → fs'.get p = some (.file c')) := by
  refine ⟨fun p c hm => (modified_sat hs fs p c hm).2 fs' h, fun p c' hp he => ?_⟩
  obtain ⟨f, hf, hc, rfl, hpr⟩ := hp
  have inj : ∀ g ∈ new, joinPath dest [f.path] = joinPath dest [g.path] → g = f := fun g hg e =>
    List.inj_on_of_nodup_map hs.nodupNew hg hf e.symm
  have hun : ∀ x, (x, joinPath dest [f.path]) ∈ confList dest old new →
      fs.get (joinPath dest [f.path]) = none ∨ ∃ c, fs.get (joinPath dest [f.path]) = some (.file c) ∧ some (sha c) = x := by
    intro x hx
    rcases hpr with h0 | ⟨c, hg, hh⟩
    · exact .inl h0
    · refine .inr ⟨c, hg, ?_⟩
      obtain ⟨g, hg', _, e, hgx⟩ := (confList_mem hs x _).mp hx
      obtain rfl := inj g hg' e
      cases old with
      | none => exact hh.trans hgx.symm
      | some l =>
        obtain ⟨o, ho, e1, e2⟩ := hh
        obtain ⟨o', ho', e1', _, e2'⟩ := hgx
        obtain rfl : o = o' := List.inj_on_of_nodup_map (hs.nodupOld l rfl) ho ho' (e1.trans e1'.symm)
        exact e2.trans e2'.symm
  have key : (extractInstall sha dest old new es fs).Sat (fun _ => True)
      (fun t => t.get (joinPath dest [f.path]) = some (.file c')) := by
    rw [extractInstall_eq hs]
    refine Tr.Sat.bind (backupList_unchanged sha _ _ (fs, []) (confList_apart hs) hun (by simp)) fun st ⟨h1, l, hl, hsub⟩ => ?_
    have hl : st.2 = l := by simpa using hl
    refine Tr.Sat.bind (extractAll_file_at es _ c' st.1 he hs.entries fun e he q t eq hb =>
      hs.noLinkAbove q t (eq ▸ he) f hf hc hb) fun t ht => ?_
    refine Tr.Sat.bind (Tr.Sat.mono (restore_keeps st.2 (joinPath dest [f.path]) t fun q hq => ?_) (fun _ _ => trivial)
      fun t' ht' => ht'.trans ht) fun t' ht' => ?_
    · obtain ⟨g, hg, hgc, rfl⟩ := confList_conf hs (hsub.subset (hl ▸ hq))
      refine ⟨fun e => h1 (e ▸ hq), (hs.apart f hf hc g hg hgc).1, (hs.apart f hf hc g hg hgc).2⟩
    · exact leftover_sat t' _ _ ht'
  exact key.2 fs' h

/-- **C32** when backup names do not clash (`Separate`).  Missing for the full statement: packages whose files have such
names, for which it is false. -/
theorem config_crash_safe_partial (hs : Separate dest old new es) (fs : FS) (p c : Str)
    (hm : UserModified sha dest old new fs p c) :
    ∀ s ∈ (extractInstall sha dest old new es fs).1, s.get p = some (.file c) ∨ s.get (dotOld p) = some (.file c) :=
  (modified_sat hs fs p c hm).1

/-! ## The witness against the full statements: a package with configuration files `/a.old` and `/a` -/

/-- The witness uses the identity as hash function. -/
def clashNew : List FileInfo :=
  [⟨"/a.old".toList, true, some "1".toList, false⟩, ⟨"/a".toList, true, some "2".toList, false⟩]
def clashEntries : List Entry := [.file "/a.old".toList "1".toList, .file "/a".toList "2".toList]
def clashFS : FS := [("/".toList, .dir), ("/a".toList, .file "u".toList), ("/a.old".toList, .file "v".toList)]

theorem clash_modified : UserModified id "/".toList none clashNew clashFS "/a".toList "u".toList :=
  ⟨by decide, ⟨"/a".toList, true, some "2".toList, false⟩, List.mem_cons_of_mem _ List.mem_cons_self, rfl, by decide, by decide⟩

/-- C31 is false of the code: the content the user gave `/a.old` ends up in `/a`. -/
theorem config_preserved_refuted : ¬ ConfigPreserved := by
  intro h
  have h2 := ((h id "/".toList none clashNew clashEntries clashFS _ rfl).1 _ _ clash_modified).1
  revert h2; decide

/-- C32 is false of the code: extracting `/a.old` overwrites the backup of `/a`. -/
theorem config_crash_safe_refuted : ¬ ConfigCrashSafe := by
  intro h
  have h2 := h id "/".toList none clashNew clashEntries clashFS _ _ clash_modified
  revert h2; decide

/-! ## C62: files of the old version only -/

/-- C62, full statement: an upgrade that drops files succeeds if it would succeed with the dropped files kept in the package's
file list. -/
def DropsFiles : Prop :=
  ∀ (sha : Str → Str) (dest : Str) (l new extra : List FileInfo) (es : List Entry) (fs fs' : FS),
    (extractInstall sha dest (some l) (new ++ extra) es fs).2 = .ok fs' → (∀ f ∈ extra, f.conf = false) →
    ∃ fs'', (extractInstall sha dest (some l) new es fs).2 = .ok fs''

/-- An upgrade that drops a file never succeeds. -/
theorem upgrade_with_leftover_fails (sha : Str → Str) (dest : Str) (l new : List FileInfo) (es : List Entry) (fs : FS)
    (o : FileInfo) (ho : o ∈ l) (hn : ∀ f ∈ new, f.path ≠ o.path) :
    ∀ fs', (extractInstall sha dest (some l) new es fs).2 ≠ .ok fs' := by
  intro fs' h
  have key : (extractInstall sha dest (some l) new es fs).Sat (fun _ => True) (fun _ => False) := by
    unfold extractInstall
    refine Tr.Sat.bind (Q := fun _ => True) ⟨fun _ _ => trivial, fun _ _ => trivial⟩ fun st _ => ?_
    refine Tr.Sat.bind (Q := fun _ => True) ⟨fun _ _ => trivial, fun _ _ => trivial⟩ fun t _ => ?_
    refine Tr.Sat.bind (Q := fun _ => True) ⟨fun _ _ => trivial, fun _ _ => trivial⟩ fun t _ => ?_
    show Tr.Sat (if _ then _ else _) _ _
    rw [if_neg]
    · exact Tr.sat_fail
    · intro hall
      rw [List.all_eq_true] at hall
      have := hall o ho
      simp only [decide_eq_true_eq] at this
      obtain ⟨f, hf, e⟩ := List.mem_map.mp this
      exact hn f hf e
  exact key.2 fs' h

/-- C62 is false of the code: `remove_file` is called on the class without an instance. -/
theorem drops_files_refuted : ¬ DropsFiles := by
  intro h
  have e1 : (extractInstall id "/".toList (some [⟨"/x".toList, false, none, false⟩])
      ([] ++ [⟨"/x".toList, false, none, false⟩]) [] [("/".toList, .dir)]).2 = .ok [("/".toList, .dir)] := by
    have e : overlapPairs ([] ++ [⟨"/x".toList, false, none, false⟩]) [⟨"/x".toList, false, none, false⟩] =
        [(⟨"/x".toList, false, none, false⟩, ⟨"/x".toList, false, none, false⟩)] := by
      simp [overlapPairs, sortFiles]
    unfold extractInstall
    simp only [e]
    decide
  obtain ⟨fs'', h2⟩ := h _ _ _ _ _ _ _ _ e1 (by decide)
  exact upgrade_with_leftover_fails _ _ _ _ _ _ _ List.mem_cons_self (by decide) _ h2

/-- **C62** when no file is dropped: the upgrade does what the extraction phases do, and leaves nothing of the old version
behind that is not in the new one.  Missing for the full statement: upgrades that drop a file, for which it is false. -/
theorem drops_files_partial (sha : Str → Str) (dest : Str) (l new : List FileInfo) (es : List Entry) (fs : FS)
    (hs : Separate dest (some l) new es) (hn : ∀ o ∈ l, ∃ f ∈ new, f.path = o.path) :
    extractInstall sha dest (some l) new es fs =
      Tr.bind (backupList sha (confList dest (some l) new) (fs, [])) fun st =>
      Tr.bind (extractAll st.1 es) fun fs => restore fs st.2 := by
  rw [extractInstall_eq hs]
  have hall : l.all (fun f => f.path ∈ new.map FileInfo.path) = true := by
    rw [List.all_eq_true]
    intro o ho
    obtain ⟨f, hf, e⟩ := hn o ho
    simpa using ⟨f, hf, e⟩
  have bp : ∀ x : Tr FS, Tr.bind x (fun fs => (([], .ok fs) : Tr FS)) = x := by
    intro x
    obtain ⟨t, r⟩ := x
    cases r <;> simp [Tr.bind]
  congr 1; funext st; congr 1; funext fs
  simp only [hall, if_true]
  exact bp _

/-! ## A case meeting the hypotheses: an upgrade with a changed and an unchanged configuration file -/

def okNew : List FileInfo :=
  [⟨"/e/a".toList, true, some "2".toList, false⟩, ⟨"/e/b".toList, true, some "4".toList, false⟩]
def okOld : List FileInfo :=
  [⟨"/e/a".toList, true, some "1".toList, false⟩, ⟨"/e/b".toList, true, some "3".toList, false⟩]
def okEntries : List Entry := [.file "/e/a".toList "2".toList, .file "/e/b".toList "4".toList]
def okFS : FS := [("/".toList, .dir), ("/e".toList, .dir), ("/e/a".toList, .file "u".toList), ("/e/b".toList, .file "3".toList)]

example : Separate "/".toList (some okOld) okNew okEntries where
  nodupNew := by decide
  nodupOld := by intro l h; cases h; decide
  apart := by decide
  entries := by decide
  noBackup := by decide
  noLinkAbove := by
    intro q t h
    simp [okEntries] at h

example : UserModified id "/".toList (some okOld) okNew okFS "/e/a".toList "u".toList :=
  ⟨by decide, _, List.mem_cons_self, rfl, by decide, _, List.mem_cons_self, rfl, rfl, by decide⟩

example : Pristine id "/".toList (some okOld) okNew okFS "/e/b".toList :=
  ⟨_, List.mem_cons_of_mem _ List.mem_cons_self, rfl, by decide, .inr ⟨"3".toList, by decide,
    _, List.mem_cons_of_mem _ List.mem_cons_self, rfl, by decide⟩⟩

example : ∃ fs', (extractInstall id "/".toList (some okOld) okNew okEntries okFS).2 = .ok fs' := by
  have e : overlapPairs okNew okOld = okNew.zip okOld := by
    simp [overlapPairs, sortFiles, okNew, okOld, List.mergeSort, strLe, List.MergeSort.Internal.splitInTwo]
  unfold extractInstall
  simp only [e]
  exact ⟨_, rfl⟩

end Pisi.FS
