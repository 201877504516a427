import Verif.Spec.RemoveAgain
import Verif.Props.FileHistory

/-!
# C223: interrupted removals
-/
namespace Pisi.FS
open Pisi.Path

/-- **C223, full statement.**  After any interruptions the next removal gives what the first one would have given. -/
def StoppedFull : Prop := ∀ (sha : Str → Str) (dest : Str) (db : DB.FilesDB Str Nat Unit) (pkg : Nat) (l : List FileInfo) (s c : FS), WF s →
  (∀ f ∈ l, joinPath dest [f.path] ≠ ['/']) → Stopped sha dest db pkg l s c →
  ∃ t t0, removeFiles sha dest db pkg l c = .ok t ∧ removeFiles sha dest db pkg l s = .ok t0 ∧ Same t t0

section
variable {α ι : Type} [DecidableEq α] {sha : Str → Str} {dest : Str} {db : DB.FilesDB Str α ι} {pkg : α} {l : List FileInfo} {s c c' : FS}

/-! ## The steps lead to what the model of C33 says -/

theorem atomic_res (r : Except FErr FS) : (Tr.atomic r).2 = r := by
  unfold Tr.atomic
  cases r <;> rfl

theorem bind_res {β γ : Type} (x : Tr β) (f : β → Tr γ) : (x.bind f).2 = match x.2 with
    | .ok b => (f b).2
    | .error e => .error e := by
  unfold Tr.bind
  cases x.2 <;> rfl

theorem prune_res : ∀ (n : Nat) (fs : FS) (d : Str), (pruneTr n fs d).2 = prune n fs d
  | 0, _, _ => rfl
  | n + 1, fs, d => by
    unfold pruneTr prune
    split
    · rfl
    · cases listdirEmpty fs d with
      | error e => rfl
      | ok b =>
        cases b with
        | false => rfl
        | true =>
          simp only [bind_res, atomic_res]
          cases rmdir fs d with
          | error e => rfl
          | ok fs' => exact prune_res n fs' _

theorem removeFile_res (sha : Str → Str) (dest : Str) (db : DB.FilesDB Str α ι) (pkg : α) (f : FileInfo) (fs : FS) :
    (removeFileTr sha dest db pkg f fs).2 = removeFile sha dest db pkg f fs := by
  unfold removeFileTr removeFile
  simp only
  split
  · rfl
  split
  · rfl
  split
  · cases sha1File sha fs (joinPath dest [f.path]) with
    | none => rfl
    | some h =>
      simp only
      split
      · exact atomic_res _
      · rfl
  split
  · simp only [bind_res, atomic_res]
    cases unlink fs (joinPath dest [f.path]) with
    | error e => rfl
    | ok fs' => exact prune_res _ _ _
  split
  · cases listdirEmpty fs (joinPath dest [f.path]) with
    | error e => rfl
    | ok b =>
      cases b with
      | false => rfl
      | true =>
        simp only [bind_res, atomic_res]
        cases rmdir fs (joinPath dest [f.path]) with
        | error e => rfl
        | ok fs' => exact prune_res _ _ _
  · rfl

/-- The result of the steps is that of the whole. -/
theorem removeFiles_res (sha : Str → Str) (dest : Str) (db : DB.FilesDB Str α ι) (pkg : α) : ∀ (l : List FileInfo) (fs : FS),
    (removeFilesTr sha dest db pkg l fs).2 = removeFiles sha dest db pkg l fs
  | [], _ => rfl
  | f :: l, fs => by
    unfold removeFilesTr removeFiles
    rw [bind_res, removeFile_res]
    cases removeFile sha dest db pkg f fs with
    | error e => rfl
    | ok fs' => exact removeFiles_res sha dest db pkg l fs'

/-! ## What can be changed by a removal -/

/-- What is left of `s`. -/
structure Down (sha : Str → Str) (dest : Str) (db : DB.FilesDB Str α ι) (pkg : α) (l : List FileInfo) (s c : FS) : Prop where
  wf : WF c
  at_ : ∀ k, c.get k = s.get k ∨ (c.get k = none ∧
    ((s.get k = some .dir ∧ ∃ f ∈ l, UpFrom (joinPath dest [f.path]) k) ∨ ∃ n, n ≠ .dir ∧ s.get k = some n ∧ Goes sha dest db pkg l k n))

theorem Down.start (hw : WF s) : Down sha dest db pkg l s s := ⟨hw, fun _ => .inl rfl⟩

theorem Down.trans (h : Down sha dest db pkg l s c) (h' : Down sha dest db pkg l c c') : Down sha dest db pkg l s c' := by
  refine ⟨h'.wf, fun k => ?_⟩
  rcases h'.at_ k with e | ⟨e, r⟩
  · rcases h.at_ k with e' | e'
    · exact .inl (e.trans e')
    · rw [e]; exact .inr e'
  · refine .inr ⟨e, ?_⟩
    rcases h.at_ k with e' | ⟨e', r'⟩
    · rw [e'] at r; exact r
    · exact r'

theorem Down.del (hw : WF (c.del k)) (hk : (c.get k = some .dir ∧ ∃ f ∈ l, UpFrom (joinPath dest [f.path]) k) ∨
    ∃ n, n ≠ .dir ∧ c.get k = some n ∧ Goes sha dest db pkg l k n) : Down sha dest db pkg l c (c.del k) := by
  refine ⟨hw, fun k' => ?_⟩
  rw [Dict.get_del]
  by_cases e : k = k'
  · subst e
    rw [if_pos rfl]
    exact .inr ⟨rfl, hk⟩
  · rw [if_neg e]; exact .inl rfl

theorem UpFrom.next {p k : Str} (h : UpFrom p k) : UpFrom p (dirname k) := by
  induction h with
  | here p => exact .up (.here _)
  | up _ ih => exact .up ih

theorem rmdir_down (h : Down sha dest db pkg l s c) {d : Str} (hd : d ≠ ['/']) (hu : ∃ f ∈ l, UpFrom (joinPath dest [f.path]) d) :
    (Tr.atomic (rmdir c d)).Sat (Down sha dest db pkg l s) (Down sha dest db pkg l s) := by
  refine Tr.sat_atomic fun c1 e => ?_
  obtain ⟨rfl, hg, he⟩ := rmdir_ok e
  obtain ⟨b, hb, hch⟩ := listdir_dir hg
  rw [he] at hb
  cases hb
  have := h.trans (Down.del (h.wf.del d hd (hch rfl)) (.inl ⟨hg, hu⟩))
  exact ⟨this, this⟩

theorem prune_down : ∀ (n : Nat) (c : FS) (d : Str), Down sha dest db pkg l s c → (∃ f ∈ l, UpFrom (joinPath dest [f.path]) d) →
    (pruneTr n c d).Sat (Down sha dest db pkg l s) (Down sha dest db pkg l s)
  | 0, _, _, _, _ => Tr.sat_fail
  | n + 1, c, d, h, hu => by
    unfold pruneTr
    split
    · exact Tr.sat_pure h
    · rename_i hd
      cases listdirEmpty c d with
      | error e => exact Tr.sat_fail
      | ok b =>
        cases b with
        | false => exact Tr.sat_pure h
        | true =>
          refine Tr.Sat.bind (rmdir_down h hd hu) fun c1 h1 => prune_down n c1 _ h1 ?_
          obtain ⟨f, hf, hu⟩ := hu
          exact ⟨f, hf, hu.next⟩

/-- Configuration files are no links. -/
def Straight (dest : Str) (l : List FileInfo) (s : FS) : Prop := ∀ f ∈ l, f.conf = true → ∀ t, s.get (joinPath dest [f.path]) ≠ some (.link t)

theorem Down.straight (h : Down sha dest db pkg l s c) (hs : Straight dest l s) : Straight dest l c := by
  intro f hf hc t e
  rcases h.at_ (joinPath dest [f.path]) with e' | ⟨e', _⟩
  · exact hs f hf hc t (e' ▸ e)
  · rw [e'] at e; cases e

theorem removeFile_down (hs : Straight dest l s) (h : Down sha dest db pkg l s c) {f : FileInfo} (hf : f ∈ l) (hr : joinPath dest [f.path] ≠ ['/']) :
    (removeFileTr sha dest db pkg f c).Sat (Down sha dest db pkg l s) (fun t => Down sha dest db pkg l s t ∧
      ∀ n, n ≠ .dir → c.get (joinPath dest [f.path]) = some n → Goes sha dest db pkg [f] (joinPath dest [f.path]) n → t.get (joinPath dest [f.path]) = none) := by
  have unl : (∀ n, c.get (joinPath dest [f.path]) = some n → Goes sha dest db pkg l (joinPath dest [f.path]) n) →
      (Tr.atomic (unlink c (joinPath dest [f.path]))).Sat (Down sha dest db pkg l s)
        (fun t => Down sha dest db pkg l s t ∧ t.get (joinPath dest [f.path]) = none) := by
    intro hg
    refine Tr.sat_atomic fun c1 e => ?_
    obtain ⟨rfl, n, hn, hnd⟩ := unlink_ok e
    have := h.trans (Down.del (h.wf.del_nondir _ n hn hnd) (.inr ⟨n, hnd, hn, hg n hn⟩))
    exact ⟨this, this, by rw [Dict.get_del, if_pos rfl]⟩
  -- nothing of the kind is there
  have no : ∀ {t : FS}, (∀ n, n ≠ .dir → c.get (joinPath dest [f.path]) = some n → ¬ Goes sha dest db pkg [f] (joinPath dest [f.path]) n) →
      Down sha dest db pkg l s t → (Down sha dest db pkg l s t ∧
      ∀ n, n ≠ .dir → c.get (joinPath dest [f.path]) = some n → Goes sha dest db pkg [f] (joinPath dest [f.path]) n → t.get (joinPath dest [f.path]) = none) :=
    fun hn ht => ⟨ht, fun n h1 h2 h3 => absurd h3 (hn n h1 h2)⟩
  unfold removeFileTr
  simp only
  split
  · rename_i ho
    refine Tr.sat_pure (no (fun n _ _ => ?_) h)
    rintro ⟨g, hg, _, hg', _⟩
    rw [ho] at hg'; cases hg'
  rename_i ho
  split
  · rename_i hp
    refine Tr.sat_pure (no (fun n _ _ => ?_) h)
    rintro ⟨g, hg, _, _, hg', _⟩
    rw [List.mem_singleton.mp hg, hp] at hg'; cases hg'
  rename_i hp
  simp only [Bool.not_eq_true] at ho hp
  split
  · rename_i hc
    have hsl := h.straight hs f hf hc
    cases hx : sha1File sha c (joinPath dest [f.path]) with
    | none =>
      refine Tr.sat_pure (no (fun n _ hn => ?_) h)
      rintro ⟨g, hg, _, _, _, hgx⟩
      obtain ⟨x, rfl, _⟩ := hgx (by rw [List.mem_singleton.mp hg]; exact hc)
      rw [sha1File_file hn] at hx; cases hx
    | some z =>
      obtain ⟨x, hgx⟩ : ∃ x, c.get (joinPath dest [f.path]) = some (.file x) := by
        cases hg : c.get (joinPath dest [f.path]) with
        | none => simp [sha1File, stat_none hg] at hx
        | some n => cases n with
          | file x => exact ⟨x, rfl⟩
          | link t => exact absurd hg (hsl t)
          | dir => simp [sha1File, stat_dir hg] at hx
      rw [sha1File_file hgx] at hx
      cases hx
      simp only
      split
      · rename_i hh
        refine (unl fun n hn => ?_).mono (fun _ h => h) fun t ht => ⟨ht.1, fun _ _ _ _ => ht.2⟩
        rw [hgx] at hn
        cases hn
        exact ⟨f, hf, rfl, ho, hp, fun _ => ⟨x, rfl, hh.symm⟩⟩
      · rename_i hh
        refine Tr.sat_pure (no (fun n _ hn => ?_) h)
        rintro ⟨g, hg, _, _, _, hg'⟩
        rw [List.mem_singleton.mp hg] at hg'
        obtain ⟨y, rfl, hy⟩ := hg' hc
        rw [hgx] at hn
        cases hn
        exact hh hy.symm
  rename_i hc
  have hup : ∃ g ∈ l, UpFrom (joinPath dest [g.path]) (dirname (joinPath dest [f.path])) := ⟨f, hf, .up (.here _)⟩
  split
  · refine Tr.Sat.bind (unl fun n hn => ⟨f, hf, rfl, ho, hp, fun h => absurd h hc⟩) fun c1 h1 => ?_
    have res : (pruneTr ((joinPath dest [f.path]).length + 1) c1 (dirname (joinPath dest [f.path]))).Sat (fun _ => True)
        (fun t => t.get (joinPath dest [f.path]) = none) := by
      refine ⟨fun _ _ => trivial, fun t ht => ?_⟩
      rw [prune_res] at ht
      rcases prune_ok _ _ _ _ ht (joinPath dest [f.path]) with e | ⟨_, e⟩
      · rw [e, h1.2]
      · exact e
    exact ((prune_down _ c1 _ h1.1 hup).and res).mono (fun _ h => h.1) fun t ht => ⟨ht.1, fun _ _ _ _ => ht.2⟩
  rename_i hfl
  have hnone : ∀ n, n ≠ .dir → c.get (joinPath dest [f.path]) = some n → False := by
    intro n hn hg
    apply hfl
    cases n with
    | file x => simp [isFile, stat, statN, hg]
    | link t => simp [isLink, hg]
    | dir => exact absurd rfl hn
  have no' : ∀ {t : FS}, Down sha dest db pkg l s t → (Down sha dest db pkg l s t ∧
      ∀ n, n ≠ .dir → c.get (joinPath dest [f.path]) = some n → Goes sha dest db pkg [f] (joinPath dest [f.path]) n → t.get (joinPath dest [f.path]) = none) :=
    fun ht => ⟨ht, fun n h1 h2 => (hnone n h1 h2).elim⟩
  split
  · cases listdirEmpty c (joinPath dest [f.path]) with
    | error e => exact Tr.sat_fail
    | ok b =>
      cases b with
      | false => exact Tr.sat_pure (no' h)
      | true =>
        refine Tr.Sat.bind (rmdir_down h hr ⟨f, hf, .here _⟩) fun c1 h1 => ?_
        exact (prune_down _ c1 _ h1 hup).mono (fun _ h => h) fun t ht => no' ht
  · exact Tr.sat_pure (no' h)

/-- All files. -/
theorem removeFiles_down (hs : Straight dest l s) : ∀ (L : List FileInfo) (c : FS), (∀ f ∈ L, f ∈ l ∧ joinPath dest [f.path] ≠ ['/']) →
    Down sha dest db pkg l s c → (removeFilesTr sha dest db pkg L c).Sat (Down sha dest db pkg l s) (fun t => Down sha dest db pkg l s t ∧
      Down sha dest db pkg l c t ∧ ∀ k n, n ≠ .dir → c.get k = some n → Goes sha dest db pkg L k n → t.get k = none)
  | [], c, _, h => Tr.sat_pure ⟨h, Down.start h.wf, fun k n _ _ hg => by obtain ⟨f, hf, _⟩ := hg; simp at hf⟩
  | f :: L, c, hL, h => by
    unfold removeFilesTr
    have a1 := removeFile_down hs h (hL f (by simp)).1 (hL f (by simp)).2
    have a2 := removeFile_down (h.straight hs) (Down.start (sha := sha) (dest := dest) (db := db) (pkg := pkg) (l := l) h.wf) (hL f (by simp)).1 (hL f (by simp)).2
    refine Tr.Sat.bind ((a1.and a2).mono (fun _ h => h.1) fun _ h => h) fun c1 h1 => ?_
    refine (removeFiles_down hs L c1 (fun g hg => hL g (by simp [hg])) h1.1.1).mono (fun _ h => h) fun t ht => ?_
    refine ⟨ht.1, h1.2.1.trans ht.2.1, fun k n hn hg hgo => ?_⟩
    by_cases hk : c1.get k = none
    · rcases ht.2.1.at_ k with e | ⟨e, _⟩
      · rw [e, hk]
      · exact e
    · have same : c1.get k = some n := by
        rcases h1.2.1.at_ k with e | ⟨e, _⟩
        · rw [e, hg]
        · exact absurd e hk
      obtain ⟨g, hg', e, rest⟩ := hgo
      rcases List.mem_cons.mp hg' with rfl | hg'
      · exfalso
        apply hk
        rw [← e] at hg ⊢
        exact h1.1.2 n hn hg ⟨g, by simp, rfl, by rw [e]; exact rest.1, rest.2⟩
      · exact ht.2.2 k n hn same ⟨g, hg', e, rest⟩

theorem stopped_down (hw : WF s) (hr : ∀ f ∈ l, joinPath dest [f.path] ≠ ['/']) (hs : Straight dest l s) (h : Stopped sha dest db pkg l s c) :
    Down sha dest db pkg l s c := by
  induction h with
  | start => exact Down.start hw
  | again _ hc ih => exact (removeFiles_down hs l _ (fun f hf => ⟨hf, hr f hf⟩) ih).1 _ hc

/-- What a removal over the remains gives. -/
theorem Down.remove (hr : ∀ f ∈ l, joinPath dest [f.path] ≠ ['/']) (hs : Straight dest l s) (h : Down sha dest db pkg l s c) :
    ∃ t, removeFiles sha dest db pkg l c = .ok t ∧ Down sha dest db pkg l s t ∧
      ∀ k n, n ≠ .dir → s.get k = some n → Goes sha dest db pkg l k n → t.get k = none := by
  obtain ⟨t, ht, _⟩ := remove_total sha dest db pkg l c h.wf hr
  obtain ⟨h1, h2, h3⟩ := (removeFiles_down hs l c (fun f hf => ⟨hf, hr f hf⟩) h).2 t (by rw [removeFiles_res]; exact ht)
  refine ⟨t, ht, h1, fun k n hn hg hgo => ?_⟩
  rcases h.at_ k with e | ⟨e, _⟩
  · exact h3 k n hn (e.trans hg) hgo
  · rcases h2.at_ k with e' | ⟨e', _⟩
    · rw [e', e]
    · exact e'

/-- **C223.**  However often and wherever a removal was interrupted, the next one succeeds.  All files and links are then as after an
uninterrupted removal; so are all directories that are not above a place of the package, and all in which, at any depth, a file or link
is left.  Missing for the full statement: empty directories. -/
theorem stopped_partial (hw : WF s) (hr : ∀ f ∈ l, joinPath dest [f.path] ≠ ['/']) (hs : Straight dest l s) (h : Stopped sha dest db pkg l s c) :
    ∃ t t0, removeFiles sha dest db pkg l c = .ok t ∧ removeFiles sha dest db pkg l s = .ok t0 ∧
      (∀ k, s.get k ≠ some .dir → t.get k = t0.get k) ∧
      (∀ k, t.get k ≠ t0.get k → ∃ f ∈ l, UpFrom (joinPath dest [f.path]) k) ∧
      ∀ q r n, r ≠ [] → (∀ x ∈ q ++ r, CompName x) → n ≠ .dir → t.get (pathOf (q ++ r)) = some n → t.get (pathOf q) = t0.get (pathOf q) := by
  obtain ⟨t, ht, d, g⟩ := (stopped_down hw hr hs h).remove hr hs
  obtain ⟨t0, ht0, d0, g0⟩ := (Down.start (sha := sha) (dest := dest) (db := db) (pkg := pkg) (l := l) hw).remove hr hs
  have files : ∀ k, s.get k ≠ some .dir → t.get k = t0.get k := by
    intro k hk
    have one : ∀ {u v : FS}, Down sha dest db pkg l s u → (∀ k n, n ≠ .dir → s.get k = some n → Goes sha dest db pkg l k n → v.get k = none) →
        u.get k ≠ s.get k → u.get k = v.get k := by
      intro u v hd hg e
      rcases hd.at_ k with e' | ⟨e', ⟨r, _⟩ | ⟨n, hn, hsn, hgo⟩⟩
      · exact absurd e' e
      · exact absurd r hk
      · rw [e', hg k n hn hsn hgo]
    by_cases e : t.get k = s.get k
    · by_cases e0 : t0.get k = s.get k
      · rw [e, e0]
      · exact (one d0 g e0).symm
    · exact one d g0 e
  refine ⟨t, t0, ht, ht0, files, fun k hne => ?_, fun q r n hrn hnames hn hg => ?_⟩
  · have hd : s.get k = some .dir := Classical.byContradiction fun h => hne (files k h)
    rcases d.at_ k with e | ⟨_, ⟨_, hu⟩ | ⟨n, hn, hsn, _⟩⟩
    · rcases d0.at_ k with e0 | ⟨_, ⟨_, hu⟩ | ⟨n, hn, hsn, _⟩⟩
      · exact absurd (e.trans e0.symm) hne
      · exact hu
      · rw [hd] at hsn; cases hsn; exact absurd rfl hn
    · exact hu
    · rw [hd] at hsn; cases hsn; exact absurd rfl hn
  · have hs' : s.get (pathOf (q ++ r)) = some n := by
      rcases d.at_ (pathOf (q ++ r)) with e | ⟨e, _⟩
      · rw [← e, hg]
      · rw [e] at hg; cases hg
    have h0 : t0.get (pathOf (q ++ r)) = some n := by
      rw [← files _ (by rw [hs']; exact fun h => hn (Option.some.inj h)), hg]
    rw [d.wf.dir_above r q hrn hnames (by rw [hg]; simp), d0.wf.dir_above r q hrn hnames (by rw [h0]; simp)]

/-- **C223.**  Exactly which files and links are there afterwards. -/
theorem stopped_files (hw : WF s) (hr : ∀ f ∈ l, joinPath dest [f.path] ≠ ['/']) (hs : Straight dest l s) (h : Stopped sha dest db pkg l s c) :
    ∃ t, removeFiles sha dest db pkg l c = .ok t ∧ WF t ∧
      ∀ k n, n ≠ .dir → (t.get k = some n ↔ s.get k = some n ∧ ¬ Goes sha dest db pkg l k n) := by
  obtain ⟨t, ht, d, g⟩ := (stopped_down hw hr hs h).remove hr hs
  refine ⟨t, ht, d.wf, fun k n hn => ⟨fun e => ?_, fun ⟨e, hgo⟩ => ?_⟩⟩
  · have : s.get k = some n := by
      rcases d.at_ k with e' | ⟨e', _⟩
      · rw [← e', e]
      · rw [e'] at e; cases e
    exact ⟨this, fun hgo => by rw [g k n hn this hgo] at e; cases e⟩
  · rcases d.at_ k with e' | ⟨_, ⟨e', _⟩ | ⟨m, _, hm, hgo'⟩⟩
    · rw [e', e]
    · rw [e] at e'; cases e'; exact absurd rfl hn
    · rw [e] at hm; cases hm; exact absurd hgo' hgo

end

/-- A file in a directory of its own. -/
def stL : List FileInfo := [⟨"b/v".toList, false, some ['2'], false⟩]
def stFS : FS := [(['/'], .dir), ("/b".toList, .dir), ("/b/v".toList, .file ['2'])]
def stMid : FS := [(['/'], .dir), ("/b".toList, .dir)]

theorem st_stopped : Stopped id ['/'] ([] : DB.FilesDB Str Nat Unit) 1 stL stFS stMid := .again .start (by decide +kernel)

/-- The hypotheses can be met. -/
example : ∃ t t0, removeFiles id ['/'] ([] : DB.FilesDB Str Nat Unit) 1 stL stMid = .ok t ∧ removeFiles id ['/'] ([] : DB.FilesDB Str Nat Unit) 1 stL stFS = .ok t0 ∧
    (∀ k, stFS.get k ≠ some .dir → t.get k = t0.get k) ∧ (∀ k, t.get k ≠ t0.get k → ∃ f ∈ stL, UpFrom (joinPath ['/'] [f.path]) k) ∧
    ∀ q r n, r ≠ [] → (∀ x ∈ q ++ r, CompName x) → n ≠ .dir → t.get (pathOf (q ++ r)) = some n → t.get (pathOf q) = t0.get (pathOf q) :=
  stopped_partial (wf_check (by decide) (by decide)) (by decide) (by intro f hf hc; rw [List.mem_singleton.mp hf] at hc; cases hc) st_stopped

/-- **C223 is false of the code**: the directory stays. -/
theorem stopped_refuted : ¬ StoppedFull := by
  intro h
  obtain ⟨t, t0, ht, ht0, hs⟩ := h id ['/'] [] 1 stL stFS stMid (wf_check (by decide) (by decide)) (by decide) st_stopped
  have e1 : removeFiles id ['/'] ([] : DB.FilesDB Str Nat Unit) 1 stL stMid = .ok stMid := by decide +kernel
  have e2 : removeFiles id ['/'] ([] : DB.FilesDB Str Nat Unit) 1 stL stFS = .ok [(['/'], .dir)] := by decide +kernel
  rw [e1] at ht
  rw [e2] at ht0
  cases ht
  cases ht0
  have := hs "/b".toList
  revert this
  decide

end Pisi.FS
