import Mathlib.Data.List.Nodup
import Verif.Lemmas.FS

/-!
# C33, C34: what removing a package deletes
-/
namespace Pisi.FS
open Pisi.Path

variable {α ι : Type} [DecidableEq α]

/-- The file is recorded for another package under the full path. -/
def Foreign (db : DB.FilesDB Str α ι) (pkg : α) (p : Str) : Prop := ∃ o i, db.get p = some (o, i) ∧ o ≠ pkg

theorem rmdir_ok {fs fs' : FS} {p : Str} (h : rmdir fs p = .ok fs') :
    fs' = fs.del p ∧ fs.get p = some .dir ∧ listdirEmpty fs p = .ok true := by
  unfold rmdir at h
  cases hg : fs.get p with
  | none => rw [hg] at h; cases h
  | some n =>
    rw [hg] at h
    cases n with
    | file _ => cases h
    | link _ => cases h
    | dir =>
      simp only at h
      cases hl : listdirEmpty fs p with
      | error e => rw [hl] at h; cases h
      | ok b =>
        rw [hl] at h
        cases b with
        | false => cases h
        | true => simp only [Except.ok.injEq] at h; exact ⟨h.symm, rfl, rfl⟩

/-- Only directories disappear. -/
theorem prune_ok : ∀ (n : Nat) (fs fs' : FS) (d : Str), prune n fs d = .ok fs' →
    ∀ k, fs'.get k = fs.get k ∨ (fs.get k = some .dir ∧ fs'.get k = none)
  | 0, fs, fs', d, h => by cases h
  | n + 1, fs, fs', d, h => by
    intro k
    unfold prune at h
    by_cases hd : d = ['/']
    · rw [if_pos hd] at h; cases h; exact .inl rfl
    · rw [if_neg hd] at h
      cases hl : listdirEmpty fs d with
      | error e => rw [hl] at h; cases h
      | ok b =>
        rw [hl] at h
        cases b with
        | false => cases h; exact .inl rfl
        | true =>
          simp only at h
          cases hr : rmdir fs d with
          | error e => rw [hr] at h; cases h
          | ok fs1 =>
            rw [hr] at h
            obtain ⟨rfl, hg, _⟩ := rmdir_ok hr
            have := prune_ok n _ fs' _ h k
            rw [Dict.get_del] at this
            by_cases e : d = k
            · subst e
              simp only [if_true] at this
              rcases this with h1 | ⟨h1, _⟩
              · exact .inr ⟨hg, h1⟩
              · cases h1
            · simpa only [if_neg e] using this

theorem isFile_or_link {fs : FS} {p : Str} (h : (isFile fs p || isLink fs p) = true) : ∃ n, fs.get p = some n ∧ n ≠ .dir := by
  cases hg : fs.get p with
  | none => simp [isFile, isLink, stat, statN, hg] at h
  | some n => cases n with
    | dir => simp [isFile, isLink, stat, statN, hg] at h
    | file c => exact ⟨_, rfl, by simp⟩
    | link c => exact ⟨_, rfl, by simp⟩

/-- The foreign-file guard. -/
theorem removeFile_foreign (sha : Str → Str) (dest : Str) (db : DB.FilesDB Str α ι) (pkg : α) (f : FileInfo) (fs : FS)
    (h : Foreign db pkg (joinPath dest [f.path])) : removeFile sha dest db pkg f fs = .ok fs := by
  obtain ⟨o, i, hg, hne⟩ := h
  simp [removeFile, otherOwner, hg, hne]

/-- `removeFile` without the guard. -/
theorem removeFile_own (sha : Str → Str) (dest : Str) (db : DB.FilesDB Str α ι) (pkg : α) (f : FileInfo) (fs : FS)
    (h : ¬ Foreign db pkg (joinPath dest [f.path])) : removeFile sha dest db pkg f fs =
      removeFile sha dest ([] : DB.FilesDB Str α ι) pkg f fs := by
  have e : otherOwner db pkg (joinPath dest [f.path]) = false := by
    unfold otherOwner
    cases hg : db.get (joinPath dest [f.path]) with
    | none => rfl
    | some x =>
      obtain ⟨o, i⟩ := x
      by_cases ho : o = pkg
      · simp [ho]
      · exact absurd ⟨o, i, hg, ho⟩ h
  have e' : otherOwner ([] : DB.FilesDB Str α ι) pkg (joinPath dest [f.path]) = false := rfl
  unfold removeFile
  simp only [e, e']

/-- Everything that changes is the file itself or an emptied directory. -/
theorem removeFile_frame (sha : Str → Str) (dest : Str) (db : DB.FilesDB Str α ι) (pkg : α) (f : FileInfo) (fs fs' : FS)
    (h : removeFile sha dest db pkg f fs = .ok fs') (k : Str) :
    fs'.get k = fs.get k ∨ (fs'.get k = none ∧ (k = joinPath dest [f.path] ∨ fs.get k = some .dir)) := by
  have del : ∀ s : FS, (s.del (joinPath dest [f.path])).get k = s.get k ∨
      ((s.del (joinPath dest [f.path])).get k = none ∧ k = joinPath dest [f.path]) := by
    intro s
    rw [Dict.get_del]
    by_cases e : joinPath dest [f.path] = k
    · rw [if_pos e]; exact .inr ⟨rfl, e.symm⟩
    · rw [if_neg e]; exact .inl rfl
  have fin : ∀ n d, prune n (fs.del (joinPath dest [f.path])) d = .ok fs' →
      fs'.get k = fs.get k ∨ (fs'.get k = none ∧ (k = joinPath dest [f.path] ∨ fs.get k = some .dir)) := by
    intro n d hp
    rcases prune_ok _ _ _ _ hp k with e | ⟨e1, e2⟩ <;> rcases del fs with g | ⟨g1, g2⟩
    · exact .inl (e.trans g)
    · exact .inr ⟨e.trans g1, .inl g2⟩
    · exact .inr ⟨e2, .inr (g ▸ e1)⟩
    · rw [g1] at e1; cases e1
  by_cases hf : Foreign db pkg (joinPath dest [f.path])
  · rw [removeFile_foreign _ _ _ _ _ _ hf] at h; cases h; exact .inl rfl
  rw [removeFile_own _ _ _ _ _ _ hf] at h
  unfold removeFile at h
  simp only [otherOwner, Dict.get_nil, Bool.false_eq_true, if_false] at h
  by_cases h1 : f.permanent = true
  · rw [if_pos h1] at h; cases h; exact .inl rfl
  rw [if_neg h1] at h
  by_cases h2 : f.conf = true
  · rw [if_pos h2] at h
    cases hs : sha1File sha fs (joinPath dest [f.path]) with
    | none => rw [hs] at h; cases h; exact .inl rfl
    | some x =>
      rw [hs] at h
      simp only at h
      by_cases hx : some x = f.hash
      · rw [if_pos hx] at h
        obtain ⟨rfl, _⟩ := unlink_ok h
        rcases del fs with g | ⟨g1, g2⟩
        · exact .inl g
        · exact .inr ⟨g1, .inl g2⟩
      · rw [if_neg hx] at h; cases h; exact .inl rfl
  rw [if_neg h2] at h
  by_cases h3 : (isFile fs (joinPath dest [f.path]) || isLink fs (joinPath dest [f.path])) = true
  · rw [if_pos h3] at h
    cases hu : unlink fs (joinPath dest [f.path]) with
    | error e => rw [hu] at h; cases h
    | ok fs1 =>
      rw [hu] at h
      obtain ⟨rfl, _⟩ := unlink_ok hu
      exact fin _ _ h
  rw [if_neg h3] at h
  by_cases h4 : isDir fs (joinPath dest [f.path]) = true
  · rw [if_pos h4] at h
    cases hl : listdirEmpty fs (joinPath dest [f.path]) with
    | error e => rw [hl] at h; cases h
    | ok b =>
      rw [hl] at h
      cases b with
      | false => cases h; exact .inl rfl
      | true =>
        simp only at h
        cases hu : rmdir fs (joinPath dest [f.path]) with
        | error e => rw [hu] at h; cases h
        | ok fs1 =>
          rw [hu] at h
          obtain ⟨rfl, _⟩ := rmdir_ok hu
          exact fin _ _ h
  · rw [if_neg h4] at h; cases h; exact .inl rfl

/-- What happens to one file. -/
inductive Fate where
  | kept
  | deleted
  deriving DecidableEq

/-- What the user expects for a file or link with node `n` recorded by `f`: permanent files stay; configuration files stay unless
their content has the recorded hash; everything else goes. -/
def fate (sha : Str → Str) (f : FileInfo) : Node → Fate
  | .file c => if f.permanent then .kept else if f.conf then (if some (sha c) = f.hash then .deleted else .kept) else .deleted
  | _ => if f.permanent then .kept else .deleted

theorem removeFile_fate (sha : Str → Str) (dest : Str) (db : DB.FilesDB Str α ι) (pkg : α) (f : FileInfo) (fs fs' : FS)
    (c : Str) (hf : ¬ Foreign db pkg (joinPath dest [f.path])) (hg : fs.get (joinPath dest [f.path]) = some (.file c))
    (h : removeFile sha dest db pkg f fs = .ok fs') :
    fs'.get (joinPath dest [f.path]) = match fate sha f (.file c) with
      | .kept => some (.file c)
      | .deleted => none := by
  rw [removeFile_own _ _ _ _ _ _ hf] at h
  unfold removeFile at h
  simp only [otherOwner, Dict.get_nil, Bool.false_eq_true, if_false] at h
  unfold fate
  by_cases h1 : f.permanent = true
  · rw [if_pos h1] at h; cases h; simp [h1, hg]
  rw [if_neg h1] at h
  by_cases h2 : f.conf = true
  · rw [if_pos h2, sha1File_file hg] at h
    simp only at h
    by_cases hx : some (sha c) = f.hash
    · rw [if_pos hx] at h
      obtain ⟨rfl, _⟩ := unlink_ok h
      simp [h1, h2, hx, Dict.get_del]
    · rw [if_neg hx] at h; cases h; simp [h1, h2, hx, hg]
  rw [if_neg h2] at h
  rw [if_pos (by simp [isFile, stat, statN, hg])] at h
  cases hu : unlink fs (joinPath dest [f.path]) with
  | error e => rw [hu] at h; cases h
  | ok fs1 =>
    rw [hu] at h
    obtain ⟨rfl, _⟩ := unlink_ok hu
    simp only [h1, h2]
    rcases prune_ok _ _ _ _ h (joinPath dest [f.path]) with e | ⟨e, _⟩
    · simpa [Dict.get_del] using e
    · simp [Dict.get_del] at e

theorem removeFile_link (sha : Str → Str) (dest : Str) (db : DB.FilesDB Str α ι) (pkg : α) (f : FileInfo) (fs fs' : FS)
    (t : Str) (hf : ¬ Foreign db pkg (joinPath dest [f.path])) (hg : fs.get (joinPath dest [f.path]) = some (.link t))
    (hp : f.permanent = false) (hc : f.conf = false)
    (h : removeFile sha dest db pkg f fs = .ok fs') : fs'.get (joinPath dest [f.path]) = none := by
  rw [removeFile_own _ _ _ _ _ _ hf] at h
  unfold removeFile at h
  simp only [otherOwner, Dict.get_nil, hp, hc, Bool.false_eq_true, if_false] at h
  rw [if_pos (by simp [isLink, hg])] at h
  cases hu : unlink fs (joinPath dest [f.path]) with
  | error e => rw [hu] at h; cases h
  | ok fs1 =>
    rw [hu] at h
    obtain ⟨rfl, _⟩ := unlink_ok hu
    rcases prune_ok _ _ _ _ h (joinPath dest [f.path]) with e | ⟨e, _⟩
    · simpa [Dict.get_del] using e
    · simp [Dict.get_del] at e

theorem removeFiles_frame (sha : Str → Str) (dest : Str) (db : DB.FilesDB Str α ι) (pkg : α) (l : List FileInfo) :
    ∀ (fs fs' : FS), removeFiles sha dest db pkg l fs = .ok fs' → ∀ k,
    fs'.get k = fs.get k ∨ (fs'.get k = none ∧ ((∃ f ∈ l, k = joinPath dest [f.path]) ∨ fs.get k = some .dir)) := by
  induction l with
  | nil => intro fs fs' h k; cases h; exact .inl rfl
  | cons f l ih =>
    intro fs fs' h k
    unfold removeFiles at h
    cases h1 : removeFile sha dest db pkg f fs with
    | error e => rw [h1] at h; cases h
    | ok fs1 =>
      rw [h1] at h
      rcases removeFile_frame sha dest db pkg f fs fs1 h1 k with e | ⟨e, e'⟩ <;> rcases ih fs1 fs' h k with g | ⟨g, g'⟩
      · exact .inl (g.trans e)
      · refine .inr ⟨g, ?_⟩
        rcases g' with ⟨f', hf', hk⟩ | hd
        · exact .inl ⟨f', by simp [hf'], hk⟩
        · exact .inr (e ▸ hd)
      · refine .inr ⟨g.trans e, ?_⟩
        rcases e' with hk | hd
        · exact .inl ⟨f, by simp, hk⟩
        · exact .inr hd
      · refine .inr ⟨g, ?_⟩
        rcases e' with hk | hd
        · exact .inl ⟨f, by simp, hk⟩
        · exact .inr hd

/-- **C33.** After the files of a package have been removed: every regular file it owns is there exactly if it is marked
permanent, or a configuration file whose content does not have the recorded hash. -/
theorem remove_decision (sha : Str → Str) (dest : Str) (db : DB.FilesDB Str α ι) (pkg : α) (l : List FileInfo) :
    ∀ (fs fs' : FS), (l.map (fun f => joinPath dest [f.path])).Nodup → removeFiles sha dest db pkg l fs = .ok fs' →
    ∀ f ∈ l, ¬ Foreign db pkg (joinPath dest [f.path]) → ∀ c, fs.get (joinPath dest [f.path]) = some (.file c) →
    (f.permanent = true → fs'.get (joinPath dest [f.path]) = some (.file c)) ∧
    (f.permanent = false → f.conf = true → some (sha c) ≠ f.hash → fs'.get (joinPath dest [f.path]) = some (.file c)) ∧
    (f.permanent = false → f.conf = true → some (sha c) = f.hash → fs'.get (joinPath dest [f.path]) = none) ∧
    (f.permanent = false → f.conf = false → fs'.get (joinPath dest [f.path]) = none) := by
  induction l with
  | nil => intro fs fs' _ _ f hf; simp at hf
  | cons g l ih =>
    intro fs fs' hnd h f hf hown c hc
    rw [List.map_cons, List.nodup_cons] at hnd
    unfold removeFiles at h
    cases h1 : removeFile sha dest db pkg g fs with
    | error e => rw [h1] at h; cases h
    | ok fs1 =>
      rw [h1] at h
      rcases List.mem_cons.mp hf with rfl | hf
      · have e := removeFile_fate sha dest db pkg f fs fs1 c hown hc h1
        have hout : ¬ ∃ f' ∈ l, joinPath dest [f.path] = joinPath dest [f'.path] := by
          rintro ⟨f', hf', e⟩
          exact hnd.1 (List.mem_map.mpr ⟨f', hf', e.symm⟩)
        have fr := removeFiles_frame sha dest db pkg l fs1 fs' h (joinPath dest [f.path])
        have keep : fs1.get (joinPath dest [f.path]) ≠ some .dir → fs'.get (joinPath dest [f.path]) =
            fs1.get (joinPath dest [f.path]) := by
          intro hne
          rcases fr with g | ⟨_, g | g⟩
          · exact g
          · exact absurd g hout
          · exact absurd g hne
        unfold fate at e
        refine ⟨fun hp => ?_, fun hp hcf hx => ?_, fun hp hcf hx => ?_, fun hp hcf => ?_⟩
        · simp only [hp, if_true] at e
          rw [keep (by rw [e]; simp), e]
        · simp only [hp, hcf, hx, if_true, if_false, Bool.false_eq_true] at e
          rw [keep (by rw [e]; simp), e]
        · simp only [hp, hcf, hx, if_true, if_false, Bool.false_eq_true] at e
          rw [keep (by rw [e]; simp), e]
        · simp only [hp, hcf, if_false, Bool.false_eq_true] at e
          rw [keep (by rw [e]; simp), e]
      · have hne : joinPath dest [f.path] ≠ joinPath dest [g.path] := fun e =>
          hnd.1 (List.mem_map.mpr ⟨f, hf, e⟩)
        have : fs1.get (joinPath dest [f.path]) = some (.file c) := by
          rcases removeFile_frame sha dest db pkg g fs fs1 h1 (joinPath dest [f.path]) with e | ⟨_, e | e⟩
          · exact e.trans hc
          · exact absurd e hne
          · rw [hc] at e; cases e
        exact ih fs1 fs' hnd.2 h f hf hown c this

/-- **C33.** Links of the package that are neither permanent nor configuration files are deleted. -/
theorem remove_links (sha : Str → Str) (dest : Str) (db : DB.FilesDB Str α ι) (pkg : α) (l : List FileInfo) :
    ∀ (fs fs' : FS), (l.map (fun f => joinPath dest [f.path])).Nodup → removeFiles sha dest db pkg l fs = .ok fs' →
    ∀ f ∈ l, ¬ Foreign db pkg (joinPath dest [f.path]) → ∀ t, fs.get (joinPath dest [f.path]) = some (.link t) →
    f.permanent = false → f.conf = false → fs'.get (joinPath dest [f.path]) = none := by
  induction l with
  | nil => intro fs fs' _ _ f hf; simp at hf
  | cons g l ih =>
    intro fs fs' hnd h f hf hown t ht hp hc
    rw [List.map_cons, List.nodup_cons] at hnd
    unfold removeFiles at h
    cases h1 : removeFile sha dest db pkg g fs with
    | error e => rw [h1] at h; cases h
    | ok fs1 =>
      rw [h1] at h
      rcases List.mem_cons.mp hf with rfl | hf
      · have e := removeFile_link sha dest db pkg f fs fs1 t hown ht hp hc h1
        rcases removeFiles_frame sha dest db pkg l fs1 fs' h (joinPath dest [f.path]) with g | ⟨g, _⟩
        · exact g.trans e
        · exact g
      · have hne : joinPath dest [f.path] ≠ joinPath dest [g.path] := fun e =>
          hnd.1 (List.mem_map.mpr ⟨f, hf, e⟩)
        have : fs1.get (joinPath dest [f.path]) = some (.link t) := by
          rcases removeFile_frame sha dest db pkg g fs fs1 h1 (joinPath dest [f.path]) with e | ⟨_, e | e⟩
          · exact e.trans ht
          · exact absurd e hne
          · rw [ht] at e; cases e
        exact ih fs1 fs' hnd.2 h f hf hown t this hp hc

/-- **C33.** Nothing that is not recorded for the package is deleted, except emptied directories. -/
theorem remove_only_listed (sha : Str → Str) (dest : Str) (db : DB.FilesDB Str α ι) (pkg : α) (l : List FileInfo)
    (fs fs' : FS) (h : removeFiles sha dest db pkg l fs = .ok fs') (k : Str) (hk : ∀ f ∈ l, k ≠ joinPath dest [f.path]) :
    fs'.get k = fs.get k ∨ (fs.get k = some .dir ∧ fs'.get k = none) := by
  rcases removeFiles_frame sha dest db pkg l fs fs' h k with e | ⟨e, ⟨f, hf, e'⟩ | e'⟩
  · exact .inl e
  · exact absurd e' (hk f hf)
  · exact .inr ⟨e', e⟩

/-! ## Removal does not fail on a well-formed file system -/

/-- Every entry is in a directory, `/` is one, and the parent of a path is shorter. -/
structure WF (fs : FS) : Prop where
  root : fs.get ['/'] = some .dir
  parent : ∀ k n, fs.get k = some n → k = ['/'] ∨ (fs.get (dirname k) = some .dir ∧ (dirname k).length < k.length)

theorem listdir_dir {fs : FS} {d : Str} (h : fs.get d = some .dir) :
    ∃ b, listdirEmpty fs d = .ok b ∧ (b = true → ∀ k n, fs.get k = some n → k ≠ d → dirname k ≠ d) := by
  refine ⟨fs.keys.all (fun k => k = d || dirname k ≠ d), ?_, ?_⟩
  · unfold listdirEmpty
    rw [if_pos (by simp [isDir, stat, statN, h])]
  · intro hb k n hk hne
    rw [List.all_eq_true] at hb
    have := hb k ((Dict.mem_keys fs k).mpr (by simp [hk]))
    simpa [hne] using this

theorem WF.del {fs : FS} (h : WF fs) (p : Str) (hr : p ≠ ['/'])
    (hc : ∀ k n, fs.get k = some n → k ≠ p → dirname k ≠ p) : WF (fs.del p) := by
  refine ⟨?_, fun k n hk => ?_⟩
  · rw [Dict.get_del, if_neg hr]; exact h.root
  · rw [Dict.get_del] at hk
    by_cases e : p = k
    · rw [if_pos e] at hk; cases hk
    · rw [if_neg e] at hk
      rcases h.parent k n hk with h1 | ⟨h1, h2⟩
      · exact .inl h1
      · refine .inr ⟨?_, h2⟩
        rw [Dict.get_del, if_neg (fun e' => hc k n hk (fun e'' => e e''.symm) e'.symm)]
        exact h1

theorem WF.del_nondir {fs : FS} (h : WF fs) (p : Str) (n : Node) (hg : fs.get p = some n) (hn : n ≠ .dir) : WF (fs.del p) := by
  refine h.del p ?_ ?_
  · rintro rfl; rw [h.root] at hg; cases hg; exact hn rfl
  · intro k m hk _ e
    rcases h.parent k m hk with rfl | ⟨h1, _⟩
    · have : dirname ['/'] = ['/'] := by decide
      rw [this] at e; subst e; rw [h.root] at hg; cases hg; exact hn rfl
    · rw [e, hg] at h1; cases h1; exact hn rfl

theorem prune_total : ∀ (n : Nat) (fs : FS) (d : Str), WF fs → fs.get d = some .dir → d.length < n →
    ∃ fs', prune n fs d = .ok fs' ∧ WF fs'
  | 0, _, _, _, _, h => by omega
  | n + 1, fs, d, hw, hd, hlt => by
    unfold prune
    by_cases e : d = ['/']
    · exact ⟨fs, by rw [if_pos e], hw⟩
    · rw [if_neg e]
      obtain ⟨b, hb, hch⟩ := listdir_dir hd
      rw [hb]
      cases b with
      | false => exact ⟨fs, rfl, hw⟩
      | true =>
        have hr : rmdir fs d = .ok (fs.del d) := by unfold rmdir; rw [hd]; simp only [hb]
        simp only [hr]
        have hw' := hw.del d e (hch rfl)
        rcases hw.parent d _ hd with h1 | ⟨h1, h2⟩
        · exact absurd h1 e
        · refine prune_total n (fs.del d) (dirname d) hw' ?_ (by omega)
          rw [Dict.get_del, if_neg]
          · exact h1
          · intro e'; rw [← e'] at h2; omega

/-- Removal of a file never fails. -/
theorem removeFile_total (sha : Str → Str) (dest : Str) (db : DB.FilesDB Str α ι) (pkg : α) (f : FileInfo) (fs : FS)
    (hw : WF fs) (hr : joinPath dest [f.path] ≠ ['/']) : ∃ fs', removeFile sha dest db pkg f fs = .ok fs' ∧ WF fs' := by
  by_cases hf : Foreign db pkg (joinPath dest [f.path])
  · exact ⟨fs, removeFile_foreign _ _ _ _ _ _ hf, hw⟩
  rw [removeFile_own _ _ _ _ _ _ hf]
  unfold removeFile
  simp only [otherOwner, Dict.get_nil, Bool.false_eq_true, if_false]
  have unl : ∀ n, fs.get (joinPath dest [f.path]) = some n → n ≠ .dir →
      unlink fs (joinPath dest [f.path]) = .ok (fs.del (joinPath dest [f.path])) := by
    intro n hn hne
    unfold unlink
    rw [hn]
    cases n with
    | dir => exact absurd rfl hne
    | file c => rfl
    | link c => rfl
  have fin : WF (fs.del (joinPath dest [f.path])) → ∀ n, fs.get (joinPath dest [f.path]) = some n →
      ∃ fs', prune ((joinPath dest [f.path]).length + 1) (fs.del (joinPath dest [f.path])) (dirname (joinPath dest [f.path])) = .ok fs'
        ∧ WF fs' := by
    intro hw' n hn
    rcases hw.parent _ n hn with h1 | ⟨h1, h2⟩
    · exact absurd h1 hr
    · refine prune_total _ _ _ hw' ?_ (by omega)
      rw [Dict.get_del, if_neg]
      · exact h1
      · intro e'; rw [← e'] at h2; omega
  by_cases h1 : f.permanent = true
  · exact ⟨fs, by rw [if_pos h1], hw⟩
  rw [if_neg h1]
  by_cases h2 : f.conf = true
  · rw [if_pos h2]
    cases hs : sha1File sha fs (joinPath dest [f.path]) with
    | none => exact ⟨fs, rfl, hw⟩
    | some x =>
      simp only
      by_cases hx : some x = f.hash
      · rw [if_pos hx]
        have : ∃ n, fs.get (joinPath dest [f.path]) = some n ∧ n ≠ .dir := by
          apply isFile_or_link
          unfold sha1File at hs
          unfold isFile
          cases hst : stat fs (joinPath dest [f.path]) with
          | none => rw [hst] at hs; cases hs
          | some n => cases n with
            | file c => rfl
            | link c => rw [hst] at hs; cases hs
            | dir => rw [hst] at hs; cases hs
        obtain ⟨n, hn, hne⟩ := this
        exact ⟨_, unl n hn hne, hw.del_nondir _ n hn hne⟩
      · exact ⟨fs, by rw [if_neg hx], hw⟩
  rw [if_neg h2]
  by_cases h3 : (isFile fs (joinPath dest [f.path]) || isLink fs (joinPath dest [f.path])) = true
  · rw [if_pos h3]
    obtain ⟨n, hn, hne⟩ := isFile_or_link h3
    rw [unl n hn hne]
    exact fin (hw.del_nondir _ n hn hne) n hn
  rw [if_neg h3]
  by_cases h4 : isDir fs (joinPath dest [f.path]) = true
  · rw [if_pos h4]
    have hd : fs.get (joinPath dest [f.path]) = some .dir := by
      cases hg : fs.get (joinPath dest [f.path]) with
      | none => simp [isDir, stat, statN, hg] at h4
      | some n => cases n with
        | dir => rfl
        | file c => simp [isDir, stat, statN, hg] at h4
        | link c => simp [isLink, hg] at h3
    obtain ⟨b, hb, hch⟩ := listdir_dir hd
    rw [hb]
    cases b with
    | false => exact ⟨fs, rfl, hw⟩
    | true =>
      have hrm : rmdir fs (joinPath dest [f.path]) = .ok (fs.del (joinPath dest [f.path])) := by
        unfold rmdir; rw [hd]; simp only [hb]
      simp only [hrm]
      exact fin (hw.del _ hr (hch rfl)) _ hd
  · exact ⟨fs, by rw [if_neg h4], hw⟩

/-- **C33.** Removing the files of a package succeeds whatever is on the disk. -/
theorem remove_total (sha : Str → Str) (dest : Str) (db : DB.FilesDB Str α ι) (pkg : α) (l : List FileInfo) :
    ∀ (fs : FS), WF fs → (∀ f ∈ l, joinPath dest [f.path] ≠ ['/']) →
    ∃ fs', removeFiles sha dest db pkg l fs = .ok fs' ∧ WF fs' := by
  induction l with
  | nil => intro fs hw _; exact ⟨fs, rfl, hw⟩
  | cons f l ih =>
    intro fs hw hr
    obtain ⟨fs1, h1, hw1⟩ := removeFile_total sha dest db pkg f fs hw (hr f (by simp))
    obtain ⟨fs2, h2, hw2⟩ := ih fs1 hw1 fun f' hf' => hr f' (by simp [hf'])
    exact ⟨fs2, by unfold removeFiles; rw [h1]; exact h2, hw2⟩

/-! ## C34 -/

/-- C34, full statement: a file whose recorded owner (under the path as recorded) is another package stays. -/
def ForeignKept : Prop :=
  ∀ (sha : Str → Str) (dest : Str) (db : DB.FilesDB Str Nat Unit) (pkg : Nat) (l : List FileInfo) (fs fs' : FS),
    removeFiles sha dest db pkg l fs = .ok fs' → ∀ f ∈ l, Foreign db pkg f.path →
    (l.map (fun f => joinPath dest [f.path])).Nodup →
    ∀ c, fs.get (joinPath dest [f.path]) = some (.file c) → fs'.get (joinPath dest [f.path]) = some (.file c)

/-- C34 is false of the code: paths are recorded without the leading slash, but looked up with it. -/
theorem foreign_kept_refuted : ¬ ForeignKept := by
  intro h
  have h1 : removeFiles id "/".toList [("a".toList, (2, ()))] 1 [⟨"a".toList, false, none, false⟩]
      [("/".toList, .dir), ("/a".toList, .file "u".toList)] = .ok [("/".toList, .dir)] := by decide
  have := h _ _ _ _ _ _ _ h1 _ List.mem_cons_self ⟨2, (), by decide, by decide⟩ (by decide) "u".toList (by decide)
  revert this; decide

/-- **C34** when the database records the full path of the file: it stays.  Missing for the full statement: records with
relative paths, which is what the code stores, and for which it is false. -/
theorem foreign_kept_partial (sha : Str → Str) (dest : Str) (db : DB.FilesDB Str α ι) (pkg : α) (l : List FileInfo)
    (fs fs' : FS) (hnd : (l.map (fun f => joinPath dest [f.path])).Nodup)
    (h : removeFiles sha dest db pkg l fs = .ok fs') (f : FileInfo) (hf : f ∈ l) (hfor : Foreign db pkg f.path)
    (hfull : joinPath dest [f.path] = f.path) (n : Node) (hn : n ≠ .dir) (hg : fs.get (joinPath dest [f.path]) = some n) :
    fs'.get (joinPath dest [f.path]) = some n := by
  induction l generalizing fs with
  | nil => simp at hf
  | cons g l ih =>
    rw [List.map_cons, List.nodup_cons] at hnd
    unfold removeFiles at h
    cases h1 : removeFile sha dest db pkg g fs with
    | error e => rw [h1] at h; cases h
    | ok fs1 =>
      rw [h1] at h
      rcases List.mem_cons.mp hf with rfl | hf
      · rw [removeFile_foreign _ _ _ _ _ _ (by rw [hfull]; exact hfor)] at h1
        cases h1
        rcases removeFiles_frame sha dest db pkg l fs fs' h (joinPath dest [f.path]) with e | ⟨_, ⟨f', hf', e⟩ | e⟩
        · exact e.trans hg
        · exact absurd (List.mem_map.mpr ⟨f', hf', e.symm⟩) hnd.1
        · rw [hg] at e; cases e; exact absurd rfl hn
      · refine ih fs1 hnd.2 h hf ?_
        rcases removeFile_frame sha dest db pkg g fs fs1 h1 (joinPath dest [f.path]) with e | ⟨_, e | e⟩
        · exact e.trans hg
        · exact absurd (List.mem_map.mpr ⟨f, hf, e⟩) hnd.1
        · rw [hg] at e; cases e; exact absurd rfl hn

/-! ## Cases meeting the hypotheses -/

def rmList : List FileInfo :=
  [⟨"/e/a".toList, true, some "1".toList, false⟩, ⟨"/e/b".toList, true, some "2".toList, false⟩,
   ⟨"/e/d/c".toList, false, none, false⟩, ⟨"/e/p".toList, false, none, true⟩]
def rmFS : FS :=
  [("/".toList, .dir), ("/e".toList, .dir), ("/e/a".toList, .file "1".toList), ("/e/b".toList, .file "u".toList),
   ("/e/d".toList, .dir), ("/e/d/c".toList, .file "x".toList), ("/e/p".toList, .file "y".toList)]

example : removeFiles id "/".toList ([] : DB.FilesDB Str Nat Unit) 1 rmList rmFS =
    .ok [("/".toList, .dir), ("/e".toList, .dir), ("/e/b".toList, .file "u".toList), ("/e/p".toList, .file "y".toList)] := by
  decide

example : (rmList.map (fun f => joinPath "/".toList [f.path])).Nodup := by decide

example : WF rmFS where
  root := by decide
  parent := by
    intro k n h
    have hk : k ∈ rmFS.keys := (Dict.mem_keys _ _).mpr (by simp [h])
    have : ∀ k ∈ rmFS.keys, k = ['/'] ∨ (rmFS.get (dirname k) = some .dir ∧ (dirname k).length < k.length) := by decide
    exact this k hk

example : Foreign [("/a".toList, (2, ()))] 1 "/a".toList ∧ joinPath "/".toList ["/a".toList] = "/a".toList :=
  ⟨⟨2, (), by decide, by decide⟩, by decide⟩

end Pisi.FS
