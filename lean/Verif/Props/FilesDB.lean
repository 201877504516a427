import Verif.Props.InstallDB

/-!
# C24: file ownership records
-/
set_option linter.unusedSectionVars false

namespace Pisi.DB
open Pisi.DBSpec
variable {π α ι : Type} [DecidableEq π] [DecidableEq α]

theorem getFile_eq (d : FilesDB π α ι) (path : π) (pkg : α) (i : ι) :
    d.getFile path = some (pkg, path, i) ↔ d.get path = some (pkg, i) := by
  unfold FilesDB.getFile Dict.has
  cases d.get path with
  | none => simp
  | some x => obtain ⟨a, b⟩ := x; simp

theorem getFile_none (d : FilesDB π α ι) (path : π) : d.getFile path = none ↔ d.get path = none := by
  unfold FilesDB.getFile Dict.has
  cases d.get path with
  | none => simp
  | some x => obtain ⟨a, b⟩ := x; simp

theorem addFiles_not_mem (pkg : α) (path : π) (fs : List (π × ι)) (h : ∀ e ∈ fs, e.1 ≠ path) (d : FilesDB π α ι) :
    (d.addFiles pkg fs).get path = d.get path := by
  induction fs generalizing d with
  | nil => rfl
  | cons f fs ih =>
    have := ih (fun e he => h e (by simp [he])) (d.put f.1 (pkg, f.2))
    rw [FilesDB.addFiles, List.foldl_cons]
    rw [FilesDB.addFiles] at this
    rw [this, Dict.get_put, if_neg (h f (by simp))]

theorem addFiles_get (pkg : α) (path : π) (i : ι) (a b : List (π × ι)) (hb : ∀ e ∈ b, e.1 ≠ path)
    (d : FilesDB π α ι) : (d.addFiles pkg (a ++ (path, i) :: b)).get path = some (pkg, i) := by
  have := addFiles_not_mem pkg path b hb ((d.addFiles pkg a).put path (pkg, i))
  have e : d.addFiles pkg (a ++ (path, i) :: b) =
      FilesDB.addFiles ((d.addFiles pkg a).put path (pkg, i)) pkg b := by
    simp [FilesDB.addFiles]
  rw [e, this, Dict.get_put, if_pos rfl]

theorem removeFiles_get (path : π) (fs : List π) (d : FilesDB π α ι) :
    (d.removeFiles fs).get path = if path ∈ fs then none else d.get path := by
  induction fs generalizing d with
  | nil => simp [FilesDB.removeFiles]
  | cons f fs ih =>
    have e : d.removeFiles (f :: fs) = FilesDB.removeFiles (if d.has f then d.del f else d) fs := rfl
    rw [e, ih]
    by_cases hm : path ∈ fs
    · simp [hm]
    · simp only [hm, if_false, List.mem_cons, or_false]
      by_cases hf : path = f
      · subst hf
        by_cases hh : d.has path = true
        · simp [hh, Dict.get_del]
        · simp [hh]; simpa [Dict.has] using hh
      · have hf' : ¬ f = path := fun e => hf e.symm
        by_cases hh : d.has f = true
        · simp [hh, Dict.get_del, hf', hf]
        · simp [hh, hf]

theorem split_last (path : π) (fs : List (π × ι)) :
    (∀ e ∈ fs, e.1 ≠ path) ∨ ∃ a i b, fs = a ++ (path, i) :: b ∧ ∀ e ∈ b, e.1 ≠ path := by
  induction fs with
  | nil => simp
  | cons f fs ih =>
    rcases ih with h | ⟨a, i, b, rfl, hb⟩
    · by_cases hf : f.1 = path
      · right; exact ⟨[], f.2, fs, by rw [← hf]; rfl, h⟩
      · left; intro e he
        rcases List.mem_cons.mp he with rfl | he
        · exact hf
        · exact h e he
    · right; exact ⟨f :: a, i, b, rfl, hb⟩

theorem file_run_snoc (ops : List (FileOp π α ι)) (op : FileOp π α ι) :
    FileOp.run (ops ++ [op]) = FileOp.step (FileOp.run ops) op := by simp [FileOp.run]

theorem step_unmentioned (d : FilesDB π α ι) (op : FileOp π α ι) (path : π) (h : ¬ Mentions path op) :
    (op.step d).get path = d.get path := by
  cases op with
  | add p fs =>
    refine addFiles_not_mem p path fs (fun e he hp => h ⟨e.2, ?_⟩) d
    rw [← hp]; exact he
  | remove p fs => rw [FileOp.step, removeFiles_get, if_neg (by exact h)]

/-- The record of `path` after any history. -/
theorem files_get_iff (ops : List (FileOp π α ι)) (path : π) (pkg : α) (i : ι) :
    (FileOp.run ops).get path = some (pkg, i) ↔ LastRegistered ops pkg path i := by
  induction ops using snoc_induction with
  | h0 => simp [FileOp.run, LastRegistered, since_nil]
  | hs ops op ih =>
    rw [file_run_snoc, LastRegistered, since_snoc]
    rw [LastRegistered] at ih
    by_cases hm : Mentions path op
    · simp only [hm, not_true_eq_false, and_false, or_false]
      cases op with
      | add p fs =>
        rcases split_last path fs with h | ⟨a, j, b, rfl, hb⟩
        · obtain ⟨j, hj⟩ := hm; exact absurd rfl (h _ hj)
        · rw [FileOp.step, addFiles_get p path j a b hb]
          constructor
          · intro e; simp at e; obtain ⟨rfl, rfl⟩ := e
            exact ⟨a, b, rfl, hb⟩
          · rintro ⟨a', b', he, hb'⟩
            simp only [FileOp.add.injEq] at he
            obtain ⟨rfl, he⟩ := he
            have h1 := addFiles_get p path j a b hb ([] : FilesDB π α ι)
            rw [he, addFiles_get p path i a' b' hb'] at h1
            exact h1.symm
      | remove p fs =>
        rw [FileOp.step, removeFiles_get, if_pos (by exact hm)]
        simp only [reduceCtorEq, false_iff]
        rintro ⟨a, b, he, _⟩; cases he
    · rw [step_unmentioned _ _ _ hm, ih]
      simp only [hm, not_false_eq_true, and_true]
      refine ⟨Or.inr, fun h => h.elim (fun hr => absurd ?_ hm) id⟩
      obtain ⟨a, b, rfl, _⟩ := hr
      exact ⟨i, by simp⟩

/-- C24: `get_file(path)` names a package exactly when the last operation mentioning the path registered it
for that package, with the information registered then. -/
theorem get_file_iff (ops : List (FileOp π α ι)) (path : π) (pkg : α) (i : ι) :
    (FileOp.run ops).getFile path = some (pkg, path, i) ↔ LastRegistered ops pkg path i := by
  rw [getFile_eq, files_get_iff]

/-- C24: `has_file` agrees with `get_file`. -/
theorem has_file_iff (ops : List (FileOp π α ι)) (path : π) :
    (FileOp.run ops).hasFile path = true ↔ ∃ pkg i, LastRegistered ops pkg path i := by
  simp only [← files_get_iff, FilesDB.hasFile, Dict.has, Option.isSome_iff_exists, Prod.exists]

theorem files_uniq (ops : List (FileOp π α ι)) : (FileOp.run ops).Uniq := by
  induction ops using snoc_induction with
  | h0 => exact Dict.uniq_nil
  | hs ops op ih =>
    rw [file_run_snoc]
    generalize FileOp.run ops = d at ih
    cases op with
    | add p fs =>
      simp only [FileOp.step, FilesDB.addFiles]
      induction fs generalizing d with
      | nil => exact ih
      | cons f fs ih2 => exact ih2 _ (Dict.uniq_put ih _ _)
    | remove p fs =>
      simp only [FileOp.step, FilesDB.removeFiles]
      induction fs generalizing d with
      | nil => exact ih
      | cons f fs ih2 =>
        refine ih2 _ ?_
        by_cases hh : d.has f = true
        · simp only [hh, if_true]; exact Dict.uniq_del ih _
        · simp only [hh]; exact ih

/-- C24: `match_files` reports exactly the registered paths accepted by the pattern, with their owners, each once. -/
theorem match_files_exact (ops : List (FileOp π α ι)) (glob : π → Bool) :
    (((FileOp.run ops).matchFiles glob).map (fun e => e.2.1)).Nodup ∧
    ∀ pkg path i, (pkg, path, i) ∈ (FileOp.run ops).matchFiles glob ↔
      glob path = true ∧ LastRegistered ops pkg path i := by
  have hu := files_uniq ops
  constructor
  · simp only [FilesDB.matchFiles, List.map_map, Function.comp_def]
    exact List.Nodup.sublist (List.Sublist.map Prod.fst List.filter_sublist) hu
  · intro pkg path i
    rw [← files_get_iff, ← Dict.mem_iff_get hu]
    simp only [FilesDB.matchFiles, List.mem_map, List.mem_filter]
    constructor
    · rintro ⟨⟨k, p, j⟩, ⟨hm, hg⟩, he⟩
      simp at he; obtain ⟨rfl, rfl, rfl⟩ := he
      exact ⟨hg, hm⟩
    · rintro ⟨hg, hm⟩
      exact ⟨(path, pkg, i), ⟨hm, hg⟩, rfl⟩

/-- C24, full statement: the record of a path is that of the package owning it. -/
def OwnershipAccurate (π α ι : Type) [DecidableEq π] : Prop :=
  ∀ (ops : List (FileOp π α ι)) (path : π) (pkg : α) (i : ι),
    (FileOp.run ops).getFile path = some (pkg, path, i) ↔ Owns ops pkg path i

/-- C24 fails: a file that moved from package 1 to package 2 loses its record when package 1 is removed. -/
theorem ownership_refuted : ¬ OwnershipAccurate Nat Nat Nat := by
  intro h
  have h1 := (h [.add 1 [(5, 0)], .add 2 [(5, 0)], .remove 1 [5]] 5 2 0).mpr
    ⟨[.add 1 [(5, 0)]], .add 2 [(5, 0)], [.remove 1 [5]], rfl, ⟨[], [], rfl, by simp⟩, by simp⟩
  have h2 : (FileOp.run [.add 1 [(5, 0)], .add 2 [(5, 0)], .remove 1 [5]] : FilesDB Nat Nat Nat).getFile 5 = none := by
    rfl
  rw [h2] at h1; cases h1

/-- Every removal names only paths whose record is not another package's. -/
def RemovesOwn (ops : List (FileOp π α ι)) : Prop :=
  ∀ pre pkg fs post, ops = pre ++ .remove pkg fs :: post → ∀ path ∈ fs, ∀ q i, Owns pre q path i → q = pkg

/-- C24 for histories in which packages unregister only paths not taken over by another package.
Missing for the full statement: the other histories, for which it is false (`ownership_refuted`). -/
theorem ownership_partial (ops : List (FileOp π α ι)) (ho : RemovesOwn ops) (path : π) (pkg : α) (i : ι) :
    (FileOp.run ops).getFile path = some (pkg, path, i) ↔ Owns ops pkg path i := by
  rw [get_file_iff]
  induction ops using snoc_induction with
  | h0 => simp [Owns, LastRegistered, since_nil]
  | hs ops op ih =>
    have ho1 : RemovesOwn ops := fun pre p fs post e => ho pre p fs (post ++ [op]) (by simp [e])
    have ih' := ih ho1
    have hself := fun p fs (e : op = .remove p fs) => ho ops p fs [] (by simp [e])
    unfold LastRegistered Owns at *
    rw [since_snoc, since_snoc, ih']
    refine or_congr Iff.rfl (and_congr_right fun hs => ?_)
    constructor
    · intro h; exact ⟨fun _ _ _ => h, fun _ _ => h⟩
    · rintro ⟨h1, h2⟩ hm
      cases op with
      | add q fs => exact h1 q fs rfl hm
      | remove q fs =>
        have := hself q fs rfl path hm pkg i hs
        subst this
        exact h2 fs rfl hm

/-- C24, second half for every history: unregistering files leaves the records of all other paths alone. -/
theorem unregister_frame (ops : List (FileOp π α ι)) (pkg : α) (fs : List π) (path : π) (h : path ∉ fs) :
    (FileOp.run (ops ++ [.remove pkg fs])).getFile path = (FileOp.run ops).getFile path := by
  have := step_unmentioned (FileOp.run ops) (.remove pkg fs) path h
  rw [file_run_snoc]
  unfold FilesDB.getFile Dict.has
  rw [this]

/-! ## Non-vacuity -/
section Examples

def opsFiles : List (FileOp Nat Nat Nat) :=
  [.add 1 [(5, 0), (6, 1)], .add 2 [(7, 2), (7, 3)], .remove 1 [5, 6], .add 2 [(5, 9)]]

example : (FileOp.run opsFiles).getFile 5 = some (2, 5, 9) := by rfl
example : (FileOp.run opsFiles).getFile 7 = some (2, 7, 3) := by rfl
example : (FileOp.run opsFiles).getFile 6 = none := by rfl
example : LastRegistered opsFiles 2 5 9 := (get_file_iff _ _ _ _).mp rfl

example : RemovesOwn opsFiles := by
  intro pre pkg fs post h path hp q i hown
  unfold opsFiles at h
  match pre, h with
  | [], h => simp at h
  | [_], h => simp at h
  | [x, y], h =>
    simp at h
    obtain ⟨rfl, rfl, ⟨rfl, rfl⟩, _⟩ := h
    obtain ⟨pre, x, post, he, ⟨a, b, rfl, _⟩, _⟩ := hown
    match pre, he with
    | [], he => simp at he; exact he.1.1.symm
    | [_], he =>
      simp at he
      obtain ⟨_, ⟨rfl, he2⟩, _⟩ := he
      have : (path, i) ∈ ([(7, 2), (7, 3)] : List (Nat × Nat)) := by rw [he2]; simp
      simp at this hp
      omega
    | _ :: _ :: t, he => simp at he
  | [_, _, _], h => simp at h
  | _ :: _ :: _ :: _ :: t, h => simp at h

end Examples

end Pisi.DB
