import Verif.Spec.OwnerRun
import Verif.Props.FilesDB

/-!
# C230: every file belongs to one installed package
-/
set_option linter.unusedSectionVars false

namespace Pisi.Own
open Pisi.DB Pisi.OwnSpec
variable {π α ι : Type} [DecidableEq π] [DecidableEq α]

theorem own_snoc (cs : List (OwnCmd π α ι)) (c : OwnCmd π α ι) :
    Owners.run (cs ++ [c]) = (Owners.run cs).step c := by simp [Owners.run]

theorem leftover_nil (old new : List (π × ι)) : leftover old new = [] ↔ ∀ x i, (x, i) ∈ old → ∃ j, (x, j) ∈ new := by
  simp only [leftover, List.filter_eq_nil_iff, List.mem_map, Prod.exists, exists_and_right, exists_eq_right,
    decide_eq_true_eq, Classical.not_not]
  constructor
  · intro h x i hx; exact h x ⟨i, hx⟩
  · rintro h x ⟨i, hx⟩; exact h x i hx

theorem conflicts_nil (s : Owners π α ι) (pkg : α) (files : List (π × ι)) (isdir : π → Bool) :
    s.conflicts pkg files isdir = [] ↔
      ∀ x i, (x, i) ∈ files → ∀ o j, s.db.get x = some (o, j) → o = pkg ∨ isdir x = true := by
  simp only [Owners.conflicts, List.filterMap_eq_nil_iff]
  constructor
  · intro h x i hx o j ho
    have := h (x, i) hx
    rw [(getFile_eq s.db x o j).mpr ho] at this
    simp only [ite_eq_right_iff, reduceCtorEq, imp_false, not_and, Bool.not_eq_false] at this
    by_cases ho' : o = pkg
    · exact Or.inl ho'
    · exact Or.inr (this ho')
  · rintro h ⟨x, i⟩ hx
    cases hg : s.db.get x with
    | none => simp [(getFile_none s.db x).mpr hg]
    | some v =>
      obtain ⟨o, j⟩ := v
      rw [(getFile_eq s.db x o j).mpr hg]
      have := h x i hx o j hg
      simp only [ite_eq_right_iff, reduceCtorEq, imp_false, not_and, Bool.not_eq_false]
      intro hne; exact this.resolve_left hne

/-- What the record of `x` is after `add_files`. -/
theorem addFiles_cases (pkg : α) (x : π) (fs : List (π × ι)) (d : FilesDB π α ι) :
    (∃ i, (x, i) ∈ fs ∧ (d.addFiles pkg fs).get x = some (pkg, i)) ∨
      ((∀ i, (x, i) ∉ fs) ∧ (d.addFiles pkg fs).get x = d.get x) := by
  rcases split_last x fs with h | ⟨a, i, b, rfl, hb⟩
  · exact Or.inr ⟨fun i hi => h _ hi rfl, addFiles_not_mem pkg x fs h d⟩
  · exact Or.inl ⟨i, by simp, addFiles_get pkg x i a b hb d⟩

/-- The records agree with the lists. -/
def Sound (s : Owners π α ι) : Prop :=
  ∀ x p i, s.db.get x = some (p, i) → ∃ fs, s.lists.get p = some fs ∧ (x, i) ∈ fs

theorem sound_record (s : Owners π α ι) (h : Sound s) (pkg : α) (files : List (π × ι)) : Sound (s.record pkg files) := by
  intro x p i hx
  have key : ∀ d : FilesDB π α ι, (∀ q j, d.get x = some (q, j) → q ≠ pkg ∧ s.db.get x = some (q, j)) →
      (d.addFiles pkg files).get x = some (p, i) →
      ∃ fs, (s.lists.put pkg files).get p = some fs ∧ (x, i) ∈ fs := by
    intro d hd hx
    rcases addFiles_cases pkg x files d with ⟨j, hj, e⟩ | ⟨_, e⟩
    · rw [e] at hx; simp only [Option.some.injEq, Prod.mk.injEq] at hx; obtain ⟨rfl, rfl⟩ := hx
      exact ⟨files, by simp [Dict.get_put], hj⟩
    · rw [e] at hx
      obtain ⟨hq, hs⟩ := hd p i hx
      obtain ⟨fs, hf, hm⟩ := h x p i hs
      exact ⟨fs, by rw [Dict.get_put, if_neg (fun e => hq e.symm)]; exact hf, hm⟩
  unfold Owners.record at hx ⊢
  split at hx
  · rename_i old ho
    refine key _ ?_ hx
    intro q j hq
    rw [removeFiles_get] at hq
    split at hq
    · cases hq
    · rename_i hn
      refine ⟨?_, hq⟩
      rintro rfl
      obtain ⟨fs, hf, hm⟩ := h x q j hq
      rw [ho] at hf; cases hf
      exact hn (List.mem_map.mpr ⟨(x, j), hm, rfl⟩)
  · rename_i ho
    refine key _ ?_ hx
    intro q j hq
    refine ⟨?_, hq⟩
    rintro rfl
    obtain ⟨fs, hf, _⟩ := h x q j hq
    rw [ho] at hf; cases hf

theorem sound_step (s : Owners π α ι) (h : Sound s) (c : OwnCmd π α ι) (hc : ∀ pkg, c ≠ .remove pkg true) :
    Sound (s.step c) := by
  cases c with
  | install pkg files ignore isdir =>
    simp only [Owners.step]
    split
    · exact h
    · split
      · exact h
      · exact sound_record s h pkg files
  | remove pkg lost =>
    have hl : lost = false := by
      cases lost with
      | false => rfl
      | true => exact absurd rfl (hc pkg)
    subst hl
    simp only [Owners.step]
    cases hp : s.lists.get pkg with
    | none => simpa using h
    | some fs =>
      intro x p i hx
      simp only [Bool.false_eq_true, if_false, removeFiles_get] at hx
      split at hx
      · cases hx
      · rename_i hn
        obtain ⟨gs, hg, hm⟩ := h x p i hx
        refine ⟨gs, ?_, hm⟩
        simp only [Dict.get_del]
        split
        · rename_i e; subst e
          rw [hp] at hg; cases hg
          exact absurd (List.mem_map.mpr ⟨(x, i), hm, rfl⟩) hn
        · exact hg

theorem readable_snoc {cs : List (OwnCmd π α ι)} {c : OwnCmd π α ι} (h : Readable (cs ++ [c])) :
    Readable cs ∧ ∀ pkg, c ≠ .remove pkg true := by
  constructor
  · intro p hp; exact h p (by simp [hp])
  · rintro p rfl; exact h p (by simp)

theorem sound_run (cs : List (OwnCmd π α ι)) (h : Readable cs) : Sound (Owners.run cs) := by
  induction cs using snoc_induction with
  | h0 => intro x p i hx; simp [Owners.run] at hx
  | hs cs c ih =>
    obtain ⟨h1, h2⟩ := readable_snoc h
    rw [own_snoc]; exact sound_step _ (ih h1) c h2

/-- C230: whatever was installed, upgraded and removed, and whether or not file conflicts were ignored: the package the files
database names for a path is installed and has that path in its list, with the recorded information. -/
theorem said_owner_has (cs : List (OwnCmd π α ι)) (h : Readable cs) (x : π) (p : α) (i : ι)
    (hx : (Owners.run cs).db.getFile x = some (p, x, i)) : ∃ fs, (Owners.run cs).lists.get p = some fs ∧ (x, i) ∈ fs :=
  sound_run cs h x p i ((getFile_eq _ x p i).mp hx)

/-- The records of `x` are complete. -/
def CompleteAt (s : Owners π α ι) (x : π) : Prop :=
  ∀ p, Has s p x → ∃ i, s.db.get x = some (p, i)

theorem fair_snoc {cs : List (OwnCmd π α ι)} {c : OwnCmd π α ι} {x : π} (h : Fair (cs ++ [c]) x) :
    Fair cs x ∧ ∀ pkg ig dir, BringsTo x pkg c ig dir →
      dir = false ∧ (ig = true → ∀ q, Has (Owners.run cs) q x → q = pkg) :=
  ⟨fun pre d post e => h pre d (post ++ [c]) (by simp [e]), h cs c [] (by simp)⟩

theorem complete_record (s : Owners π α ι) (x : π) (h : CompleteAt s x) (pkg : α) (files : List (π × ι))
    (hnew : (∃ i, (x, i) ∈ files) → ∀ q, Has s q x → q = pkg)
    (hold : ∀ fs i, s.lists.get pkg = some fs → (x, i) ∈ fs → ∃ j, (x, j) ∈ files) :
    CompleteAt (s.record pkg files) x := by
  rintro p ⟨fs, i, hf, hm⟩
  have hl : (s.record pkg files).lists = s.lists.put pkg files := by
    unfold Owners.record; split <;> rfl
  rw [hl, Dict.get_put] at hf
  by_cases hx : ∃ i, (x, i) ∈ files
  · have hp : p = pkg := by
      by_cases e : pkg = p
      · exact e.symm
      · rw [if_neg e] at hf
        exact hnew hx p ⟨fs, i, hf, hm⟩
    subst hp
    have key : ∀ d : FilesDB π α ι, ∃ i, (d.addFiles p files).get x = some (p, i) := by
      intro d
      rcases addFiles_cases p x files d with ⟨j, _, e⟩ | ⟨hn, _⟩
      · exact ⟨j, e⟩
      · obtain ⟨k, hk⟩ := hx; exact absurd hk (hn k)
    unfold Owners.record
    split
    · exact key _
    · exact key _
  · have hne : pkg ≠ p := by
      rintro rfl
      rw [if_pos rfl] at hf; cases hf
      exact hx ⟨i, hm⟩
    rw [if_neg hne] at hf
    obtain ⟨j, hj⟩ := h p ⟨fs, i, hf, hm⟩
    refine ⟨j, ?_⟩
    have hn : ∀ e ∈ files, e.1 ≠ x := by rintro ⟨y, k⟩ he rfl; exact hx ⟨k, he⟩
    unfold Owners.record
    split
    · rename_i old ho
      dsimp only
      rw [addFiles_not_mem pkg x files hn, removeFiles_get, if_neg, hj]
      intro hmem
      obtain ⟨⟨y, k⟩, hk, e⟩ := List.mem_map.mp hmem
      dsimp only at e; subst e
      exact hx (hold old k ho hk)
    · dsimp only; rw [addFiles_not_mem pkg x files hn, hj]

theorem complete_run (cs : List (OwnCmd π α ι)) (x : π) (h : Readable cs) (hf : Fair cs x) :
    CompleteAt (Owners.run cs) x := by
  induction cs using snoc_induction with
  | h0 => rintro p ⟨fs, i, hfs, _⟩; simp [Owners.run] at hfs
  | hs cs c ih =>
    obtain ⟨h1, h2⟩ := readable_snoc h
    obtain ⟨f1, f2⟩ := fair_snoc hf
    have hc := ih h1 f1
    rw [own_snoc]
    generalize Owners.run cs = s at *
    cases c with
    | install pkg files ignore isdir =>
      simp only [Owners.step]
      split
      · exact hc
      · rename_i hcf
        split
        · exact hc
        · rename_i hl
          refine complete_record s x hc pkg files ?_ ?_
          · rintro ⟨i, hi⟩ q hq
            obtain ⟨hd, hig⟩ := f2 pkg ignore (isdir x) ⟨rfl, ⟨i, hi⟩, rfl, rfl⟩
            cases hg : ignore with
            | true => exact hig hg q hq
            | false =>
              have hnil : s.conflicts pkg files isdir = [] := by
                cases hcn : s.conflicts pkg files isdir with
                | nil => rfl
                | cons a l => exact absurd ⟨by simp [hcn], hg⟩ hcf
              obtain ⟨j, hj⟩ := hc q hq
              rcases (conflicts_nil s pkg files isdir).mp hnil x i hi q j hj with e | e
              · exact e
              · rw [hd] at e; cases e
          · intro fs i hfs hi
            have hl' : leftover ((s.lists.get pkg).getD []) files = [] := by
              cases hle : leftover ((s.lists.get pkg).getD []) files with
              | nil => rfl
              | cons a l => exact absurd (by simp [hle]) hl
            rw [hfs] at hl'
            exact (leftover_nil fs files).mp hl' x i hi
    | remove pkg lost =>
      have hlf : lost = false := by
        cases lost with
        | false => rfl
        | true => exact absurd rfl (h2 pkg)
      subst hlf
      simp only [Owners.step]
      cases hp : s.lists.get pkg with
      | none => simpa using hc
      | some fs =>
        rintro p ⟨gs, i, hg, hm⟩
        simp only [Dict.get_del] at hg
        split at hg
        · cases hg
        · rename_i hne
          obtain ⟨j, hj⟩ := hc p ⟨gs, i, hg, hm⟩
          refine ⟨j, ?_⟩
          simp only [Bool.false_eq_true, if_false, removeFiles_get]
          rw [if_neg, hj]
          intro hmem
          obtain ⟨⟨y, k⟩, hk, e⟩ := List.mem_map.mp hmem
          dsimp only at e; subst e
          obtain ⟨k', hk'⟩ := hc pkg ⟨fs, k, hp, hk⟩
          rw [hj] at hk'
          simp only [Option.some.injEq, Prod.mk.injEq] at hk'
          exact hne hk'.1.symm

/-- C230: the records and the packages agree on every path that was brought fairly: the files database names `p` for `x` exactly if
`p` is installed and has `x`. -/
theorem owner_exact_partial (cs : List (OwnCmd π α ι)) (x : π) (h : Readable cs) (hf : Fair cs x) (p : α) :
    Says (Owners.run cs) x p ↔ Has (Owners.run cs) p x := by
  constructor
  · rintro ⟨i, hi⟩
    obtain ⟨fs, hfs, hm⟩ := said_owner_has cs h x p i hi
    exact ⟨fs, i, hfs, hm⟩
  · intro hp
    obtain ⟨i, hi⟩ := complete_run cs x h hf p hp
    exact ⟨i, (getFile_eq _ x p i).mpr hi⟩

/-- C230: two installed packages do not have the same file. -/
theorem one_owner_partial (cs : List (OwnCmd π α ι)) (x : π) (h : Readable cs) (hf : Fair cs x) (p q : α)
    (hp : Has (Owners.run cs) p x) (hq : Has (Owners.run cs) q x) : p = q := by
  obtain ⟨i, hi⟩ := complete_run cs x h hf p hp
  obtain ⟨j, hj⟩ := complete_run cs x h hf q hq
  rw [hi] at hj
  simp only [Option.some.injEq, Prod.mk.injEq] at hj
  exact hj.1

/-- C230: what is recorded of a file of an installed package is what the package says of it. -/
theorem owner_info_partial (cs : List (OwnCmd π α ι)) (x : π) (h : Readable cs) (hf : Fair cs x) (p : α) (fs : List (π × ι))
    (i : ι) (hl : (Owners.run cs).lists.get p = some fs) (hi : (x, i) ∈ fs) (h1 : ∀ j, (x, j) ∈ fs → j = i) :
    (Owners.run cs).db.getFile x = some (p, x, i) := by
  obtain ⟨j, hj⟩ := (owner_exact_partial cs x h hf p).mpr ⟨fs, i, hl, hi⟩
  obtain ⟨gs, hg, hm⟩ := said_owner_has cs h x p j hj
  rw [hl] at hg; cases hg
  rw [hj, h1 j hm]

/-- C230: after every package was removed the files database is empty. -/
theorem nothing_left (cs : List (OwnCmd π α ι)) (h : Readable cs) (hn : ∀ p, (Owners.run cs).lists.get p = none) (x : π) :
    (Owners.run cs).db.hasFile x = false := by
  cases hx : (Owners.run cs).db.get x with
  | none => simp [FilesDB.hasFile, Dict.has, hx]
  | some v =>
    obtain ⟨p, i⟩ := v
    obtain ⟨fs, hf, _⟩ := sound_run cs h x p i hx
    rw [hn p] at hf; cases hf

/-- The full statement: without the option, and with no directory in the way, every file belongs to one package. -/
def OwnersFull : Prop :=
  ∀ (cs : List (OwnCmd Nat Nat Nat)) (x : Nat), Readable cs →
    (∀ pkg fs ig isdir, OwnCmd.install pkg fs ig isdir ∈ cs → isdir x = false) →
    ∀ p q, Has (Owners.run cs) p x → Has (Owners.run cs) q x → p = q

/-- An upgrade of package 2 that brings file 7 of package 1 is not refused: both have it. -/
theorem owners_refuted : ¬ OwnersFull := by
  intro h
  have := h [.install 1 [(7, 0)] false (fun _ => false), .install 2 [(8, 0)] false (fun _ => false),
    .install 2 [(7, 1), (8, 0)] true (fun _ => false)] 7 (by intro p hp; simp at hp)
    (by intro pkg fs ig isdir hm; simp at hm; rcases hm with h | h | h <;> simp [h.2.2.2]) 1 2
    ⟨[(7, 0)], 0, by decide, by decide⟩ ⟨[(7, 1), (8, 0)], 1, by decide, by decide⟩
  cases this

/-- Removing package 2 afterwards takes away the record of the file package 1 still has: now package 3 can be installed over
the file without any conflict. -/
theorem shared_record_lost :
    let cs : List (OwnCmd Nat Nat Nat) := [.install 1 [(7, 0)] false (fun _ => false), .install 2 [(8, 0)] false (fun _ => false),
      .install 2 [(7, 1), (8, 0)] true (fun _ => false), .remove 2 false]
    Has (Owners.run cs) 1 7 ∧ (Owners.run cs).db.hasFile 7 = false ∧
      (Owners.run cs).conflicts 3 [(7, 2)] (fun _ => false) = [] :=
  ⟨⟨[(7, 0)], 0, by decide, by decide⟩, by decide, by decide⟩

/-- A list that could not be read leaves records of a package that is gone, which then refuse other packages. -/
theorem lost_list_blocks :
    let cs : List (OwnCmd Nat Nat Nat) := [.install 1 [(7, 0)] false (fun _ => false), .remove 1 true]
    Says (Owners.run cs) 7 1 ∧ (Owners.run cs).lists.get 1 = none ∧
      (Owners.run cs).conflicts 3 [(7, 2)] (fun _ => false) = [(1, 7)] :=
  ⟨⟨0, by decide⟩, by decide, by decide⟩

theorem fair_nil (x : π) : Fair ([] : List (OwnCmd π α ι)) x := by
  intro pre c post e; simp at e

theorem fair_intro {cs : List (OwnCmd π α ι)} {c : OwnCmd π α ι} {x : π} (h : Fair cs x)
    (hc : ∀ pkg ig dir, BringsTo x pkg c ig dir →
      dir = false ∧ (ig = true → ∀ q, Has (Owners.run cs) q x → q = pkg)) : Fair (cs ++ [c]) x := by
  intro pre d post e
  rcases List.eq_nil_or_concat post with rfl | ⟨post', d', rfl⟩
  · rw [List.append_inj_left' (t₁ := [c]) (t₂ := [d]) e rfl] at hc
    have := List.append_inj_right' (t₁ := [c]) (t₂ := [d]) e rfl
    simp only [List.cons.injEq, and_true] at this
    rw [← this]; exact hc
  · have e' : cs ++ [c] = (pre ++ d :: post') ++ [d'] := by simp [e]
    exact h pre d post' (List.append_inj_left' e' rfl)

/-- Without ignoring, a path that is never a directory is brought fairly. -/
theorem fair_of_strict (cs : List (OwnCmd π α ι)) (x : π)
    (h : ∀ pkg fs ig isdir, OwnCmd.install pkg fs ig isdir ∈ cs → (∃ i, (x, i) ∈ fs) → ig = false ∧ isdir x = false) :
    Fair cs x := by
  intro pre c post e pkg ig dir hb
  cases c with
  | remove p l => exact hb.elim
  | install p fs ig' isdir =>
    obtain ⟨_, hx, rfl, rfl⟩ := hb
    obtain ⟨h1, h2⟩ := h p fs ig' isdir (by simp [e]) hx
    exact ⟨h2, fun h3 => by rw [h1] at h3; cases h3⟩

/-- C230: fairness is needed.  Where an install of `p` with `x` goes through while another package has `x`, both have it. -/
theorem unfair_shared (s : Owners π α ι) (p q : α) (fs : List (π × ι)) (ig : Bool) (isdir : π → Bool) (x : π) (i : ι)
    (hx : (x, i) ∈ fs) (hq : Has s q x) (hne : q ≠ p)
    (hpass : (s.step (.install p fs ig isdir)).lists.get p = some fs) (hnew : s.lists.get p ≠ some fs) :
    Has (s.step (.install p fs ig isdir)) p x ∧ Has (s.step (.install p fs ig isdir)) q x ∧
      Says (s.step (.install p fs ig isdir)) x p := by
  have hrec : s.step (.install p fs ig isdir) = s.record p fs := by
    simp only [Owners.step] at hpass ⊢
    split
    · rename_i h; rw [if_pos h] at hpass; exact absurd hpass hnew
    · rename_i h; rw [if_neg h] at hpass
      split
      · rename_i h'; rw [if_pos h'] at hpass; exact absurd hpass hnew
      · rfl
  have hl : (s.record p fs).lists = s.lists.put p fs := by
    unfold Owners.record; split <;> rfl
  rw [hrec]
  refine ⟨⟨fs, i, by rw [hl]; simp [Dict.get_put], hx⟩, ?_, ?_⟩
  · obtain ⟨gs, j, hg, hm⟩ := hq
    exact ⟨gs, j, by rw [hl, Dict.get_put, if_neg (fun e => hne e.symm)]; exact hg, hm⟩
  · have key : ∀ d : FilesDB π α ι, ∃ i, (d.addFiles p fs).get x = some (p, i) := by
      intro d
      rcases addFiles_cases p x fs d with ⟨j, _, e⟩ | ⟨hn, _⟩
      · exact ⟨j, e⟩
      · exact absurd hx (hn i)
    have : ∃ i, (s.record p fs).db.get x = some (p, i) := by
      unfold Owners.record
      split
      · exact key _
      · exact key _
    obtain ⟨j, hj⟩ := this
    exact ⟨j, (getFile_eq _ x p j).mpr hj⟩

/-- C230: a request without ignoring is refused exactly if some file, no directory on the disk, is another package's by the records;
then nothing changes. -/
theorem refused_iff (s : Owners π α ι) (p : α) (fs : List (π × ι)) (isdir : π → Bool) (hn : s.lists.get p = none) :
    (s.step (.install p fs false isdir)).lists.get p = none ↔
      ∃ x q, (∃ i, (x, i) ∈ fs) ∧ Says s x q ∧ q ≠ p ∧ isdir x = false := by
  have hleft : leftover [] fs = [] := by simp [leftover]
  by_cases hc : s.conflicts p fs isdir = []
  · constructor
    · intro h
      simp [Owners.step, hc, hleft, Owners.record, hn, Dict.get_put] at h
    · rintro ⟨x, q, ⟨i, hi⟩, ⟨j, hj⟩, hne, hd⟩
      rcases (conflicts_nil s p fs isdir).mp hc x i hi q j ((getFile_eq _ x q j).mp hj) with e | e
      · exact absurd e hne
      · rw [hd] at e; cases e
  · constructor
    · intro _
      have : ¬ ∀ x i, (x, i) ∈ fs → ∀ o j, s.db.get x = some (o, j) → o = p ∨ isdir x = true :=
        fun h => hc ((conflicts_nil s p fs isdir).mpr h)
      simp only [Classical.not_forall, not_or, Bool.not_eq_true] at this
      obtain ⟨x, i, hi, o, j, ho, hne, hd⟩ := this
      exact ⟨x, o, ⟨i, hi⟩, ⟨j, (getFile_eq _ x o j).mpr ho⟩, hne, hd⟩
    · intro _
      simp [Owners.step, hc, hn]

/-- A shared directory: both packages list it, the record names the later one, and removing the later one takes it away. -/
theorem directory_shared :
    let cs : List (OwnCmd Nat Nat Nat) := [.install 1 [(7, 0)] false (fun _ => true), .install 2 [(7, 0)] false (fun _ => true)]
    Has (Owners.run cs) 1 7 ∧ Has (Owners.run cs) 2 7 ∧ Says (Owners.run cs) 7 2 ∧
      (Owners.run (cs ++ [.remove 2 false])).db.hasFile 7 = false :=
  ⟨⟨[(7, 0)], 0, by decide, by decide⟩, ⟨[(7, 0)], 0, by decide, by decide⟩, ⟨0, by decide⟩, by decide⟩

section Example

/-- Package 1 with files 7 and 8, package 2 with 9; package 3 with file 7 is refused; package 1 is upgraded and has file 10 too;
package 2 is removed. -/
def exCs : List (OwnCmd Nat Nat Nat) :=
  [.install 1 [(7, 0), (8, 0)] false (fun _ => false), .install 2 [(9, 0)] false (fun _ => false),
   .install 3 [(7, 5)] false (fun _ => false), .install 1 [(7, 1), (8, 1), (10, 1)] true (fun _ => false), .remove 2 false]

theorem exCs_fair : Fair exCs 7 := by
  have e : exCs = ((((([] ++ [.install 1 [(7, 0), (8, 0)] false (fun _ => false)]) ++ [.install 2 [(9, 0)] false (fun _ => false)]) ++
    [.install 3 [(7, 5)] false (fun _ => false)]) ++ [.install 1 [(7, 1), (8, 1), (10, 1)] true (fun _ => false)]) ++
    [.remove 2 false]) := rfl
  rw [e]
  refine fair_intro (fair_intro (fair_intro (fair_intro (fair_intro (fair_nil 7) ?_) ?_) ?_) ?_) ?_
  · rintro p ig dir ⟨_, _, h1, h2⟩; exact ⟨h2.symm, fun h => by rw [← h1] at h; cases h⟩
  · rintro p ig dir ⟨_, _, h1, h2⟩; exact ⟨h2.symm, fun h => by rw [← h1] at h; cases h⟩
  · rintro p ig dir ⟨_, _, h1, h2⟩; exact ⟨h2.symm, fun h => by rw [← h1] at h; cases h⟩
  · rintro p ig dir ⟨rfl, _, h1, h2⟩
    refine ⟨h2.symm, fun _ q hq => ?_⟩
    have hl : (Owners.run ([] ++ [OwnCmd.install 1 [(7, 0), (8, 0)] false (fun _ => false)] ++
        [.install 2 [(9, 0)] false (fun _ => false)] ++ [.install 3 [(7, 5)] false (fun _ => false)]) :
        Owners Nat Nat Nat).lists = Dict.put (Dict.put [] 1 [(7, 0), (8, 0)]) 2 [(9, 0)] := by decide
    obtain ⟨fs, i, hf, hm⟩ := hq
    rw [hl, Dict.get_put, Dict.get_put] at hf
    split at hf
    · cases hf; simp at hm
    · split at hf
      · rename_i h; exact h.symm
      · cases hf
  · rintro p ig dir h; exact h.elim

example : Readable exCs := by intro p hp; simp [exCs] at hp

example : Says (Owners.run exCs) 7 1 ∧ ¬ Has (Owners.run exCs) 3 7 ∧ (Owners.run exCs).db.getFile 7 = some (1, 7, 1) ∧
    (Owners.run exCs).db.hasFile 9 = false ∧ (Owners.run exCs).db.hasFile 10 = true := by
  have hr : Readable exCs := by intro p hp; simp [exCs] at hp
  have h1 : Says (Owners.run exCs) 7 1 :=
    (owner_exact_partial exCs 7 hr exCs_fair 1).mpr ⟨[(7, 1), (8, 1), (10, 1)], 1, by decide, by decide⟩
  refine ⟨h1, fun h3 => ?_, by decide, by decide, by decide⟩
  have := one_owner_partial exCs 7 hr exCs_fair 1 3 ((owner_exact_partial exCs 7 hr exCs_fair 1).mp h1) h3
  cases this

end Example

end Pisi.Own
