import Verif.Lemmas.ActionsInside

/-! # C113: actions scripts change nothing outside the install directory -/
namespace Pisi.Act
open Pisi.Path (joinPath joinStep lstripSlash)

/-- **C113**, in full: whatever the calls of a script and their arguments, nothing outside the install directory changes. -/
def InsideFull : Prop := ∀ (e : Env) (fs : FS) (cs : List Call), e.Fit → Tidy fs → Reached fs (comps e.inst) →
  SameOutside (comps e.inst) fs (script e cs fs).1

/-- **C113** for scripts without `dosym` whose paths do not lead upwards, on a file system without symbolic links: nothing outside the
install directory changes, whether the script succeeds or fails, with `ignore_action_errors` or without. -/
theorem inside_partial (e : Env) (fs : FS) (cs : List Call) (hf : e.Fit) (ht : Tidy fs) (hl : LinkFree fs)
    (hw : Reached fs (comps e.inst)) (hi : ∀ c ∈ cs, c.Inside) (hs : ∀ c ∈ cs, c.isDosym = false) :
    SameOutside (comps e.inst) fs (script e cs fs).1 :=
  (script_pres hf cs hi hs fs ⟨hl, ht, hw, fun _ _ => rfl⟩).frame

/-- Such a script makes no symbolic links and no improper names. -/
theorem inside_links (e : Env) (fs : FS) (cs : List Call) (hf : e.Fit) (ht : Tidy fs) (hl : LinkFree fs)
    (hw : Reached fs (comps e.inst)) (hi : ∀ c ∈ cs, c.Inside) (hs : ∀ c ∈ cs, c.isDosym = false) :
    LinkFree (script e cs fs).1 ∧ Tidy (script e cs fs).1 :=
  let h := script_pres hf cs hi hs fs ⟨hl, ht, hw, fun _ _ => rfl⟩
  ⟨h.free, h.tidy⟩

theorem symlinkC_frame {fs fs' : FS} {cs : List Str} {t : Str} {l : Loc} (h : LinkFree fs) (hg : Good l cs)
    (hm : symlinkC t cs fs = .ok fs') : SameOutside l fs fs' := by
  unfold symlinkC at hm
  split at hm
  · rename_i p hr
    have := lresolve_eq h hg.noup hr
    subst this
    split at hm
    · cases hm
    · simp only [Except.ok.injEq] at hm
      subst hm
      intro q hq
      unfold look
      split
      · rfl
      · rw [Dict.get_put, if_neg]
        rintro rfl; exact hq hg.2
  · cases hm

/-- One `dosym` after such a script, whatever its target. -/
theorem inside_dosym (e : Env) (fs : FS) (cs : List Call) (src dst : Str) (hf : e.Fit) (ht : Tidy fs) (hl : LinkFree fs)
    (hw : Reached fs (comps e.inst)) (hi : ∀ c ∈ cs, c.Inside) (hs : ∀ c ∈ cs, c.isDosym = false) (hd : NoUp dst) :
    SameOutside (comps e.inst) fs (script e (cs ++ [.dosym src dst]) fs).1 := by
  have key : ∀ (xs : List Call) (c : Call) (fs : FS), script e (xs ++ [c]) fs = seq (script e xs) (script e [c]) fs := by
    intro xs c
    induction xs with
    | nil => intro fs; rfl
    | cons x xs ih =>
      intro fs
      show seq (x.run e) (script e (xs ++ [c])) fs = seq (seq (x.run e) (script e xs)) (script e [c]) fs
      unfold seq
      cases hx : x.run e fs with
      | mk fs' r => cases r with
        | ok _ => exact ih fs'
        | error _ => rfl
  rw [key]
  have h1 := script_pres (fs0 := fs) hf cs hi hs fs ⟨hl, ht, hw, fun _ _ => rfl⟩
  unfold seq
  cases hx : script e cs fs with
  | mk fs1 r =>
    rw [hx] at h1
    cases r with
    | error _ => exact h1.frame
    | ok _ =>
      dsimp only
      have h2 : (script e [Call.dosym src dst] fs1).1 = (dosym e src dst fs1).1 := by
        show (seq (dosym e src dst) skip fs1).1 = _
        unfold seq
        cases dosym e src dst fs1 with
        | mk a b => cases b <;> rfl
      rw [h2]
      have h3 := makedirs_pres (fs0 := fs) (good_inst hf (noup_dirname hd)) fs1 h1
      unfold dosym seq
      cases hm : makedirs e (joinPath e.inst [FS.dirname dst]) fs1 with
      | mk fs2 r =>
        rw [hm] at h3
        cases r with
        | error _ => exact h3.frame
        | ok _ =>
          dsimp only
          unfold catching call
          cases hy : symlinkC src (e.cs (joinPath e.inst [dst])) fs2 with
          | ok fs3 => exact h3.frame.trans (symlinkC_frame h3.free (good_inst hf hd) hy)
          | error x =>
            dsimp only
            split
            · have : (error e fs2).1 = fs2 := by unfold error; split <;> rfl
              rw [this]; exact h3.frame
            · exact h3.frame

def exEnv : Env := { inst := "/b/install".toList, cwd := "/b/src".toList, ignore := false, limit := 1000 }
def exFS : FS := [(["b".toList], .dir), (["b".toList, "install".toList], .dir), (["b".toList, "src".toList], .dir),
  (["b".toList, "src".toList, "a.so".toList], .file "x".toList), (["lib".toList], .dir)]

/-- Not so in full: `..` leads out of the install directory. -/
theorem inside_refuted : ¬ InsideFull := by
  intro h
  have := h exEnv exFS [.dodir "../x".toList] ⟨by decide, by decide, by decide, by decide⟩ (by decide)
    (by
      intro q hq hne
      have hc : comps exEnv.inst = ["b".toList, "install".toList] := by decide
      rw [hc] at hq hne
      obtain ⟨t, ht⟩ := hq
      match q, t, ht with
      | [], _, _ => decide
      | [a], _, ht =>
        simp only [List.cons_append, List.nil_append, List.cons.injEq] at ht
        rw [ht.1]; decide
      | [a, b], t, ht =>
        simp only [List.cons_append, List.nil_append, List.cons.injEq] at ht
        rw [ht.1, ht.2.1] at hne
        exact absurd rfl hne
      | a :: b :: c :: r, t, ht => simp at ht)
    ["b".toList, "x".toList] (by decide)
  revert this
  decide +kernel

/-- Nor without `..`: what is put into a directory that `dosym` has made a link goes to the directory of the build host. -/
theorem inside_refuted_link : ∃ (e : Env) (fs : FS) (cs : List Call), e.Fit ∧ Tidy fs ∧ LinkFree fs ∧ (∀ c ∈ cs, c.Inside) ∧
    isDirC fs (comps e.inst) = true ∧ ¬ SameOutside (comps e.inst) fs (script e cs fs).1 := by
  refine ⟨exEnv, exFS, [.dosym "/lib".toList "/lib64".toList, .insinto "/lib64".toList "a.so".toList [] true],
    ⟨by decide, by decide, by decide, by decide⟩, by decide, ?_, ?_, by decide +kernel, ?_⟩
  · intro n hn t
    simp only [exFS, List.mem_cons, List.not_mem_nil, or_false] at hn
    rcases hn with rfl | rfl | rfl | rfl | rfl <;> simp
  · intro c hc
    simp only [List.mem_cons, List.not_mem_nil, or_false] at hc
    rcases hc with rfl | rfl
    · show NoUp _; decide
    · exact ⟨by decide, by decide, by decide⟩
  · intro h
    have := h ["lib".toList, "a.so".toList] (by decide)
    revert this
    decide +kernel

end Pisi.Act
