import Verif.Props.ActionsMove

/-! # C118–C120: dodir, rename and dosym -/
namespace Pisi.Act
open Pisi.Path (joinPath joinStep lstripSlash)

/-! ## C118: dodir -/

/-- **C118**, in full: after a `dodir` that reports no error the directory is there. -/
def DodirFull : Prop := ∀ (e : Env) (fs fs' : FS) (d : Str), e.Fit → Tidy fs → LinkFree fs → Rooted fs →
  NoUp d → e.ignore = false → dodir e d fs = (fs', .ok ()) → isDirC fs' (comps e.inst ++ comps d) = true

/-- **C118** unless there is a file of this name: the directory and those on the way to it are there, and nothing else changes. -/
theorem dodir_partial (e : Env) (fs fs' : FS) (d : Str) (hf : e.Fit) (hl : LinkFree fs) (hd : NoUp d) (hi : e.ignore = false)
    (hnf : ∀ c, look fs (comps e.inst ++ comps d) ≠ some (.file c)) (hok : dodir e d fs = (fs', .ok ())) :
    isDirC fs' (comps e.inst ++ comps d) = true ∧
      ∀ q, look fs' q = if q <+: comps e.inst ++ comps d ∧ look fs q = none then some .dir else look fs q := by
  have hno : dotdot ∉ e.cs (joinPath e.inst [d]) := (good_inst hf hd).noup
  obtain ⟨hl1, hex⟩ := makedirs_exact hl hno hi hok
  have hre := makedirs_reached hl hno hi hok
  rw [cs_join _ hf.abs] at hre hno
  simp only [cs_join _ hf.abs] at hex
  refine ⟨(isDirC_iff hl1 hno).mpr ⟨hre, ?_⟩, hex⟩
  rw [hex]
  split
  · rfl
  · rename_i h
    cases hx : look fs (comps e.inst ++ comps d) with
    | none => exact absurd ⟨List.prefix_rfl, hx⟩ h
    | some n => cases n with
      | dir => rfl
      | file c => exact absurd hx (hnf c)
      | link t => exact absurd hx (look_not_link hl _ _)

/-- On a tree it succeeds unless there is a file on the way. -/
theorem makedirsC_ok : ∀ (rest pre : List Str) (fs : FS), LinkFree fs → dotdot ∉ pre ++ rest → rest ≠ [] →
    look fs pre = some .dir → Reached fs pre → (∀ q, q <+: pre ++ rest → ∀ c, look fs q ≠ some (.file c)) →
    look fs (pre ++ rest) = none → ∃ fs', makedirsC pre rest fs = (fs', .ok ()) := by
  intro rest
  induction rest with
  | nil => intro _ _ _ _ h; exact absurd rfl h
  | cons c r ih =>
    intro pre fs hl hd _ hpd hpr hnf hno
    have hd1 : dotdot ∉ pre ++ [c] := by
      intro h; apply hd
      rcases List.mem_append.mp h with h | h
      · exact List.mem_append_left _ h
      · simp only [List.mem_singleton] at h
        rw [← h]; simp
    have hr1 : Reached fs (pre ++ [c]) := by
      intro q hq hqn
      obtain ⟨t, ht⟩ := hq
      rcases List.eq_nil_or_concat t with rfl | ⟨t', y, rfl⟩
      · rw [List.append_nil] at ht; exact absurd ht hqn
      · have h2 : q ++ t' = pre := by
          have := congrArg List.dropLast ht
          rwa [List.concat_eq_append, ← List.append_assoc, List.dropLast_concat, List.dropLast_concat] at this
        by_cases hqp : q = pre
        · rw [hqp]; exact hpd
        · exact hpr q ⟨t', h2⟩ hqp
    have hne : pre ++ [c] ≠ [] := by simp
    cases r with
    | nil =>
      refine ⟨fs.put (pre ++ [c]) .dir, ?_⟩
      unfold makedirsC call mkdirC
      rw [(lresolve_iff hl hd1 _).mpr ⟨rfl, hr1⟩]
      dsimp only
      rw [hno]
      rfl
    | cons c' r =>
      have hassoc : pre ++ [c] ++ c' :: r = pre ++ c :: c' :: r := by simp
      unfold makedirsC
      by_cases hex : existsC fs (pre ++ [c]) = true
      · rw [if_pos hex]
        have hdir : look fs (pre ++ [c]) = some .dir := by
          unfold existsC at hex
          obtain ⟨n, hn⟩ := Option.isSome_iff_exists.mp hex
          have hn2 := ((stat_iff hl hd1 n).mp hn).2
          cases n with
          | dir => exact hn2
          | link t => exact absurd hn2 (look_not_link hl _ _)
          | file x => exact absurd hn2 (hnf _ (by rw [← hassoc]; exact List.prefix_append _ _) x)
        exact ih (pre ++ [c]) fs hl (by rw [hassoc]; exact hd) (by simp) hdir hr1 (by rw [hassoc]; exact hnf) (by rw [hassoc]; exact hno)
      · rw [if_neg hex]
        have hnone : look fs (pre ++ [c]) = none := by
          cases hx : look fs (pre ++ [c]) with
          | none => rfl
          | some n =>
            exfalso; apply hex
            unfold existsC
            rw [(stat_iff hl hd1 n).mpr ⟨hr1, hx⟩]; rfl
        have hmk : mkdirC (pre ++ [c]) fs = .ok (fs.put (pre ++ [c]) .dir) := by
          unfold mkdirC
          rw [(lresolve_iff hl hd1 _).mpr ⟨rfl, hr1⟩]
          dsimp only
          rw [hnone]; rfl
        rw [hmk]
        dsimp only
        refine ih (pre ++ [c]) (fs.put (pre ++ [c]) .dir) (linkFree_put hl _ (by simp)) (by rw [hassoc]; exact hd) (by simp) ?_ ?_ ?_ ?_
        · rw [look_put hne, if_pos rfl]
        · intro q hq hqn
          rw [look_put hne, if_neg hqn]; exact hr1 q hq hqn
        · intro q hq x
          rw [look_put hne]
          split
          · simp
          · exact hnf q (by rw [← hassoc]; exact hq) x
        · rw [look_put hne, if_neg, hassoc, hno]
          intro h
          have := congrArg List.length h
          simp at this

/-- `makedirs` on a tree where no file is in the way. -/
theorem makedirs_ok (e : Env) (fs : FS) (d : Str) (hl : LinkFree fs) (hd : dotdot ∉ e.cs d) (hR : Rooted fs)
    (hnf : ∀ q, q <+: e.cs d → ∀ c, look fs q ≠ some (.file c)) : ∃ fs', makedirs e d fs = (fs', .ok ()) := by
  unfold makedirs
  by_cases hex : existsC fs (e.cs d) = true
  · exact ⟨fs, by unfold catching; beta_reduce; rw [if_pos hex]⟩
  · have h0 : e.cs d ≠ [] := by
      intro h; apply hex; rw [h]
      unfold existsC
      rw [(stat_iff hl (by simp) .dir).mpr ⟨by intro q hq hqn; simp at hq; exact absurd hq hqn, rfl⟩]; rfl
    have hnone : look fs (e.cs d) = none := by
      cases hx : look fs (e.cs d) with
      | none => rfl
      | some n =>
        exfalso; apply hex
        unfold existsC
        rw [(stat_iff hl hd n).mpr ⟨hR _ (by rw [hx]; simp), hx⟩]; rfl
    obtain ⟨fs', h⟩ := makedirsC_ok (e.cs d) [] fs hl (by simpa using hd) h0 rfl
      (by intro q hq hqn; simp at hq; exact absurd hq hqn) (by simpa using hnf) (by simpa using hnone)
    exact ⟨fs', by unfold catching; beta_reduce; rw [if_neg hex, h]⟩

theorem dodir_succeeds (e : Env) (fs : FS) (d : Str) (hf : e.Fit) (hl : LinkFree fs) (hR : Rooted fs) (hd : NoUp d)
    (hnf : ∀ q, q <+: comps e.inst ++ comps d → ∀ c, look fs q ≠ some (.file c)) : ∃ fs', dodir e d fs = (fs', .ok ()) :=
  makedirs_ok e fs _ hl (good_inst hf hd).noup hR (by rw [cs_join _ hf.abs]; exact hnf)

example : ∃ fs', dodir exEnv ['u', '/', 'v'] moveFS = (fs', .ok ()) ∧ isDirC fs' [dB, dI, ['u'], ['v']] = true := by
  obtain ⟨fs', h⟩ := dodir_succeeds exEnv moveFS ['u', '/', 'v'] exEnv_fit (linkFree_of (by decide +kernel)) (rooted_of (by decide +kernel))
    (by decide) (by
      intro q hq c hc
      rw [List.prefix_iff_eq_take.mp hq] at hc
      have hlen := hq.length_le
      generalize q.length = k at hc hlen
      have hk : k ∈ List.range 5 := by rw [List.mem_range]; have : (comps exEnv.inst ++ comps ['u', '/', 'v']).length = 4 := by decide
                                       omega
      have key : ∀ k ∈ List.range 5, (match look moveFS ((comps exEnv.inst ++ comps ['u', '/', 'v']).take k) with
          | some (.file _) => false | _ => true) = true := by decide +kernel
      have := key k hk
      rw [hc] at this; cases this)
  refine ⟨fs', h, (dodir_partial exEnv moveFS fs' ['u', '/', 'v'] exEnv_fit (linkFree_of (by decide +kernel)) (by decide) rfl ?_ h).1⟩
  intro c
  rw [show look moveFS (comps exEnv.inst ++ comps ['u', '/', 'v']) = none by decide +kernel]; simp

/-- Not so in full: a file of this name is left, and nothing is said. -/
theorem dodir_refuted : ¬ DodirFull := by
  intro h
  have := h exEnv moveFS (dodir exEnv ['u', '/', 'b', '.', 'h'] moveFS).1 ['u', '/', 'b', '.', 'h'] exEnv_fit (by decide +kernel)
    (linkFree_of (by decide +kernel)) (rooted_of (by decide +kernel)) (by decide) rfl (eq_of_succeeds (by decide +kernel))
  revert this
  decide +kernel

/-! ## C119: rename -/

/-- **C119**, in full: after a `rename` that reports no error the file is in the same directory under the new name, and nothing else
has changed or been lost. -/
def RenameFull : Prop := ∀ (e : Env) (fs fs' : FS) (src new : Str), e.Fit → Tidy fs → LinkFree fs → Rooted fs → NoUp src →
  e.ignore = false → Proper new → rename e src new fs = (fs', .ok ()) →
  Moved (comps e.inst ++ comps src) ((comps e.inst ++ comps src).dropLast ++ [new]) fs fs' ∧
  ((comps e.inst ++ comps src).dropLast ++ [new] = comps e.inst ++ comps src ∨
    look fs ((comps e.inst ++ comps src).dropLast ++ [new]) = none)

theorem cs_rename {e : Env} (hf : e.Fit) {src new : Str} (hb : Proper (basename src)) (hn : Proper new) :
    e.cs (joinPath e.inst [FS.dirname src, new]) = (comps e.inst ++ comps src).dropLast ++ [new] := by
  unfold Env.cs absComps
  rw [isAbs_join2 _ _ hf.abs, if_pos rfl, comps_join2, comps_proper hn, comps_split src, comps_proper hb, ← List.append_assoc,
    List.dropLast_concat]

/-- **C119** if there is nothing with the new name. -/
theorem rename_partial (e : Env) (fs : FS) (src new : Str) (hf : e.Fit) (hl : LinkFree fs) (hR : Rooted fs) (hs : NoUp src)
    (hb : Proper (basename src)) (hn : Proper new) {n : Node} (hx : look fs (comps e.inst ++ comps src) = some n)
    (hno : look fs ((comps e.inst ++ comps src).dropLast ++ [new]) = none) : ∃ fs', rename e src new fs = (fs', .ok ()) ∧
    Moved (comps e.inst ++ comps src) ((comps e.inst ++ comps src).dropLast ++ [new]) fs fs' := by
  have hS : comps e.inst ++ comps src = (comps e.inst ++ comps src).dropLast ++ [basename src] := by
    rw [comps_split src, comps_proper hb, ← List.append_assoc, List.dropLast_concat]
  have hne : basename src ≠ new := by
    intro h; rw [← h, ← hS, hx] at hno; cases hno
  have hnoS : dotdot ∉ comps e.inst ++ comps src := by rw [← cs_join (e := e) _ hf.abs]; exact (good_inst hf hs).noup
  have hnoD : dotdot ∉ (comps e.inst ++ comps src).dropLast ++ [new] := by
    intro h
    rcases List.mem_append.mp h with h | h
    · exact hnoS (List.dropLast_subset _ h)
    · simp only [List.mem_singleton] at h; exact hn.2.2.1 h.symm
  have hrs := hR _ (by rw [hx]; simp)
  have hrd : Reached fs ((comps e.inst ++ comps src).dropLast ++ [new]) := by
    intro q hq hqn
    obtain ⟨t, ht⟩ := hq
    rcases List.eq_nil_or_concat t with rfl | ⟨t', y, rfl⟩
    · rw [List.append_nil] at ht; exact absurd ht hqn
    · have h2 : q ++ t' = (comps e.inst ++ comps src).dropLast := by
        have := congrArg List.dropLast ht
        rwa [List.concat_eq_append, ← List.append_assoc, List.dropLast_concat, List.dropLast_concat] at this
      refine hrs q ?_ ?_
      · rw [hS, ← h2, List.append_assoc]; exact List.prefix_append _ _
      · intro h0
        have h1 := congrArg List.length h0
        have h3 := congrArg List.length h2
        have h4 := congrArg List.length hS
        simp at h1 h3 h4; omega
  obtain ⟨fs', h1, h2⟩ := renameC_moved hl hR (by intro h0; exact hf.nonroot (List.append_eq_nil_iff.mp h0).1) (by simp) hnoS hnoD hrs hrd hx hno
    (by
      intro h
      rw [hS, List.dropLast_concat] at h
      have := List.IsPrefix.eq_of_length h (by simp)
      have := List.append_cancel_left this
      simp only [List.cons.injEq, and_true] at this
      exact hne this)
  refine ⟨fs', ?_, h2⟩
  unfold rename catching call
  rw [cs_join _ hf.abs, cs_rename hf hb hn, h1]

/-- What is not there is reported. -/
theorem rename_missing (e : Env) (fs : FS) (src new : Str) (hf : e.Fit) (hl : LinkFree fs) (hs : NoUp src) (hi : e.ignore = false)
    (hx : look fs (comps e.inst ++ comps src) = none) : rename e src new fs = (fs, .error .action) := by
  have hnoS : dotdot ∉ comps e.inst ++ comps src := by rw [← cs_join (e := e) _ hf.abs]; exact (good_inst hf hs).noup
  unfold rename catching call
  have : renameC (e.cs (joinPath e.inst [src])) (e.cs (joinPath e.inst [FS.dirname src, new])) fs = .error .os := by
    unfold renameC
    split
    · rename_i a b ha hb
      rw [cs_join _ hf.abs] at ha
      obtain ⟨rfl, _⟩ := (lresolve_iff hl hnoS a).mp ha
      rw [hx]
    · rfl
  rw [this]
  dsimp only
  unfold error
  rw [if_pos (by rfl), hi]
  rfl

example : ∃ fs', rename exEnv ['/', 'u', '/', 'b', '.', 'h'] nC moveFS = (fs', .ok ()) ∧ look fs' [dB, dI, ['u'], nC] = some (.file ['x']) := by
  obtain ⟨fs', h1, h2⟩ := rename_partial exEnv moveFS ['/', 'u', '/', 'b', '.', 'h'] nC exEnv_fit (linkFree_of (by decide +kernel))
    (rooted_of (by decide +kernel)) (by decide) (by decide) (by decide) (n := .file ['x']) (by decide +kernel) (by decide +kernel)
  exact ⟨fs', h1, by rw [h2]; decide +kernel⟩

/-- Not so in full: a file that has the new name already is lost, and nothing is said. -/
theorem rename_refuted : ¬ RenameFull := by
  intro h
  have := (h exEnv (moveFS ++ [([dB, dI, ['u'], nC], .file ['z'])])
    (rename exEnv ['/', 'u', '/', 'b', '.', 'h'] nC (moveFS ++ [([dB, dI, ['u'], nC], .file ['z'])])).1
    ['/', 'u', '/', 'b', '.', 'h'] nC exEnv_fit (by decide +kernel) (linkFree_of (by decide +kernel))
    (rooted_of (by decide +kernel)) (by decide) rfl (by decide) (eq_of_succeeds (by decide +kernel))).2
  revert this
  decide +kernel

/-! ## C120: dosym -/

/-- **C120**: after a `dosym` that reports no error the link with this text is in its place; directories on the way to it have been
made; nothing that was there has changed. -/
theorem dosym_exact (e : Env) (fs fs' : FS) (src dst : Str) (hf : e.Fit) (hl : LinkFree fs) (hd : NoUp dst) (hi : e.ignore = false)
    (hok : dosym e src dst fs = (fs', .ok ())) : ∀ q, look fs' q =
      if q = comps e.inst ++ comps dst then some (.link src)
      else if q <+: comps e.inst ++ comps (FS.dirname dst) ∧ look fs q = none then some .dir else look fs q := by
  obtain ⟨f1, h1, h2⟩ := seq_ok hok
  have hno1 : dotdot ∉ e.cs (joinPath e.inst [FS.dirname dst]) := (good_inst hf (noup_dirname hd)).noup
  obtain ⟨hl1, hex⟩ := makedirs_exact hl hno1 hi h1
  simp only [cs_join _ hf.abs] at hex
  have hno : dotdot ∉ comps e.inst ++ comps dst := by rw [← cs_join (e := e) _ hf.abs]; exact (good_inst hf hd).noup
  have h3 := catching_ok (error_ne hi) h2
  have h0 : comps e.inst ++ comps dst ≠ [] := fun h => hf.nonroot (List.append_eq_nil_iff.mp h).1
  unfold call at h3
  split at h3
  · rename_i f2 h4
    simp only [Prod.mk.injEq, and_true] at h3
    subst h3
    unfold symlinkC at h4
    split at h4
    · rename_i p hp
      rw [cs_join _ hf.abs] at hp
      obtain ⟨rfl, _⟩ := (lresolve_iff hl1 hno p).mp hp
      split at h4
      · cases h4
      · simp only [Except.ok.injEq] at h4
        subst h4
        intro q
        rw [look_put h0, hex]
    · cases h4
  · simp at h3

theorem dosym_parent (dst : Str) : comps (FS.dirname dst) <+: comps dst := by
  conv_rhs => rw [comps_split dst]
  exact List.prefix_append _ _

theorem makedirs_there {e : Env} {fs : FS} {d : Str} (hl : LinkFree fs) (hR : Rooted fs) (hd : dotdot ∉ e.cs d)
    (hx : look fs (e.cs d) ≠ none) : makedirs e d fs = (fs, .ok ()) := by
  obtain ⟨n, hn⟩ := Option.ne_none_iff_exists'.mp hx
  have : existsC fs (e.cs d) = true := by
    unfold existsC; rw [(stat_iff hl hd n).mpr ⟨hR _ hx, hn⟩]; rfl
  unfold makedirs catching
  beta_reduce
  rw [if_pos this]

/-- Anything that is in its place stops it: this is reported, and nothing changes. -/
theorem dosym_exists (e : Env) (fs : FS) (src dst : Str) (hf : e.Fit) (hl : LinkFree fs) (hR : Rooted fs) (hd : NoUp dst)
    (hi : e.ignore = false) (hx : look fs (comps e.inst ++ comps dst) ≠ none) : dosym e src dst fs = (fs, .error .action) := by
  have hno1 : dotdot ∉ e.cs (joinPath e.inst [FS.dirname dst]) := (good_inst hf (noup_dirname hd)).noup
  have hno : dotdot ∉ comps e.inst ++ comps dst := by rw [← cs_join (e := e) _ hf.abs]; exact (good_inst hf hd).noup
  have hP : look fs (e.cs (joinPath e.inst [FS.dirname dst])) ≠ none := by
    rw [cs_join _ hf.abs]
    by_cases h : comps e.inst ++ comps (FS.dirname dst) = comps e.inst ++ comps dst
    · rw [h]; exact hx
    · rw [hR _ hx _ ((List.prefix_append_right_inj _).mpr (dosym_parent dst)) h]; simp
  unfold dosym seq
  rw [makedirs_there hl hR hno1 hP]
  dsimp only
  unfold catching call symlinkC
  rw [cs_join _ hf.abs, (lresolve_iff hl hno _).mpr ⟨rfl, hR _ hx⟩]
  dsimp only
  rw [if_pos (Option.isSome_iff_ne_none.mpr hx)]
  dsimp only
  unfold error
  rw [if_pos (by rfl), hi]
  rfl

/-- It succeeds if nothing is in its place and no file on the way. -/
theorem dosym_succeeds (e : Env) (fs : FS) (src dst : Str) (hf : e.Fit) (hl : LinkFree fs) (hR : Rooted fs) (hd : NoUp dst)
    (hi : e.ignore = false) (hb : Proper (basename dst)) (hx : look fs (comps e.inst ++ comps dst) = none)
    (hnf : ∀ q, q <+: comps e.inst ++ comps (FS.dirname dst) → ∀ c, look fs q ≠ some (.file c)) :
    ∃ fs', dosym e src dst fs = (fs', .ok ()) := by
  have hno1 : dotdot ∉ e.cs (joinPath e.inst [FS.dirname dst]) := (good_inst hf (noup_dirname hd)).noup
  have hno : dotdot ∉ comps e.inst ++ comps dst := by rw [← cs_join (e := e) _ hf.abs]; exact (good_inst hf hd).noup
  obtain ⟨f1, h1⟩ := dodir_succeeds e fs (FS.dirname dst) hf hl hR (noup_dirname hd) hnf
  obtain ⟨hdir, hex⟩ := dodir_partial e fs f1 (FS.dirname dst) hf hl (noup_dirname hd) hi (hnf _ List.prefix_rfl) h1
  have hl1 := (makedirs_exact hl hno1 hi h1).1
  have hre := makedirs_reached hl hno1 hi h1
  rw [cs_join _ hf.abs] at hre hno1
  have hD : comps e.inst ++ comps dst = comps e.inst ++ comps (FS.dirname dst) ++ [basename dst] := by
    rw [comps_split dst, comps_proper hb, List.append_assoc]
  have hr : Reached f1 (comps e.inst ++ comps dst) := by
    intro q hq hqn
    rw [hD] at hq hqn
    obtain ⟨t, ht⟩ := hq
    rcases List.eq_nil_or_concat t with rfl | ⟨t', y, rfl⟩
    · rw [List.append_nil] at ht; exact absurd ht hqn
    · have h2 : q ++ t' = comps e.inst ++ comps (FS.dirname dst) := by
        have := congrArg List.dropLast ht
        rwa [List.concat_eq_append, ← List.append_assoc, List.dropLast_concat, List.dropLast_concat] at this
      by_cases hqd : q = comps e.inst ++ comps (FS.dirname dst)
      · rw [hqd]; exact ((isDirC_iff hl1 hno1).mp hdir).2
      · exact hre q ⟨t', h2⟩ hqd
  have hn1 : look f1 (comps e.inst ++ comps dst) = none := by
    rw [hex, if_neg, hx]
    rintro ⟨h, _⟩
    have := h.length_le
    rw [hD] at this; simp at this; omega
  refine ⟨f1.put (comps e.inst ++ comps dst) (.link src), ?_⟩
  unfold dosym seq
  have h1' : makedirs e (joinPath e.inst [FS.dirname dst]) fs = (f1, .ok ()) := h1
  rw [h1']
  dsimp only
  unfold catching call symlinkC
  rw [cs_join _ hf.abs, (lresolve_iff hl1 hno _).mpr ⟨rfl, hr⟩]
  dsimp only
  rw [hn1]
  rfl

example : look (dosym exEnv ['/', 'q'] ['/', 'b', 'i', 'n', '/', 's'] moveFS).1 [dB, dI, ['b', 'i', 'n'], ['s']] = some (.link ['/', 'q']) := by
  rw [dosym_exact exEnv moveFS (dosym exEnv ['/', 'q'] ['/', 'b', 'i', 'n', '/', 's'] moveFS).1 ['/', 'q'] ['/', 'b', 'i', 'n', '/', 's'] exEnv_fit
    (linkFree_of (by decide +kernel)) (by decide) rfl (eq_of_succeeds (by decide +kernel))]
  decide +kernel

end Pisi.Act
