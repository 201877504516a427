import Verif.Lemmas.ActionsCopy
import Verif.Props.ActionsMove

/-! # C157: copies of directories -/
namespace Pisi.Act
open Pisi.Path (joinPath joinStep lstripSlash)

/-- **C157**, in full: after a `copytree` that reports no error the tree is at the destination, or in the directory that is there,
under its own name; links are links, or if the caller wants that, what they lead to. -/
def CopytreeFull : Prop := ∀ (e : Env) (fs fs' : FS) (src dst b : Str) (sym : Bool), Sound fs → e.ignore = false →
  look fs (e.cs src) = some .dir → (comps src).getLast? = some b → basename src = b → (∀ c ∈ e.cs dst, Proper c) →
  look fs (e.cs dst).dropLast = some .dir →
  (look fs (e.cs dst) = none ∨ look fs (e.cs dst) = some .dir ∧ look fs (e.cs dst ++ [b]) = none) →
  ¬ e.cs src <+: e.cs dst → copytree e src dst sym fs = (fs', .ok ()) →
  Shown sym (e.cs src) (if look fs (e.cs dst) = none then e.cs dst else e.cs dst ++ [b]) fs fs'

theorem basename_strip_last {s b : Str} (hl : (comps s).getLast? = some b) (hp : Proper (basename (stripSlash s))) :
    basename (stripSlash s) = b := by
  have h1 := comps_headOf (stripSlash s)
  rw [comps_strip, comps_proper hp] at h1
  rw [h1] at hl
  simpa using hl

/-- **C157** at a free place: there is a copy, nothing else is different. -/
theorem copytree_free {e : Env} {fs : FS} {src dst : Str} {sym : Bool} (hs : Sound fs)
    (hdir : look fs (e.cs src) = some .dir) (hp : ∀ c ∈ e.cs dst, Proper c) (hfree : look fs (e.cs dst) = none)
    (hinto : look fs (e.cs dst).dropLast = some .dir) (hap : ¬ e.cs src <+: e.cs dst)
    (hl : sym = true ∨ ∀ r t, look fs (e.cs src ++ r) ≠ some (.link t)) (n : Nat)
    (hdep : ∀ r, look fs (e.cs src ++ r) ≠ none → r.length < n) :
    ∃ fs', copytreeN e (n + 1) src dst sym fs = (fs', .ok ()) ∧ Copied (e.cs src) (e.cs dst) fs fs' := by
  obtain ⟨fs', hrun, hc⟩ := shutilCopytree_copied e.cwd sym n src dst fs ⟨hs, hdir, hp, hfree, hinto, hap, hl, hdep⟩
  refine ⟨fs', ?_, hc⟩
  have hpS := proper_dotdot (proper_look hs.tidy (p := e.cs src) (by rw [hdir]; simp))
  have h1 := stat_reached hpS (hs.rooted _ (by rw [hdir]; simp)) (by rw [hdir]; simp)
  have h2 := stat_reached (proper_dotdot hp) (reached_of_dir hs.rooted hinto) (by rw [hfree]; simp)
  have h3 : isDirC fs (e.cs src) = true := by unfold isDirC; rw [h1.1, hdir]; simp
  have h4 : ¬ existsC fs (e.cs dst) = true := by unfold existsC; rw [h2.1, hfree]; simp
  unfold copytreeN
  rw [if_pos h3, if_neg h4]
  unfold catching
  rw [hrun]

/-- **C157** for trees without links, or with links that stay links, and a destination whose directory is there.

Missing: links to be followed; the directories on the way to the destination that have to be made. -/
theorem copytree_partial (e : Env) (fs : FS) (src dst b : Str) (sym : Bool) (hs : Sound fs)
    (hdir : look fs (e.cs src) = some .dir) (hb : (comps src).getLast? = some b) (hbp : Proper (basename (stripSlash src)))
    (hp : ∀ c ∈ e.cs dst, Proper c) (hinto : look fs (e.cs dst).dropLast = some .dir) (hd0 : dst ≠ [])
    (hfree : look fs (e.cs dst) = none ∨ look fs (e.cs dst) = some .dir ∧ look fs (e.cs dst ++ [b]) = none)
    (hap : ¬ e.cs src <+: e.cs dst)
    (hl : sym = true ∨ ∀ r t, look fs (e.cs src ++ r) ≠ some (.link t))
    (hdep : ∀ r, look fs (e.cs src ++ r) ≠ none → r.length + 2 < e.limit) :
    ∃ fs', copytree e src dst sym fs = (fs', .ok ()) ∧
      Copied (e.cs src) (if look fs (e.cs dst) = none then e.cs dst else e.cs dst ++ [b]) fs fs' := by
  have hlim := hdep [] (by rw [List.append_nil, hdir]; simp)
  obtain ⟨m, hm⟩ : ∃ m, e.limit = m + 2 := ⟨e.limit - 2, by simp at hlim; omega⟩
  unfold copytree
  rcases hfree with hf | ⟨hf, hfb⟩
  · rw [if_pos hf, hm]
    exact copytree_free hs hdir hp hf hinto hap hl (m + 1) (fun r hr => by have := hdep r hr; omega)
  · rw [if_neg (by rw [hf]; simp), hm]
    have hbb := basename_strip_last hb hbp
    have hcs : e.cs (joinPath dst [basename (stripSlash src)]) = e.cs dst ++ [b] := by
      unfold Env.cs
      rw [absComps_joinStep _ hd0, comps_proper hbp, hbb]
    rw [hbb] at hbp
    have hp' : ∀ c ∈ e.cs dst ++ [b], Proper c := by
      intro c hc
      simp only [List.mem_append, List.mem_singleton] at hc
      rcases hc with hc | rfl
      · exact hp c hc
      · exact hbp
    have := copytree_free (e := e) (dst := joinPath dst [basename (stripSlash src)]) (sym := true) hs hdir
      (by rw [hcs]; exact hp') (by rw [hcs]; exact hfb) (by rw [hcs]; simpa using hf)
      (by rw [hcs, List.prefix_concat_iff]; rintro (h | h); exacts [(by rw [h, hfb] at hdir; cases hdir), hap h]) (Or.inl rfl) m
      (fun r hr => by have := hdep r hr; omega)
    rw [hcs] at this
    obtain ⟨fs', h1, h2⟩ := this
    refine ⟨fs', ?_, h2⟩
    have hpS := proper_dotdot (proper_look hs.tidy (p := e.cs src) (by rw [hdir]; simp))
    have h3 := stat_reached hpS (hs.rooted _ (by rw [hdir]; simp)) (by rw [hdir]; simp)
    have h4 := stat_reached (proper_dotdot hp) (hs.rooted _ (by rw [hf]; simp)) (by rw [hf]; simp)
    have h5 : isDirC fs (e.cs src) = true := by unfold isDirC; rw [h3.1, hdir]; simp
    have h6 : existsC fs (e.cs dst) = true := by unfold existsC; rw [h4.1, hf]; simp
    have h7 : isDirC fs (e.cs dst) = true := by unfold isDirC; rw [h4.1, hf]; simp
    unfold copytreeN
    rw [if_pos h5, if_pos h6, if_pos h7]
    exact h1

/-! ## Failures -/

/-- `shutil.copytree` goes through without a failure exactly if every name does. -/
theorem collect_ok_iff (f : Str → Act) : ∀ (l : List Str) (b : Bool) (fs fs' : FS),
    collect f l b fs = (fs', .ok ()) ↔ b = false ∧ each f l fs = (fs', .ok ()) := by
  intro l
  induction l with
  | nil =>
    intro b fs fs'
    cases b <;> simp [collect, each, skip]
  | cons x l ih =>
    intro b fs fs'
    unfold collect
    cases hr : f x fs with
    | mk f1 r =>
      cases r with
      | ok _ =>
        simp only [each, seq, hr]
        exact ih b f1 fs'
      | error y =>
        simp only [each, seq, hr]
        constructor
        · intro h
          split at h
          · have := (ih true f1 fs').mp h
            exact absurd this.1 (by simp)
          · simp at h
        · rintro ⟨_, h⟩; simp at h

/-- What cannot be copied (`OSError`, `IOError`, `shutil.Error`) does not keep the rest from being copied, and is reported in the
end. -/
theorem collect_goes_on {f : Str → Act} {x : Str} {fs f1 : FS} {y : Err} (h : f x fs = (f1, .error y))
    (hy : y = .os ∨ y = .io ∨ y = .shutil) (l : List Str) (b : Bool) :
    collect f (x :: l) b fs = collect f l true f1 ∧ ∀ fs', collect f (x :: l) b fs ≠ (fs', .ok ()) := by
  have h1 : collect f (x :: l) b fs = collect f l true f1 := by
    rcases hy with rfl | rfl | rfl <;> simp [collect, h, isEnvErr]
  refine ⟨h1, fun fs' hc => ?_⟩
  rw [h1, collect_ok_iff] at hc
  exact absurd hc.1 (by simp)

/-! ## The path `shutil.move` compares -/

/-- `os.path.abspath` takes a name and the `..` after it away, a `..` at the root as well, and leaves the rest alone. -/
theorem normComps_rules : (∀ cs, dotdot ∉ cs → normComps cs = cs) ∧ (∀ cs, normComps (dotdot :: cs) = normComps cs) ∧
    ∀ a x b, x ≠ dotdot → normComps (a ++ x :: dotdot :: b) = normComps (a ++ b) := by
  refine ⟨?_, ?_, ?_⟩
  · intro cs h
    unfold normComps
    have key : ∀ (cs acc : List Str), dotdot ∉ cs →
        cs.foldl (fun acc c => if c = dotdot then acc.dropLast else acc ++ [c]) acc = acc ++ cs := by
      intro cs
      induction cs with
      | nil => intro acc _; simp
      | cons c cs ih =>
        intro acc h
        have hc : c ≠ dotdot := fun e => h (e ▸ List.mem_cons_self)
        rw [List.foldl_cons, if_neg hc, ih _ (fun e => h (List.mem_cons_of_mem _ e))]
        simp
    simpa using key cs [] h
  · intro cs; unfold normComps; simp
  · intro a x b hx
    unfold normComps
    rw [List.foldl_append, List.foldl_append, List.foldl_cons, List.foldl_cons, if_neg hx, if_pos rfl, List.dropLast_concat]

/-! ## Directories put into the package -/

/-- The copy of a directory. -/
theorem copy_tree {e : Env} {p dst : Str} {sym : Bool} {fs : FS} (hm : hasMagic p = false) (hb : basename p ≠ []) (hs : Sound fs)
    (hdir : look fs (e.cs p) = some .dir) (hp : ∀ c ∈ e.cs dst, Proper c) (hfree : look fs (e.cs dst) = none)
    (hinto : look fs (e.cs dst).dropLast = some .dir) (hap : ¬ e.cs p <+: e.cs dst)
    (hl : sym = true ∨ ∀ r t, look fs (e.cs p ++ r) ≠ some (.link t))
    (hdep : ∀ r, look fs (e.cs p ++ r) ≠ none → r.length + 1 < e.limit) :
    ∃ fs', copy e p dst sym fs = (fs', .ok ()) ∧ Copied (e.cs p) (e.cs dst) fs fs' := by
  have hpS := proper_dotdot (proper_look hs.tidy (p := e.cs p) (by rw [hdir]; simp))
  have hre := hs.rooted (e.cs p) (by rw [hdir]; simp)
  have h1 := stat_reached hpS hre (by rw [hdir]; simp)
  have h2 := (lstat_reached hpS hre).1
  have hlim := hdep [] (by rw [List.append_nil, hdir]; simp)
  obtain ⟨m, hm'⟩ : ∃ m, e.limit = m + 1 := ⟨e.limit - 1, by simp at hlim; omega⟩
  obtain ⟨fs', hrun, hc⟩ := copytree_free hs hdir hp hfree hinto hap hl m (fun r hr => by have := hdep r hr; omega)
  refine ⟨fs', ?_, hc⟩
  have hg : glob fs e.cwd p = [p] := by
    rw [glob_plain hm hb, if_pos]
    unfold lexistsC
    show (lstat fs (e.cs p)).isSome = true
    rw [h2, hdir]; rfl
  unfold copy
  rw [hg]
  have hone : copyOne e dst sym p fs = (fs', .ok ()) := by
    unfold copyOne
    dsimp only
    rw [h2, hdir]
    dsimp only
    have h3 : ¬ isFileC fs (e.cs p) = true := by unfold isFileC; rw [h1.1, hdir]; simp
    have h4 : isDirC fs (e.cs p) = true := by unfold isDirC; rw [h1.1, hdir]; simp
    rw [if_neg h3, if_pos h4]
    unfold copytree
    rw [hm']; exact hrun
  simp [each, seq, hone, skip]

/-- `insinto` puts a directory into the package as a whole; `fs1` is the file system with the destination directory in it. -/
theorem insinto_tree {e : Env} {src dst : Str} {sym : Bool} {fs fs1 : FS} (hf : e.Fit) (hd : NoUp dst)
    (hmk : makedirs e (joinPath e.inst [dst]) fs = (fs1, .ok ())) (hm : hasMagic src = false) (hb : Proper (basename src))
    (hs : Sound fs1) (hdir : look fs1 (e.cs src) = some .dir) (hD : look fs1 (comps e.inst ++ comps dst) = some .dir)
    (hfree : look fs1 (comps e.inst ++ comps dst ++ [basename src]) = none)
    (hap : ¬ e.cs src <+: comps e.inst ++ comps dst ++ [basename src])
    (hl : sym = true ∨ ∀ r t, look fs1 (e.cs src ++ r) ≠ some (.link t))
    (hdep : ∀ r, look fs1 (e.cs src ++ r) ≠ none → r.length + 1 < e.limit) :
    ∃ fs', insinto e dst src [] sym fs = (fs', .ok ()) ∧
      Copied (e.cs src) (comps e.inst ++ comps dst ++ [basename src]) fs1 fs' := by
  have hdest : e.cs (joinPath e.inst [joinPath dst [basename src]]) = comps e.inst ++ comps dst ++ [basename src] := by
    rw [cs_join _ hf.abs, comps_join1, comps_proper hb, List.append_assoc]
  have hpr : ∀ c ∈ comps e.inst ++ comps dst ++ [basename src], Proper c := by
    intro c hc
    simp only [List.mem_append, List.mem_singleton] at hc
    rcases hc with (hc | hc) | rfl
    · exact comps_good hf.noup c hc
    · exact comps_good hd c hc
    · exact hb
  obtain ⟨fs', hrun, hc⟩ := copy_tree (e := e) (dst := joinPath e.inst [joinPath dst [basename src]]) (sym := sym) hm hb.1 hs hdir
    (by rw [hdest]; exact hpr) (by rw [hdest]; exact hfree) (by rw [hdest]; simpa using hD) (by rw [hdest]; exact hap) hl hdep
  rw [hdest] at hc
  refine ⟨fs', ?_, hc⟩
  have hpS := proper_dotdot (proper_look hs.tidy (p := e.cs src) (by rw [hdir]; simp))
  have hre := hs.rooted (e.cs src) (by rw [hdir]; simp)
  have h1 := stat_reached hpS hre (by rw [hdir]; simp)
  have h2 := (lstat_reached hpS hre).1
  have hg : glob fs1 e.cwd src = [src] := by
    rw [glob_plain hm hb.1, if_pos]
    unfold lexistsC
    show (lstat fs1 (e.cs src)).isSome = true
    rw [h2, hdir]; rfl
  have hex : existsC fs1 (e.cs src) = true := by unfold existsC; rw [h1.1, hdir]; rfl
  unfold insinto
  simp only [seq, hmk, if_true, hg, each, hex, hrun, skip]

/-! ## Non-vacuity -/

/-- A directory of the sources with a directory, a file and a link in it, and a directory to copy it into. -/
def treeFS : FS := [([dB], .dir), ([dB, dI], .dir), ([dB, dS], .dir), ([dB, dS, nA1], .dir), ([dB, dS, nA1, nB], .file ['x']),
  ([dB, dS, nC], .link nB), ([dB, dS, nB], .file ['y'])]

theorem treeFS_sound : Sound treeFS := ⟨by decide, by decide, rooted_of (by decide)⟩

def treeEnv : Env := { inst := ['/', 'b', '/', 'i', 'n', 's', 't', 'a', 'l', 'l'], cwd := ['/', 'b'], ignore := false, limit := 9 }

/-- The source is a relative name, the destination a directory that is there. -/
example : ∃ fs', copytree treeEnv dS treeEnv.inst true treeFS = (fs', .ok ()) ∧ Copied [dB, dS] [dB, dI, dS] treeFS fs' := by
  have := copytree_partial treeEnv treeFS dS treeEnv.inst dS true treeFS_sound (by decide) (by decide) (by decide) (by decide)
    (by decide) (by decide) (by decide) (by decide) (Or.inl rfl) (by
      intro r hr
      change look treeFS ([dB, dS] ++ r) ≠ none at hr
      have : [dB, dS] ++ r ∈ [[], [dB], [dB, dI], [dB, dS], [dB, dS, nA1], [dB, dS, nA1, nB], [dB, dS, nC], [dB, dS, nB]] := by
        unfold look at hr
        split at hr
        · rename_i h; simp at h
        · obtain ⟨n, hn⟩ := Option.ne_none_iff_exists'.mp hr
          have := List.mem_map_of_mem (f := Prod.fst) (get_mem hn)
          exact List.mem_cons_of_mem _ this
      have hlen : ([dB, dS] ++ r).length ≤ 4 := by
        revert this; generalize [dB, dS] ++ r = z; revert z; decide
      have hlim : treeEnv.limit = 9 := rfl
      rw [hlim]
      simp at hlen
      omega)
  exact this

example : look (copytree treeEnv dS treeEnv.inst true treeFS).1 [dB, dI, dS, nA1, nB] = some (.file ['x']) := by decide +kernel

/-- A dead link to be followed: the rest is copied, and it is an error. -/
example : succeeds (shutilCopytree treeEnv.cwd false 9 dS ['q'] ([([dB, dS, ['z']], .link ['n'])] ++ treeFS)) = false ∧
    look (shutilCopytree treeEnv.cwd false 9 dS ['q'] ([([dB, dS, ['z']], .link ['n'])] ++ treeFS)).1 [dB, ['q'], nA1, nB] =
      some (.file ['x']) := by decide +kernel

/-- The full statement is false: into a directory that is there, links are copied as links whatever the caller says, the call of
itself at pisi/actionsapi/shelltools.py:156 forgets `sym`. -/
theorem copytree_refuted : ¬ CopytreeFull := by
  intro h
  have h1 := h treeEnv treeFS _ dS treeEnv.inst dS false treeFS_sound rfl (by decide) (by decide) (by decide) (by decide)
    (by decide) (by decide) (by decide) (eq_of_succeeds (r := copytree treeEnv dS treeEnv.inst false treeFS) (by decide +kernel)) [nC]
  revert h1
  decide +kernel

end Pisi.Act
