import Verif.Props.ActionsMan
import Verif.Lemmas.ActionsCopy

/-! # C160: newdoc and newman -/
namespace Pisi.Act
open Pisi.Path (joinPath joinStep lstripSlash)

/-- What the copy of a file is. -/
theorem copy_file_exact {e : Env} {p dst c : Str} {sym : Bool} {fs : FS} (hm : hasMagic p = false) (hb : basename p ≠ [])
    (hl : LinkFree fs) (hR : Rooted fs) (hd : dotdot ∉ e.cs dst) (hdp : dotdot ∉ e.cs p) (hc : look fs (e.cs p) = some (.file c))
    (hnd : look fs (e.cs dst) ≠ some .dir) (hrd : Reached fs (e.cs dst)) (hne : e.cs p ≠ e.cs dst) :
    copy e p dst sym fs = (fs.put (e.cs dst) (.file c), .ok ()) := by
  have hr : Reached fs (e.cs p) := hR _ (by rw [hc]; simp)
  have hls : lstat fs (e.cs p) = some (.file c) := (lstat_iff hl hdp _).mpr ⟨hr, hc⟩
  have hst : stat fs (e.cs p) = some (.file c) := (stat_iff hl hdp _).mpr ⟨hr, hc⟩
  have hg : glob fs e.cwd p = [p] := by
    rw [glob_plain hm hb, if_pos]
    unfold lexistsC
    show (lstat fs (e.cs p)).isSome = true
    rw [hls]; rfl
  have hif : isFileC fs (e.cs p) = true := by unfold isFileC; rw [hst]
  have hdir : ¬ isDirC fs (absComps e.cwd dst) = true := fun h => hnd ((isDirC_iff hl hd).mp h).2
  have hres : resolve fs (e.cs dst) = some (e.cs dst) := (resolve_iff hl hd _).mpr ⟨rfl, hrd⟩
  have hsame : sameFile fs (e.cs p) (e.cs dst) = false := by
    unfold sameFile
    rw [(resolve_iff hl hdp _).mpr ⟨rfl, hr⟩, hres]
    simp [hne]
  have hone : copyOne e dst sym p fs = (fs.put (e.cs dst) (.file c), .ok ()) := by
    unfold copyOne
    dsimp only
    rw [hls]
    dsimp only
    rw [if_pos hif]
    have h3 : shutilCopy e.cwd p dst fs = (fs.put (e.cs dst) (.file c), .ok ()) := by
      unfold shutilCopy
      dsimp only
      rw [if_neg hdir]
      have h4 : copyFile (e.cs p) (e.cs dst) fs = .ok (fs.put (e.cs dst) (.file c)) := by
        unfold copyFile
        rw [hsame, hst]
        simp only [Bool.false_eq_true, if_false]
        unfold writeC
        rw [hres]
        dsimp only
        split
        · rename_i h; exact absurd h hnd
        · rfl
      unfold call
      have h5 : copyFile (absComps e.cwd p) (absComps e.cwd dst) fs = .ok (fs.put (e.cs dst) (.file c)) := h4
      rw [h5]
    unfold catching
    rw [h3]
  unfold copy
  rw [hg]
  show seq _ skip fs = _
  unfold seq
  rw [hone]
  rfl

/-- A file cannot be given the name it has: `shutil.Error` is not caught. -/
theorem copy_same {e : Env} {p dst c : Str} {sym : Bool} {fs : FS} (hm : hasMagic p = false) (hb : basename p ≠ [])
    (hl : LinkFree fs) (hR : Rooted fs) (hd : dotdot ∉ e.cs dst) (hc : look fs (e.cs p) = some (.file c)) (he : e.cs p = e.cs dst) :
    copy e p dst sym fs = (fs, .error .shutil) := by
  have hdp : dotdot ∉ e.cs p := by rw [he]; exact hd
  have hr : Reached fs (e.cs p) := hR _ (by rw [hc]; simp)
  have hls : lstat fs (e.cs p) = some (.file c) := (lstat_iff hl hdp _).mpr ⟨hr, hc⟩
  have hst : stat fs (e.cs p) = some (.file c) := (stat_iff hl hdp _).mpr ⟨hr, hc⟩
  have hg : glob fs e.cwd p = [p] := by
    rw [glob_plain hm hb, if_pos]
    unfold lexistsC
    show (lstat fs (e.cs p)).isSome = true
    rw [hls]; rfl
  have hif : isFileC fs (e.cs p) = true := by unfold isFileC; rw [hst]
  have hdir : ¬ isDirC fs (absComps e.cwd dst) = true := fun h => by
    have := ((isDirC_iff hl hd).mp h).2
    rw [← he, hc] at this; cases this
  have hsame : sameFile fs (e.cs p) (e.cs dst) = true := by
    unfold sameFile existsC
    rw [← he, hst]; simp
  have hone : copyOne e dst sym p fs = (fs, .error .shutil) := by
    unfold copyOne
    dsimp only
    rw [hls]
    dsimp only
    rw [if_pos hif]
    have h3 : shutilCopy e.cwd p dst fs = (fs, .error .shutil) := by
      unfold shutilCopy
      dsimp only
      rw [if_neg hdir]
      have h5 : copyFile (absComps e.cwd p) (absComps e.cwd dst) fs = .error .shutil := by
        have h6 : sameFile fs (absComps e.cwd p) (absComps e.cwd dst) = true := hsame
        unfold copyFile
        rw [if_pos h6]
      unfold call
      rw [h5]
    unfold catching
    rw [h3]
    rfl
  unfold copy
  rw [hg]
  show seq _ skip fs = _
  unfold seq
  rw [hone]

/-- The place of something in the documentation of the package. -/
def docLoc (e : Env) (tag sub : Str) : Loc :=
  comps e.inst ++ [['u', 's', 'r'], ['s', 'h', 'a', 'r', 'e'], ['d', 'o', 'c']] ++ comps tag ++ comps sub

/-- **C160**, in full: after `newdoc` the file is in the package under its new name. -/
def NewdocFull : Prop := ∀ (e : Env) (fs fs' : FS) (sd tag src dst c : Str), e.Fit → Tidy fs → LinkFree fs → Rooted fs → isAbs e.cwd = true →
  NoUp e.cwd → isAbs sd = true → NoUp sd → NoUp tag → NoUp dst → Proper (basename dst) → e.ignore = false → hasMagic src = false →
  basename src ≠ [] → Clean dst → Clean sd → Clean tag → dotdot ∉ e.cs src → look fs (e.cs src) = some (.file c) →
  e.cs src ≠ comps e.cwd ++ [basename dst] → look fs (docLoc e tag dst) ≠ some .dir →
  newdoc e sd tag src dst fs = (fs', .ok ()) → look fs' (docLoc e tag dst) = some (.file c)

/-- **C160** for `newdoc` in the source directory: the file is in the package under its new name, and in the current directory too. -/
theorem newdoc_partial (e : Env) (fs fs' : FS) (sd tag src dst c : Str) (hf : e.Fit) (ht : Tidy fs) (hl : LinkFree fs) (hR : Rooted fs)
    (hcu : NoUp e.cwd) (ha : isAbs sd = true) (hsd : comps sd = comps e.cwd) (htag : NoUp tag) (hdst : NoUp dst)
    (hb : Proper (basename dst)) (hi : e.ignore = false) (hm : hasMagic src = false) (hsb : basename src ≠ []) (hsu : dotdot ∉ e.cs src)
    (hmsd : hasMagic sd = false) (hmb : hasMagic (basename dst) = false) (hq : CleanQuoted (joinPath sd [basename dst]))
    (hdc : Clean (joinPath e.inst [docDir, tag, FS.dirname dst]))
    (hc : look fs (e.cs src) = some (.file c)) (hne : e.cs src ≠ comps e.cwd ++ [basename dst])
    (hcd : look fs (comps e.cwd) = some .dir) (hnd : look fs (comps e.cwd ++ [basename dst]) ≠ some .dir)
    (hD : look fs (docLoc e tag (FS.dirname dst)) = some .dir ∨ look fs (docLoc e tag (FS.dirname dst)) = none)
    (hout : ¬ docLoc e tag (FS.dirname dst) <+: comps e.cwd ++ [basename dst]) (htgt : look fs (docLoc e tag dst) ≠ some .dir)
    (h : newdoc e sd tag src dst fs = (fs', .ok ())) :
    look fs' (docLoc e tag dst) = some (.file c) ∧ look fs' (comps e.cwd ++ [basename dst]) = some (.file c) ∧
      ∀ q, q ≠ docLoc e tag dst → q ≠ comps e.cwd ++ [basename dst] → (¬ q <+: docLoc e tag (FS.dirname dst)) → look fs' q = look fs q := by
  have hcw : e.cs (basename dst) = comps e.cwd ++ [basename dst] := by
    unfold Env.cs absComps
    rw [if_neg (by simp [isAbs_noslash (basename_noslash dst)]), comps_proper hb]
  have hN0 : comps e.cwd ++ [basename dst] ≠ [] := by simp
  have hNd : dotdot ∉ comps e.cwd ++ [basename dst] := by
    intro hh
    rcases List.mem_append.mp hh with hh | hh
    · exact hcu hh
    · simp only [List.mem_singleton] at hh; exact hb.2.2.1 hh.symm
  have hrN : Reached fs (comps e.cwd ++ [basename dst]) := reached_sub (hR _ (by rw [hcd]; simp)) hcd
  have hcopy : copy e src (basename dst) true fs = (fs.put (comps e.cwd ++ [basename dst]) (.file c), .ok ()) := by
    have := copy_file_exact (e := e) (p := src) (dst := basename dst) (c := c) (sym := true) (fs := fs) hm hsb hl hR (by rw [hcw]; exact hNd)
      hsu hc (by rw [hcw]; exact hnd) (by rw [hcw]; exact hrN) (by rw [hcw]; exact hne)
    rw [hcw] at this; exact this
  generalize hg : fs.put (comps e.cwd ++ [basename dst]) (.file c) = g at hcopy
  have hlg : LinkFree g := by rw [← hg]; exact linkFree_put hl _ (by simp)
  have hRg : Rooted g := by rw [← hg]; exact rooted_file hR hN0 hrN hnd
  have htg : Tidy g := by
    rw [← hg]
    refine tidy_put' ht ?_ _
    intro x hx
    rcases List.mem_append.mp hx with hx | hx
    · exact comps_good hcu x hx
    · simp only [List.mem_singleton] at hx; subst hx; exact hb
  have hlook : ∀ q, look g q = if q = comps e.cwd ++ [basename dst] then some (.file c) else look fs q := by
    intro q; rw [← hg, look_put hN0]
  unfold newdoc at h
  obtain ⟨g', h1, h⟩ := seq_ok h
  rw [hcopy] at h1
  simp only [Prod.mk.injEq, and_true] at h1
  subst h1
  -- the directory
  have hjoin : joinPath e.inst [docDir, tag, FS.dirname dst] = joinPath (joinPath e.inst [docDir, tag]) [FS.dirname dst] := rfl
  have hab2 : isAbs (joinPath e.inst [docDir, tag]) = true := isAbs_join2 _ _ hf.abs
  have hab : isAbs (joinPath e.inst [docDir, tag, FS.dirname dst]) = true := by rw [hjoin]; exact isAbs_join1 _ hab2
  have hdoc : comps docDir = [['u', 's', 'r'], ['s', 'h', 'a', 'r', 'e'], ['d', 'o', 'c']] := by decide
  have hcomps : comps (joinPath e.inst [docDir, tag, FS.dirname dst]) = docLoc e tag (FS.dirname dst) := by
    rw [hjoin, comps_join1, comps_join2, hdoc]; rfl
  have hcs : e.cs (joinPath e.inst [docDir, tag, FS.dirname dst]) = docLoc e tag (FS.dirname dst) := by
    unfold Env.cs absComps; rw [if_pos hab, hcomps]
  have hdn : NoUp (FS.dirname dst) := by
    unfold NoUp
    intro hh
    exact hdst (by rw [comps_headOf dst, ← comps_dirname]; exact List.mem_append_left _ hh)
  have hno : NoUp (joinPath e.inst [docDir, tag, FS.dirname dst]) := by
    unfold NoUp
    rw [hcomps]
    unfold docLoc
    simp only [List.mem_append, not_or]
    exact ⟨⟨⟨hf.noup, by decide⟩, htag⟩, hdn⟩
  have hloc : docLoc e tag dst = docLoc e tag (FS.dirname dst) ++ [basename dst] := by
    unfold docLoc
    rw [comps_headOf dst, comps_proper hb, ← comps_dirname]; simp
  have hdd : dotdot ∉ e.cs (joinPath e.inst [docDir, tag, FS.dirname dst]) := by rw [hcs, ← hcomps]; exact hno
  -- the run
  have hrun := h
  unfold readableInsinto at hrun
  rw [if_neg (by simp [hdc.1])] at hrun
  obtain ⟨fs1, hmk, _⟩ := seq_ok hrun
  obtain ⟨hl1, hex⟩ := makedirs_exact hlg hdd hi hmk
  have hre := makedirs_reached hlg hdd hi hmk
  have hDN : docLoc e tag (FS.dirname dst) ≠ comps e.cwd ++ [basename dst] := fun hh => hout (by rw [hh]; exact List.prefix_rfl)
  have hdir1 : look fs1 (docLoc e tag (FS.dirname dst)) = some .dir := by
    rw [hex, hcs, hlook, if_neg hDN]
    rcases hD with hd | hd
    · rw [if_neg (by simp [hd])]; exact hd
    · rw [if_pos ⟨List.prefix_rfl, hd⟩]
  have hsrcs : e.cs (joinPath sd [basename dst]) = comps e.cwd ++ [basename dst] := by
    rw [cs_join _ ha, hsd, comps_proper hb]
  have hN1 : look fs1 (comps e.cwd ++ [basename dst]) = some (.file c) := by
    rw [hex, hlook, if_pos rfl, if_neg (by simp)]
  have hR1 := rooted_makedirs hRg hre hex
  have hsdn : sd ≠ [] := by intro hh; rw [hh] at ha; cases ha
  have hbn : basename (joinPath sd [basename dst]) = basename dst := by
    rw [basename_join1 hsdn]
    have := basename_osJoin (a := []) (basename_noslash dst)
    unfold osJoin at this
    rw [isAbs_noslash (basename_noslash dst)] at this
    simpa using this
  have hgl : glob fs1 e.cwd (joinPath sd [basename dst]) = [joinPath sd [basename dst]] := by
    rw [glob_plain (hasMagic_join1 hmsd hmb) (by rw [hbn]; exact hb.1), if_pos]
    unfold lexistsC
    have : lstat fs1 (e.cs (joinPath sd [basename dst])) = some (.file c) := by
      rw [hsrcs]
      exact (lstat_iff hl1 hNd _).mpr ⟨hR1 _ (by rw [hN1]; simp), hN1⟩
    show (lstat fs1 (e.cs (joinPath sd [basename dst]))).isSome = true
    rw [this]; rfl
  have hbu : NoUp (basename dst) := by
    unfold NoUp; rw [comps_proper hb]; intro hh
    simp only [List.mem_singleton] at hh; exact hb.2.2.1 hh.symm
  obtain ⟨f2, k1, k2, k3⟩ := readable_partial e g fs1 sd _ (basename dst) htg hlg hRg ha hab (by unfold NoUp; rw [hsd]; exact hcu) hno hbu hi hdc hmk
    (by rw [hcs]; exact (isDirC_iff hl1 (by rw [← hcs]; exact hdd)).mpr ⟨by rw [← hcs]; exact hre, hdir1⟩)
    (by rw [hgl]; intro p hp; simp only [List.mem_singleton] at hp; subst hp; exact hq)
    (by
      rw [hgl]; intro p hp; simp only [List.mem_singleton] at hp; subst hp
      rw [hbn, hsrcs, hcs]
      refine ⟨hb, hout, ?_⟩
      rw [← hloc, hex, hlook]
      intro hh
      by_cases hx : docLoc e tag dst = comps e.cwd ++ [basename dst]
      · rw [if_pos hx, if_neg (by simp)] at hh; cases hh
      · rw [if_neg hx] at hh
        split at hh
        · rename_i hy
          rw [hcs, hloc] at hy
          have := hy.1.length_le
          simp at this
          omega
        · exact htgt hh)
    (by rw [hgl]; simp)
  rw [h] at k1
  simp only [Prod.mk.injEq, and_true] at k1
  subst k1
  rw [hgl] at k2 k3
  have hk2 := k2 _ List.mem_cons_self c (by rw [hsrcs]; exact hN1)
  rw [hbn, hcs, ← hloc] at hk2
  refine ⟨hk2, ?_, ?_⟩
  · by_cases hx : comps e.cwd ++ [basename dst] = docLoc e tag dst
    · rw [hx]; exact hk2
    · rw [k3 _ (by intro p hp; simp only [List.mem_singleton] at hp; subst hp; rw [hbn, hcs, ← hloc]; exact hx), hN1]
  · intro q h1 h2 h3
    rw [k3 _ (by intro p hp; simp only [List.mem_singleton] at hp; subst hp; rw [hbn, hcs, ← hloc]; exact h1), hex, hcs, if_neg (fun hh => h3 hh.1),
      hlook, if_neg h2]

/-- **C160** for `newman`, where there is no difference between the directories: the page is in the directory of its section. -/
theorem newman_partial (e : Env) (fs fs' : FS) (src b sec c : Str) (hf : e.Fit) (hl : LinkFree fs) (hR : Rooted fs)
    (hcu : NoUp e.cwd) (hb : Proper (b ++ '.' :: sec)) (hs : '.' ∉ sec) (hbc : Clean (b ++ '.' :: sec)) (hbh : ¬ b.head? = some '-')
    (hi : e.ignore = false) (hm : hasMagic src = false) (hsb : basename src ≠ []) (hsu : dotdot ∉ e.cs src)
    (hmb : hasMagic (b ++ '.' :: sec) = false) (hdc : Clean (sectionDir e sec))
    (hc : look fs (e.cs src) = some (.file c)) (hne : e.cs src ≠ comps e.cwd ++ [b ++ '.' :: sec])
    (hcd : look fs (comps e.cwd) = some .dir) (hnd : look fs (comps e.cwd ++ [b ++ '.' :: sec]) ≠ some .dir)
    (hD : look fs (manLoc e) = some .dir ∨ look fs (manLoc e) = none)
    (hout : ¬ manLoc e <+: comps e.cwd ++ [b ++ '.' :: sec]) (hsec : ∀ x, look fs (manLoc e ++ [['m', 'a', 'n'] ++ sec]) ≠ some (.file x))
    (htgt : look fs (manLoc e ++ [['m', 'a', 'n'] ++ sec, b ++ '.' :: sec]) ≠ some .dir)
    (h : newman e src (b ++ '.' :: sec) fs = (fs', .ok ())) :
    look fs' (manLoc e ++ [['m', 'a', 'n'] ++ sec, b ++ '.' :: sec]) = some (.file c) := by
  have hbn : basename (b ++ '.' :: sec) = b ++ '.' :: sec := by
    have := basename_osJoin (a := []) hb.2.2.2
    unfold osJoin at this
    rw [isAbs_noslash hb.2.2.2] at this
    simpa using this
  have hcw : e.cs (b ++ '.' :: sec) = comps e.cwd ++ [b ++ '.' :: sec] := by
    unfold Env.cs absComps
    rw [if_neg (by simp [isAbs_noslash hb.2.2.2]), comps_proper hb]
  have hN0 : comps e.cwd ++ [b ++ '.' :: sec] ≠ [] := by simp
  have hNd : dotdot ∉ comps e.cwd ++ [b ++ '.' :: sec] := by
    intro hh
    rcases List.mem_append.mp hh with hh | hh
    · exact hcu hh
    · simp only [List.mem_singleton] at hh; exact hb.2.2.1 hh.symm
  have hrN : Reached fs (comps e.cwd ++ [b ++ '.' :: sec]) := reached_sub (hR _ (by rw [hcd]; simp)) hcd
  have hcopy : copy e src (b ++ '.' :: sec) true fs = (fs.put (comps e.cwd ++ [b ++ '.' :: sec]) (.file c), .ok ()) := by
    have := copy_file_exact (e := e) (p := src) (dst := b ++ '.' :: sec) (c := c) (sym := true) (fs := fs) hm hsb hl hR (by rw [hcw]; exact hNd)
      hsu hc (by rw [hcw]; exact hnd) (by rw [hcw]; exact hrN) (by rw [hcw]; exact hne)
    rw [hcw] at this; exact this
  generalize hg : fs.put (comps e.cwd ++ [b ++ '.' :: sec]) (.file c) = g at hcopy
  have hlg : LinkFree g := by rw [← hg]; exact linkFree_put hl _ (by simp)
  have hRg : Rooted g := by rw [← hg]; exact rooted_file hR hN0 hrN hnd
  have hlook : ∀ q, look g q = if q = comps e.cwd ++ [b ++ '.' :: sec] then some (.file c) else look fs q := by
    intro q; rw [← hg, look_put hN0]
  have hoth : ∀ q, manLoc e <+: q → look g q = look fs q := fun q hq => by
    rw [hlook, if_neg]; intro hh; rw [hh] at hq; exact hout hq
  unfold newman at h
  obtain ⟨g', h1, h⟩ := seq_ok h
  rw [hcopy] at h1
  simp only [Prod.mk.injEq, and_true] at h1
  subst h1
  have hrun := h
  unfold doman at hrun
  obtain ⟨fs1, hmk, _⟩ := seq_ok hrun
  obtain ⟨hl1, hR1, _, hex⟩ := doman_begin hf hlg hRg hi hmk
  have hN1 : look fs1 (comps e.cwd ++ [b ++ '.' :: sec]) = some (.file c) := by
    rw [hex, hlook, if_pos rfl, if_neg (by simp)]
  have hgl : glob fs1 e.cwd (b ++ '.' :: sec) = [b ++ '.' :: sec] := by
    rw [glob_plain hmb (by rw [hbn]; exact hb.1), if_pos]
    unfold lexistsC
    have : lstat fs1 (e.cs (b ++ '.' :: sec)) = some (.file c) := by
      rw [hcw]
      exact (lstat_iff hl1 hNd _).mpr ⟨hR1 _ (by rw [hN1]; simp), hN1⟩
    show (lstat fs1 (e.cs (b ++ '.' :: sec))).isSome = true
    rw [this]; rfl
  have hlong : ∀ q : Loc, q ≠ [] → look fs1 (manLoc e ++ q) = look fs (manLoc e ++ q) := by
    intro q hq
    rw [hex, if_neg, hoth _ (List.prefix_append _ _)]
    rintro ⟨hh, _⟩
    have := hh.length_le
    rw [List.length_append] at this
    have := List.length_pos_iff.mpr hq
    omega
  have := (doman_partial e g fs1 fs' (b ++ '.' :: sec) hf hlg hRg hi hmk (by rw [hoth _ List.prefix_rfl]; exact hD) h (by
      rw [hgl]
      intro p hp
      simp only [List.mem_singleton] at hp
      subst hp
      rw [hbn, hcw]
      refine ⟨hbc, ?_, hb, hNd, hout, b, sec, rfl, hs, hdc, ?_, ?_⟩
      · cases b with
        | nil => simp
        | cons y ys => simpa using hbh
      · rw [hlong _ (by simp)]; exact hsec
      · rw [hlong _ (by simp)]; exact htgt) (by rw [hgl]; simp)).1 (b ++ '.' :: sec) (by rw [hgl]; simp) b sec c hbn hs (by rw [hcw]; exact hN1)
  rw [hbn] at this
  exact this

/-! ## Cases -/

/-- The script has changed into a directory of the source. -/
def subEnv : Env := { exEnv with cwd := ['/', 'b', '/', 's', 'r', 'c', '/', 'd'] }
def newFS : FS := dirsFS ++ [([dB, dS, ['d']], .dir), ([dB, dS, ['d'], ['a']], .file ['x'])]
def newFS' : FS := dirsFS ++ [([dB, dS, ['a']], .file ['x'])]

theorem subEnv_fit : subEnv.Fit := ⟨by decide, by decide, by decide, by decide⟩

/-- Not so in full: after a change of the directory nothing is put into the package, and nothing is said. -/
theorem newdoc_refuted : ¬ NewdocFull := by
  intro h
  have := h subEnv newFS (newdoc subEnv exSd ['t'] ['a'] ['b'] newFS).1 exSd ['t'] ['a'] ['b'] ['x'] subEnv_fit (by decide +kernel)
    (linkFree_of (by decide +kernel)) (rooted_of (by decide +kernel)) (by decide) (by decide) (by decide) (by decide) (by decide) (by decide)
    (by decide) rfl (by decide) (by decide) (by decide) (by decide) (by decide) (by decide) (by decide +kernel) (by decide) (by decide +kernel)
    (eq_of_succeeds (by decide +kernel))
  revert this
  decide +kernel

/-- A case of `newdoc_partial`. -/
example : look (newdoc exEnv exSd ['t'] ['a'] ['u', '/', 'b'] newFS').1 (docLoc exEnv ['t'] ['u', '/', 'b']) = some (.file ['x']) :=
  (newdoc_partial exEnv newFS' (newdoc exEnv exSd ['t'] ['a'] ['u', '/', 'b'] newFS').1 exSd ['t'] ['a'] ['u', '/', 'b'] ['x'] exEnv_fit
    (by decide +kernel) (linkFree_of (by decide +kernel)) (rooted_of (by decide +kernel)) (by decide) (by decide) (by decide) (by decide) (by decide)
    (by decide) rfl (by decide) (by decide) (by decide) (by decide) (by decide) (by decide) (by decide) (by decide +kernel) (by decide)
    (by decide +kernel) (by decide +kernel) (by decide +kernel) (by decide +kernel) (by decide +kernel) (eq_of_succeeds (by decide +kernel))).1

/-- A case of `newman_partial`. -/
example : look (newman exEnv ['a'] ['m', '.', '1'] newFS').1 (manPre ++ [nM1]) = some (.file ['x']) :=
  newman_partial exEnv newFS' (newman exEnv ['a'] ['m', '.', '1'] newFS').1 ['a'] ['m'] ['1'] ['x'] exEnv_fit
    (linkFree_of (by decide +kernel)) (rooted_of (by decide +kernel)) (by decide) (by decide) (by decide) (by decide) (by decide)
    rfl (by decide) (by decide) (by decide) (by decide) (by decide) (by decide +kernel) (by decide)
    (by decide +kernel) (by decide +kernel) (by decide +kernel) (by decide +kernel)
    (by
      have : look newFS' (manLoc exEnv ++ [['m', 'a', 'n'] ++ ['1']]) = none := by decide +kernel
      rw [this]; simp) (by decide +kernel) (eq_of_succeeds (by decide +kernel))

/-- A case of `copy_same`. -/
example : copy exEnv ['a'] ['.', '/', 'a'] true newFS' = (newFS', .error .shutil) :=
  copy_same (c := ['x']) (by decide) (by decide) (linkFree_of (by decide +kernel)) (rooted_of (by decide +kernel)) (by decide) (by decide +kernel) (by decide)

end Pisi.Act
