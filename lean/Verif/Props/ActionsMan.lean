import Verif.Model.ActionsMan
import Verif.Props.ActionsInstall

/-! # C158–C160: manual pages, HTML files, files under a new name -/
namespace Pisi.Act
open Pisi.Path (joinPath joinStep lstripSlash)

/-- The words of a command line without quotes. -/
theorem plain_words {p d : Str} (hp : Clean p) (hd : Clean d) : shWords (squeeze (plainCmd p d)) =
    some [['i', 'n', 's', 't', 'a', 'l', 'l'], ['-', 'm', '0', '6', '4', '4'], p, d] := by
  have hsq : squeeze (plainCmd p d) = plainCmd p d := by
    apply squeeze_same
    · unfold plainCmd
      refine clean_single _ (by decide) (clean_single _ (by decide) (clean_single _ hp ?_))
      exact single_noblank _ fun c hc => (hd.2 c hc).1
    · have h1 : plainCmd p d = (wInstall ++ ' ' :: (wRead ++ ' ' :: (p ++ [' ']))) ++ d := by simp [plainCmd]
      rw [h1]; exact last_clean hd _
  rw [hsq]
  unfold plainCmd
  rw [words_cons (by decide), words_cons (by decide), words_cons hp, words_last hd]
  rfl

theorem plain_run {e : Env} {p d : Str} (hp : Clean p) (hd : Clean d) (g : FS) :
    shell e (squeeze (plainCmd p d)) g = (installArgs e [p, d] g, .ok ()) := by
  unfold shell
  rw [plain_words hp hd]
  dsimp only
  rw [if_pos ⟨rfl, rfl⟩]

theorem reached_sub {f : FS} {D : Loc} {x : Str} (hr : Reached f D) (hd : look f D = some .dir) : Reached f (D ++ [x]) := by
  intro q hq hqn
  rw [List.prefix_concat_iff] at hq
  rcases hq with h | h
  · exact absurd h hqn
  · by_cases he : q = D
    · rw [he]; exact hd
    · exact hr q h he

/-- One file is put into a directory. -/
theorem install_put {e : Env} {f : FS} {p d c : Str} (hl : LinkFree f) (hR : Rooted f) (hp : ¬ p.head? = some '-')
    (hda : isAbs d = true) (hdd : dotdot ∉ e.cs d) (hpd : dotdot ∉ e.cs p) (hb : Proper (basename p))
    (hr : Reached f (e.cs d)) (hdir : look f (e.cs d) = some .dir) (hne : e.cs p ≠ e.cs d ++ [basename p])
    (hnd : look f (e.cs d ++ [basename p]) ≠ some .dir) (hc : look f (e.cs p) = some (.file c)) :
    installArgs e [p, d] f = f.put (e.cs d ++ [basename p]) (.file c) := by
  have hT : e.cs (osJoin d (basename p)) = e.cs d ++ [basename p] := by
    unfold Env.cs
    rw [absComps_osJoin (isAbs_noslash (basename_noslash p)), comps_proper hb]
  have hTd : dotdot ∉ e.cs d ++ [basename p] := by
    intro h
    rcases List.mem_append.mp h with h | h
    · exact hdd h
    · simp only [List.mem_singleton] at h; exact hb.2.2.1 h.symm
  rw [installArgs_two hp hda ((isDirC_iff hl hdd).mpr ⟨hr, hdir⟩), hT]
  exact installFile_exact hl hpd hTd (hR _ (by rw [hc]; simp)) (reached_sub hr hdir) hc hnd hne

/-- A file that is replaced or new leaves the file system a tree. -/
theorem rooted_file {f : FS} {T : Loc} {c : Str} (hR : Rooted f) (hT : T ≠ []) (hr : Reached f T) (hnd : look f T ≠ some .dir) :
    Rooted (f.put T (.file c)) := by
  intro q hq r hr' hrn
  rw [look_put hT] at hq ⊢
  by_cases hqT : q = T
  · subst hqT
    rw [if_neg hrn]; exact hr r hr' hrn
  · rw [if_neg hqT] at hq
    have := hR q hq r hr' hrn
    rw [if_neg, this]
    rintro rfl; exact hnd this

/-! ## C158: doman -/

/-- The directory of the manual pages in the package. -/
def manLoc (e : Env) : Loc := comps e.inst ++ [['u', 's', 'r'], ['s', 'h', 'a', 'r', 'e'], ['m', 'a', 'n']]

/-- **C158**, in full: after a `doman` that reports no error every file that matches, `x.n`, is in the directory `mann`. -/
def DomanFull : Prop := ∀ (e : Env) (fs fs1 fs' : FS) (s : Str), e.Fit → Tidy fs → LinkFree fs → Rooted fs → e.ignore = false →
  makedirs e (joinPath e.inst [manDir]) fs = (fs1, .ok ()) → doman e [s] fs = (fs', .ok ()) →
  (glob fs1 e.cwd s).Pairwise (fun p q => basename p ≠ basename q) →
  ∀ p ∈ glob fs1 e.cwd s, ∀ b sec c, basename p = b ++ '.' :: sec → Proper (basename p) → '.' ∉ sec → dotdot ∉ e.cs p →
    ¬ manLoc e <+: e.cs p → (∀ x, look fs (manLoc e ++ [['m', 'a', 'n'] ++ sec]) ≠ some (.file x)) →
    look fs (manLoc e ++ [['m', 'a', 'n'] ++ sec, basename p]) ≠ some .dir → look fs (e.cs p) = some (.file c) →
    look fs' (manLoc e ++ [['m', 'a', 'n'] ++ sec, basename p]) = some (.file c)

theorem takeWhile_all {α : Type} {P : α → Bool} {l : List α} (h : ∀ x ∈ l, P x = true) : l.takeWhile P = l := by
  induction l with
  | nil => rfl
  | cons a l ih =>
    rw [List.takeWhile_cons, if_pos (h a List.mem_cons_self), ih fun x hx => h x (List.mem_cons_of_mem _ hx)]

/-- The section is what comes after the last dot. -/
theorem afterDot_last {a sec : Str} (h : '.' ∉ sec) : afterDot (a ++ '.' :: sec) = some sec := by
  unfold afterDot
  rw [if_pos (by simp)]
  congr 1
  rw [List.reverse_append, List.reverse_cons, List.append_assoc, List.singleton_append]
  have h1 : ∀ x ∈ sec.reverse, decide (x ≠ '.') = true := by
    intro x hx
    have : x ≠ '.' := fun e => h (e ▸ List.mem_reverse.mp hx)
    simp [this]
  rw [List.takeWhile_append_of_pos h1]
  simp

/-- A compressed page is put into the directory `mangz`, whatever its section is. -/
theorem afterDot_gz (a : Str) : afterDot (a ++ ['.', 'g', 'z']) = some ['g', 'z'] := afterDot_last (by decide)

theorem cs_section {e : Env} (hf : e.Fit) {sec : Str} (hs : '/' ∉ sec) :
    e.cs (sectionDir e sec) = manLoc e ++ [['m', 'a', 'n'] ++ sec] := by
  unfold sectionDir
  rw [cs_join _ (isAbs_join1 _ hf.abs), comps_join1]
  have h1 : comps manDir = [['u', 's', 'r'], ['s', 'h', 'a', 'r', 'e'], ['m', 'a', 'n']] := by decide
  have h2 : comps (['/', 'm', 'a', 'n'] ++ sec) = [['m', 'a', 'n'] ++ sec] := by
    show comps ('/' :: (['m', 'a', 'n'] ++ sec)) = _
    rw [comps_slash, comps_noslash (by simp [hs]), if_pos (by simp)]
  rw [h1, h2]; rfl

theorem pathName_split (p : Str) : ∃ a, p = a ++ basename p := ⟨headOf p, (headOf_append p).symm⟩

/-- The loop over the pages. -/
theorem domanPages_ok (e : Env) (hf : e.Fit) (hi : e.ignore = false) : ∀ (ps : List Str) (prev : Option Str) (f f' : FS) (v : Option Str),
    LinkFree f → Rooted f → look f (manLoc e) = some .dir →
    (∀ p ∈ ps, Clean p ∧ (¬ p.head? = some '-') ∧ Proper (basename p) ∧ dotdot ∉ e.cs p ∧ ¬ manLoc e <+: e.cs p ∧
      ∃ b sec, basename p = b ++ '.' :: sec ∧ '.' ∉ sec ∧ Clean (sectionDir e sec) ∧
        (∀ x, look f (manLoc e ++ [['m', 'a', 'n'] ++ sec]) ≠ some (.file x)) ∧
        look f (manLoc e ++ [['m', 'a', 'n'] ++ sec, basename p]) ≠ some .dir) →
    ps.Pairwise (fun p q => basename p ≠ basename q) → domanPages e prev ps f = (f', .ok v) →
    LinkFree f' ∧ Rooted f' ∧
    (∀ p ∈ ps, ∀ b sec c, basename p = b ++ '.' :: sec → '.' ∉ sec → look f (e.cs p) = some (.file c) →
      look f' (manLoc e ++ [['m', 'a', 'n'] ++ sec, basename p]) = some (.file c)) ∧
    (∀ q, look f q ≠ none → (∀ p ∈ ps, ∀ x, q ≠ manLoc e ++ [x, basename p]) → look f' q = look f q) ∧
    ∀ q, ¬ manLoc e <+: q → look f' q = look f q := by
  intro ps
  induction ps with
  | nil =>
    intro prev f f' v hl hR _ _ _ h
    simp only [domanPages, Prod.mk.injEq] at h
    obtain ⟨rfl, _⟩ := h
    exact ⟨hl, hR, by simp, fun _ _ _ => rfl, fun _ _ => rfl⟩
  | cons p ps ih =>
    intro prev f f' v hl hR hM hps hpw h
    obtain ⟨hcp, hph, hpb, hpd, hpn, b, sec, hbs, hsd, hcd, hnf, hnd⟩ := hps p List.mem_cons_self
    obtain ⟨hne, hpw⟩ := List.pairwise_cons.mp hpw
    have hsl : '/' ∉ sec := fun hx => basename_noslash p (by rw [hbs]; simp [hx])
    have hcs := cs_section hf hsl
    obtain ⟨a, ha⟩ := pathName_split p
    have had : afterDot p = some sec := by
      rw [ha, hbs, ← List.append_assoc]; exact afterDot_last hsd
    have hMp : ∀ c ∈ manLoc e, Proper c := by
      intro c hc
      rcases List.mem_append.mp hc with hc | hc
      · exact comps_good hf.noup c hc
      · exact (by decide : ∀ c ∈ [['u', 's', 'r'], ['s', 'h', 'a', 'r', 'e'], ['m', 'a', 'n']], Proper c) c hc
    have hDp : dotdot ∉ e.cs (sectionDir e sec) := by
      rw [hcs]
      intro hx
      rcases List.mem_append.mp hx with hx | hx
      · exact (hMp _ hx).2.2.1 rfl
      · simp [dotdot] at hx
    have hda : isAbs (sectionDir e sec) = true := isAbs_join1 _ (isAbs_join1 _ hf.abs)
    rw [domanPages, had, hi] at h
    simp only [Option.some_or] at h
    cases hrun : seq (makedirs e (sectionDir e sec)) (shell e (squeeze (plainCmd p (sectionDir e sec)))) f with
    | mk g r =>
      rw [hrun] at h
      cases r with
      | error x => simp at h
      | ok _ =>
        dsimp only at h
        obtain ⟨f1, hmk, hsh⟩ := seq_ok hrun
        obtain ⟨hl1, hex⟩ := makedirs_exact hl hDp hi hmk
        have hre := makedirs_reached hl hDp hi hmk
        have hR1 := rooted_makedirs hR hre hex
        rw [plain_run hcp hcd] at hsh
        simp only [Prod.mk.injEq, and_true] at hsh
        rw [hcs] at hex hre hDp
        have hMr : ∀ q, q <+: manLoc e → look f q = some .dir := fun q hq => by
          by_cases he : q = manLoc e
          · rw [he]; exact hM
          · exact hR _ (by rw [hM]; simp) q hq he
        have hex' : ∀ q, q ≠ manLoc e ++ [['m', 'a', 'n'] ++ sec] → look f1 q = look f q := by
          intro q hq
          rw [hex, if_neg]
          rintro ⟨h1, h2⟩
          rw [List.prefix_concat_iff] at h1
          rcases h1 with h1 | h1
          · exact hq h1
          · rw [hMr q h1] at h2; cases h2
        have hdir1 : look f1 (manLoc e ++ [['m', 'a', 'n'] ++ sec]) = some .dir := by
          rw [hex]
          by_cases hn : look f (manLoc e ++ [['m', 'a', 'n'] ++ sec]) = none
          · rw [if_pos ⟨List.prefix_rfl, hn⟩]
          · rw [if_neg (fun hh => hn hh.2)]
            obtain ⟨y, hy⟩ := Option.ne_none_iff_exists'.mp hn
            cases y with
            | dir => exact hy
            | file x => exact absurd hy (hnf x)
            | link t => exact absurd hy (look_not_link hl _ _)
        have hold1 : ∀ q, look f q ≠ none → look f1 q = look f q := by
          intro q hq
          rw [hex, if_neg (fun hh => hq hh.2)]
        -- the file
        have hlong : ∀ (x y z : Str), manLoc e ++ [x, y] ≠ manLoc e ++ [z] := by
          intro x y z hh
          have := List.append_cancel_left hh
          simp at this
        have hT0 : manLoc e ++ [['m', 'a', 'n'] ++ sec, basename p] ≠ [] := by simp
        have hTeq : manLoc e ++ [['m', 'a', 'n'] ++ sec] ++ [basename p] = manLoc e ++ [['m', 'a', 'n'] ++ sec, basename p] := by simp
        have hpf : look f1 (e.cs p) = look f (e.cs p) := hex' _ (fun hh => hpn (by rw [hh]; exact List.prefix_append _ _))
        have hnd1 : look f1 (manLoc e ++ [['m', 'a', 'n'] ++ sec, basename p]) ≠ some .dir := by
          rw [hex' _ (hlong _ _ _)]; exact hnd
        obtain ⟨hlg, hRg, hlook, hsrc⟩ : LinkFree g ∧ Rooted g ∧
            (∀ q, q ≠ manLoc e ++ [['m', 'a', 'n'] ++ sec, basename p] → look g q = look f1 q) ∧
            (∀ c, look f (e.cs p) = some (.file c) → look g (manLoc e ++ [['m', 'a', 'n'] ++ sec, basename p]) = some (.file c)) := by
          by_cases hc : ∃ c, look f (e.cs p) = some (.file c)
          · obtain ⟨c, hc⟩ := hc
            have hx := install_put (e := e) (f := f1) (p := p) (d := sectionDir e sec) (c := c) hl1 hR1 hph hda (by rw [hcs]; exact hDp) hpd hpb
              (by rw [hcs]; exact hre) (by rw [hcs]; exact hdir1)
              (by rw [hcs]; intro hh; exact hpn (by rw [hh, List.append_assoc]; exact List.prefix_append _ _))
              (by rw [hcs, hTeq]; exact hnd1) (by rw [hpf]; exact hc)
            rw [hx, hcs, hTeq] at hsh
            subst hsh
            refine ⟨linkFree_put hl1 _ (by simp), ?_, ?_, ?_⟩
            · refine rooted_file hR1 hT0 ?_ hnd1
              rw [← hTeq]; exact reached_sub hre hdir1
            · intro q hq; rw [look_put hT0, if_neg hq]
            · intro c' hc'; rw [look_put hT0, if_pos rfl, ← hc', hc]
          · have hT : e.cs (osJoin (sectionDir e sec) (basename p)) = manLoc e ++ [['m', 'a', 'n'] ++ sec, basename p] := by
              have : e.cs (osJoin (sectionDir e sec) (basename p)) = e.cs (sectionDir e sec) ++ [basename p] := by
                unfold Env.cs
                rw [absComps_osJoin (isAbs_noslash (basename_noslash p)), comps_proper hpb]
              rw [this, hcs, hTeq]
            rw [installArgs_two hph hda ((isDirC_iff hl1 (by rw [hcs]; exact hDp)).mpr (by rw [hcs]; exact ⟨hre, hdir1⟩)), hT,
              installFile_skip hl1 hpd (fun c hh => hc ⟨c, by rw [← hpf]; exact hh⟩)] at hsh
            subst hsh
            exact ⟨hl1, hR1, fun _ _ => rfl, fun c hh => absurd ⟨c, hh⟩ hc⟩
        have hMg : look g (manLoc e) = some .dir := by
          rw [hlook _ (by intro hh; have := congrArg List.length hh; simp at this), hold1 _ (by rw [hM]; simp)]; exact hM
        have hTne : ∀ p' ∈ ps, ∀ x y, manLoc e ++ [x, basename p'] ≠ manLoc e ++ [y, basename p] := by
          intro p' hp' x y hh
          have := List.append_cancel_left hh
          simp only [List.cons.injEq, and_true] at this
          exact hne p' hp' this.2.symm
        have hsame : ∀ p' ∈ ps, look g (e.cs p') = look f (e.cs p') := by
          intro p' hp'
          have hn := (hps p' (List.mem_cons_of_mem _ hp')).2.2.2.2.1
          rw [hlook _ (fun hh => hn (by rw [hh]; exact List.prefix_append _ _)),
            hex' _ (fun hh => hn (by rw [hh]; exact List.prefix_append _ _))]
        obtain ⟨k1, k2, k3, k4, k5⟩ := ih (some sec) g f' v hlg hRg hMg (by
          intro p' hp'
          obtain ⟨a1, a2, a3, a4, a5, b', sec', a6, a7, a8, a9, a10⟩ := hps p' (List.mem_cons_of_mem _ hp')
          refine ⟨a1, a2, a3, a4, a5, b', sec', a6, a7, a8, ?_, ?_⟩
          · intro x hx
            rw [hlook _ (fun hh => hlong _ _ _ hh.symm)] at hx
            by_cases hs : manLoc e ++ [['m', 'a', 'n'] ++ sec'] = manLoc e ++ [['m', 'a', 'n'] ++ sec]
            · rw [hs, hdir1] at hx; cases hx
            · rw [hex' _ hs] at hx; exact a9 x hx
          · rw [hlook _ (hTne p' hp' _ _), hex' _ (hlong _ _ _)]; exact a10) hpw h
        refine ⟨k1, k2, ?_, ?_, ?_⟩
        · intro p' hp' b' sec' c h1 h2 h3
          rcases List.mem_cons.mp hp' with rfl | hp'
          · have hss : sec' = sec := by
              have e1 := afterDot_last (a := b') h2
              have e2 := afterDot_last (a := b) hsd
              rw [← h1] at e1; rw [← hbs, e1] at e2
              exact Option.some.inj e2
            subst hss
            have := hsrc c h3
            rw [k4 _ (by rw [this]; simp) (fun q hq x => (hTne q hq _ _).symm)]
            exact this
          · exact k3 p' hp' b' sec' c h1 h2 (by rw [hsame p' hp']; exact h3)
        · intro q hq hqp
          have h1 : look g q = look f q := by
            rw [hlook _ (hqp p List.mem_cons_self _), hold1 q hq]
          rw [k4 q (by rw [h1]; exact hq) (fun x hx => hqp x (List.mem_cons_of_mem _ hx)), h1]
        · intro q hq
          rw [k5 q hq, hlook q (fun hh => hq (by rw [hh]; exact List.prefix_append _ _)),
            hex' q (fun hh => hq (by rw [hh]; exact List.prefix_append _ _))]

/-- What `makedirs` does at the beginning. -/
theorem doman_begin {e : Env} {fs fs1 : FS} (hf : e.Fit) (hl : LinkFree fs) (hR : Rooted fs) (hi : e.ignore = false)
    (hmk : makedirs e (joinPath e.inst [manDir]) fs = (fs1, .ok ())) :
    LinkFree fs1 ∧ Rooted fs1 ∧ Reached fs1 (manLoc e) ∧
      ∀ q, look fs1 q = if q <+: manLoc e ∧ look fs q = none then some .dir else look fs q := by
  have hcs : e.cs (joinPath e.inst [manDir]) = manLoc e := by
    rw [cs_join _ hf.abs]
    have h1 : comps manDir = [['u', 's', 'r'], ['s', 'h', 'a', 'r', 'e'], ['m', 'a', 'n']] := by decide
    rw [h1]; rfl
  have hdd : dotdot ∉ e.cs (joinPath e.inst [manDir]) := by
    rw [hcs]
    unfold manLoc
    simp only [List.mem_append, not_or]
    exact ⟨hf.noup, by decide⟩
  obtain ⟨hl1, hex⟩ := makedirs_exact hl hdd hi hmk
  have hre := makedirs_reached hl hdd hi hmk
  have hR1 := rooted_makedirs hR hre hex
  rw [hcs] at hre hex
  exact ⟨hl1, hR1, hre, hex⟩

theorem doman_one {e : Env} {fs fs1 : FS} {s : Str} (hmk : makedirs e (joinPath e.inst [manDir]) fs = (fs1, .ok ())) :
    doman e [s] fs = match domanPages e none (glob fs1 e.cwd s) fs1 with
      | (f, .ok _) => (f, .ok ())
      | (f, .error x) => (f, .error x) := by
  unfold doman seq
  rw [hmk]
  dsimp only
  unfold domanLoop
  cases domanPages e none (glob fs1 e.cwd s) fs1 with
  | mk f r => cases r <;> rfl

/-- **C158** for names without blanks and characters with a meaning for the shell: every page is in the directory of its section, what was
there before and has not the name of a page is as before, and outside of the directory of the manual pages nothing is different. -/
theorem doman_partial (e : Env) (fs fs1 fs' : FS) (s : Str) (hf : e.Fit) (hl : LinkFree fs) (hR : Rooted fs) (hi : e.ignore = false)
    (hmk : makedirs e (joinPath e.inst [manDir]) fs = (fs1, .ok ())) (hdir : look fs (manLoc e) = some .dir ∨ look fs (manLoc e) = none)
    (h : doman e [s] fs = (fs', .ok ()))
    (hps : ∀ p ∈ glob fs1 e.cwd s, Clean p ∧ (¬ p.head? = some '-') ∧ Proper (basename p) ∧ dotdot ∉ e.cs p ∧ ¬ manLoc e <+: e.cs p ∧
      ∃ b sec, basename p = b ++ '.' :: sec ∧ '.' ∉ sec ∧ Clean (sectionDir e sec) ∧
        (∀ x, look fs1 (manLoc e ++ [['m', 'a', 'n'] ++ sec]) ≠ some (.file x)) ∧
        look fs1 (manLoc e ++ [['m', 'a', 'n'] ++ sec, basename p]) ≠ some .dir)
    (hdiff : (glob fs1 e.cwd s).Pairwise fun p q => basename p ≠ basename q) :
    (∀ p ∈ glob fs1 e.cwd s, ∀ b sec c, basename p = b ++ '.' :: sec → '.' ∉ sec → look fs1 (e.cs p) = some (.file c) →
      look fs' (manLoc e ++ [['m', 'a', 'n'] ++ sec, basename p]) = some (.file c)) ∧
    (∀ q, look fs q ≠ none → (∀ p ∈ glob fs1 e.cwd s, ∀ x, q ≠ manLoc e ++ [x, basename p]) → look fs' q = look fs q) ∧
    ∀ q, (¬ manLoc e <+: q) → (¬ q <+: manLoc e) → look fs' q = look fs q := by
  obtain ⟨hl1, hR1, _, hex⟩ := doman_begin hf hl hR hi hmk
  have hM : look fs1 (manLoc e) = some .dir := by
    rw [hex]
    rcases hdir with hd | hd
    · rw [if_neg (by simp [hd])]; exact hd
    · rw [if_pos ⟨List.prefix_rfl, hd⟩]
  rw [doman_one hmk] at h
  cases hr : domanPages e none (glob fs1 e.cwd s) fs1 with
  | mk f r =>
    rw [hr] at h
    cases r with
    | error x => simp at h
    | ok v =>
      simp only [Prod.mk.injEq, and_true] at h
      subst h
      obtain ⟨_, _, k1, k2, k3⟩ := domanPages_ok e hf hi _ none fs1 f v hl1 hR1 hM hps hdiff hr
      refine ⟨k1, ?_, ?_⟩
      · intro q hq hqp
        have h1 : look fs1 q = look fs q := by rw [hex, if_neg (fun hh => hq hh.2)]
        rw [k2 q (by rw [h1]; exact hq) hqp, h1]
      · intro q h1 h2
        rw [k3 q h1, hex, if_neg (fun hh => h2 hh.1)]

/-- A name without a dot ends `doman` with the error it is meant to end with; the pages before are installed. -/
theorem doman_wrong (e : Env) (fs : FS) (prev : Option Str) (p : Str) (ps : List Str) (hi : e.ignore = false) (hp : '.' ∉ p) :
    domanPages e prev (p :: ps) fs = (fs, .error .action) := by
  have : afterDot p = none := by
    unfold afterDot
    rw [if_neg (by simp [hp])]
  rw [domanPages, this, hi]

/-- When errors are ignored (`ignore_action_errors`), a name without a dot goes to the section of the page before it, and the first is an
`UnboundLocalError`. -/
theorem doman_ignored (e : Env) (fs : FS) (p : Str) (ps : List Str) (hi : e.ignore = true) (hp : '.' ∉ p) :
    domanPages e none (p :: ps) fs = (fs, .error .attr) := by
  have : afterDot p = none := by
    unfold afterDot
    rw [if_neg (by simp [hp])]
  rw [domanPages, this, hi]
  rfl

/-- `m.1` and `a b.1`. -/
def nM1 : Str := ['m', '.', '1']
def nAB1 : Str := ['a', ' ', 'b', '.', '1']
def manFS : FS := dirsFS ++ [([dB, dS, nM1], .file ['x'])]
def manBFS : FS := dirsFS ++ [([dB, dS, nAB1], .file ['x'])]
def manPre : Loc := [dB, dI, ['u', 's', 'r'], ['s', 'h', 'a', 'r', 'e'], ['m', 'a', 'n'], ['m', 'a', 'n', '1']]

/-- A case of `doman_partial`. -/
example : look (doman exEnv [['*', '.', '1']] manFS).1 (manPre ++ [nM1]) = some (.file ['x']) := by
  have := (doman_partial exEnv manFS (makedirs exEnv (joinPath exEnv.inst [manDir]) manFS).1 (doman exEnv [['*', '.', '1']] manFS).1
    ['*', '.', '1'] exEnv_fit (linkFree_of (by decide +kernel)) (rooted_of (by decide +kernel)) rfl (eq_of_succeeds (by decide +kernel))
    (by decide +kernel) (eq_of_succeeds (by decide +kernel)) (by
      have hg : glob (makedirs exEnv (joinPath exEnv.inst [manDir]) manFS).1 exEnv.cwd ['*', '.', '1'] = [nM1] := by decide +kernel
      rw [hg]
      intro p hp
      simp only [List.mem_singleton] at hp
      subst hp
      refine ⟨by decide, by decide, by decide, by decide, by decide, ['m'], ['1'], by decide, by decide, by decide, ?_, by decide +kernel⟩
      have : look (makedirs exEnv (joinPath exEnv.inst [manDir]) manFS).1 (manLoc exEnv ++ [['m', 'a', 'n'] ++ ['1']]) = none := by
        decide +kernel
      rw [this]; simp) (by decide +kernel)).1 nM1 (by decide +kernel) ['m'] ['1'] ['x'] (by decide) (by decide) (by decide +kernel)
  exact this

/-- Not so in full: a page with a blank in its name is left out, and nothing is said. -/
theorem doman_refuted : ¬ DomanFull := by
  intro h
  have := h exEnv manBFS (makedirs exEnv (joinPath exEnv.inst [manDir]) manBFS).1 (doman exEnv [['*', '.', '1']] manBFS).1
    ['*', '.', '1'] exEnv_fit (by decide +kernel) (linkFree_of (by decide +kernel)) (rooted_of (by decide +kernel)) rfl
    (eq_of_succeeds (by decide +kernel)) (eq_of_succeeds (by decide +kernel)) (by decide +kernel) nAB1 (by decide +kernel)
    ['a', ' ', 'b'] ['1'] ['x'] (by decide) (by decide) (by decide) (by decide) (by decide)
    (by
      have : look manBFS (manLoc exEnv ++ [['m', 'a', 'n'] ++ ['1']]) = none := by decide +kernel
      rw [this]; simp) (by decide +kernel) (by decide +kernel)
  revert this
  decide +kernel

end Pisi.Act
