import Verif.Spec.Shell
import Verif.Props.ActionsPlace

/-! # C121–C123: dodoc, dobin and dolib -/
namespace Pisi.Act
open Pisi.Path (joinPath joinStep lstripSlash)

/-! ## The words of the command line -/

theorem intercalate_cons {s w : Str} {L : List Str} (h : L ≠ []) : List.intercalate s (w :: L) = w ++ s ++ List.intercalate s L := by
  cases L with
  | nil => exact absurd rfl h
  | cons x xs => simp [List.intercalate, List.intersperse]

theorem splitBlank_join : ∀ (s w : Str), single (w = []) s = true → (∀ x, s.getLast? = some x → blank x = false) →
    (w = [] → ∀ x, s.head? = some x → blank x = false) → List.intercalate [' '] (splitBlank w s) = w ++ s := by
  intro s
  induction s with
  | nil => intro w _ _ _; by_cases h : w = [] <;> simp [splitBlank, h, List.intercalate]
  | cons c s ih =>
    intro w h1 h2 h3
    have hlast : ∀ x, s.getLast? = some x → blank x = false := by
      intro x hx
      refine h2 x ?_
      cases s with
      | nil => simp at hx
      | cons y ys => rw [List.getLast?_cons_cons]; exact hx
    by_cases hb : blank c = true
    · have hw : w ≠ [] := by
        intro h; have := h3 h c rfl; rw [hb] at this; cases this
      simp only [single, hb, if_true, hw, decide_false, Bool.not_false, Bool.true_and, Bool.and_eq_true, beq_iff_eq] at h1
      obtain ⟨rfl, h1⟩ := h1
      have hs : s ≠ [] := by
        rintro rfl; have := h2 ' ' rfl; rw [hb] at this; cases this
      have hhead : ∀ x, s.head? = some x → blank x = false := by
        intro x hx
        cases s with
        | nil => simp at hx
        | cons y ys =>
          simp only [List.head?_cons, Option.some.injEq] at hx
          subst hx
          unfold single at h1
          by_cases hy : blank y = true
          · simp [hy] at h1
          · simpa using hy
      have h4 : single (([] : Str) = []) s = true := by
        simpa using h1
      have ih' := ih [] h4 hlast (fun _ => hhead)
      unfold splitBlank
      rw [if_pos hb, if_neg hw, intercalate_cons, ih']
      · simp
      · intro h0; rw [h0] at ih'; simp [List.intercalate] at ih'; exact hs ih'
    · have hb' : blank c = false := by simpa using hb
      simp only [single, hb', Bool.false_eq_true, if_false] at h1
      unfold splitBlank
      rw [if_neg hb, ih (w ++ [c]) (by simpa using h1) hlast (by simp)]
      simp

theorem single_append (b : Bool) (a t : Str) {c : Char} (hc : blank c = false) :
    single b (a ++ c :: t) = (single b (a ++ [c]) && single false t) := by
  induction a generalizing b with
  | nil => simp [single, hc]
  | cons x a ih =>
    by_cases hx : blank x = true
    · simp [single, hx, ih, Bool.and_assoc]
    · have : blank x = false := by simpa using hx
      simp [single, this, ih]

theorem single_noblank (b : Bool) {s : Str} (h : ∀ c ∈ s, blank c = false) : single b s = true := by
  induction s generalizing b with
  | nil => rfl
  | cons c s ih =>
    simp only [single, h c List.mem_cons_self, Bool.false_eq_true, if_false]
    exact ih _ fun x hx => h x (List.mem_cons_of_mem _ hx)

theorem single_false_of {s : Str} {b : Bool} (h : single b s = true) : single false s = true := by
  cases b with
  | false => exact h
  | true =>
    cases s with
    | nil => rfl
    | cons c s =>
      unfold single at h ⊢
      by_cases hc : blank c = true
      · simp [hc] at h
      · simpa [hc] using h

theorem single_snoc {s : Str} {b : Bool} {c : Char} (hc : blank c = false) (h : single b s = true) : single b (s ++ [c]) = true := by
  induction s generalizing b with
  | nil => simp [single, hc]
  | cons x s ih =>
    unfold single at h
    by_cases hx : blank x = true
    · simp only [hx, if_true, Bool.and_eq_true] at h
      simp only [List.cons_append, single, hx, if_true, Bool.and_eq_true]
      exact ⟨h.1, ih h.2⟩
    · simp only [hx, if_false] at h
      simp only [List.cons_append, single, hx, if_false]
      exact ih h

/-- A command line without double blanks is not changed by `system`. -/
theorem squeeze_same {s : Str} (h1 : single true s = true) (h2 : ∀ x, s.getLast? = some x → blank x = false) : squeeze s = s := by
  unfold squeeze
  rw [splitBlank_join s [] (by simpa using h1) h2]
  · simp
  · intro _ x hx
    cases s with
    | nil => simp at hx
    | cons y ys =>
      simp only [List.head?_cons, Option.some.injEq] at hx
      subst hx
      unfold single at h1
      by_cases hy : blank y = true
      · simp [hy] at h1
      · simpa using hy

theorem shGo_quoted {p : Str} (h : ∀ c ∈ p, quotedSpecial c = false ∧ c ≠ '"') (rest : Str) : ∀ w : Str,
    shGo true (some w) (p ++ '"' :: rest) = shGo false (some (w ++ p)) rest := by
  induction p with
  | nil => intro w; simp [shGo]
  | cons c p ih =>
    intro w
    obtain ⟨h1, h2⟩ := h c List.mem_cons_self
    simp only [List.cons_append, shGo, if_true, h2, if_false, h1, Bool.false_eq_true, Option.getD_some]
    rw [ih (fun x hx => h x (List.mem_cons_of_mem _ hx))]
    simp

theorem blank_false {c : Char} (h : blank c = false) : ¬ (c = ' ' ∨ c = '\t') := by
  rintro (rfl | rfl) <;> revert h <;> decide

theorem shGo_word {p : Str} (h : ∀ c ∈ p, blank c = false ∧ shSpecial c = false ∧ c ≠ '"') (rest : Str) : ∀ w : Str,
    shGo false (some w) (p ++ rest) = shGo false (some (w ++ p)) rest := by
  induction p with
  | nil => intro w; simp
  | cons c p ih =>
    intro w
    obtain ⟨h1, h2, h3⟩ := h c List.mem_cons_self
    simp only [List.cons_append]
    conv_lhs => unfold shGo
    simp only [Bool.false_eq_true, if_false, h3, blank_false h1, h2, Option.getD_some]
    rw [ih (fun x hx => h x (List.mem_cons_of_mem _ hx))]
    simp

theorem shGo_first {p : Str} (h : Clean p) (rest : Str) : shGo false none (p ++ rest) = shGo false (some p) rest := by
  obtain ⟨h0, h⟩ := h
  cases p with
  | nil => exact absurd rfl h0
  | cons c p =>
    obtain ⟨h1, h2, h3⟩ := h c List.mem_cons_self
    simp only [List.cons_append]
    conv_lhs => unfold shGo
    simp only [Bool.false_eq_true, if_false, h3, blank_false h1, h2, Option.getD_none, List.nil_append]
    rw [shGo_word (fun x hx => h x (List.mem_cons_of_mem _ hx))]
    simp

theorem shGo_space {w rest : Str} : shGo false (some w) (' ' :: rest) = (shGo false none rest).map (w :: ·) := by
  conv_lhs => unfold shGo
  simp

theorem shGo_end {w : Str} : shGo false (some w) [] = some [w] := by simp [shGo]

theorem words_cons {p : Str} (h : Clean p) (rest : Str) : shWords (p ++ ' ' :: rest) = (shWords rest).map (p :: ·) := by
  unfold shWords
  rw [shGo_first h, shGo_space]

theorem words_last {p : Str} (h : Clean p) : shWords p = some [p] := by
  unfold shWords
  have := shGo_first h []
  rw [List.append_nil] at this
  rw [this, shGo_end]

theorem words_quoted {p : Str} (h : CleanQuoted p) (rest : Str) :
    shWords ('"' :: p ++ '"' :: ' ' :: rest) = (shWords rest).map (p :: ·) := by
  unfold shWords
  rw [List.cons_append]
  conv_lhs => unfold shGo
  simp only [Bool.false_eq_true, if_false, if_true, Option.getD_none]
  rw [shGo_quoted h.2, List.nil_append, shGo_space]

theorem last_clean {s : Str} (h : Clean s) (a : Str) : ∀ x, (a ++ s).getLast? = some x → blank x = false := by
  intro x hx
  obtain ⟨s', y, rfl⟩ : ∃ s' y, s = s' ++ [y] := by
    rcases List.eq_nil_or_concat s with rfl | ⟨s', y, rfl⟩
    · exact absurd rfl h.1
    · exact ⟨s', y, by simp⟩
  rw [← List.append_assoc, List.getLast?_concat] at hx
  simp only [Option.some.injEq] at hx
  subst hx
  exact (h.2 y (by simp)).1

theorem clean_single {s t : Str} (b : Bool) (hs : Clean s) (ht : single true t = true) : single b (s ++ ' ' :: t) = true := by
  obtain ⟨s', y, rfl⟩ : ∃ s' y, s = s' ++ [y] := by
    rcases List.eq_nil_or_concat s with rfl | ⟨s', y, rfl⟩
    · exact absurd rfl hs.1
    · exact ⟨s', y, by simp⟩
  rw [List.append_assoc, List.singleton_append, single_append _ _ _ (hs.2 y (by simp)).1,
    single_noblank _ (fun c hc => (hs.2 c hc).1)]
  unfold single
  rw [if_pos (by decide), ht]
  decide

/-- The command of `readable_insinto` reaches `install` as it is meant. -/
theorem readable_words {p d : Str} (hp : CleanQuoted p) (hd : Clean d) :
    shWords (squeeze (readableCmd p d)) =
      some [['i', 'n', 's', 't', 'a', 'l', 'l'], ['-', 'm', '0', '6', '4', '4'], p, d] := by
  have hsq : squeeze (readableCmd p d) = readableCmd p d := by
    apply squeeze_same
    · unfold readableCmd
      refine clean_single _ (by decide) (clean_single _ (by decide) ?_)
      rw [List.cons_append]
      unfold single
      rw [if_neg (by decide), single_append _ _ _ (by decide), single_snoc (by decide) hp.1]
      unfold single
      rw [if_pos (by decide), single_noblank _ fun c hc => (hd.2 c hc).1]
      decide
    · have h1 : readableCmd p d = (wInstall ++ ' ' :: (wRead ++ ' ' :: ('"' :: p ++ ['"', ' ']))) ++ d := by simp [readableCmd]
      rw [h1]; exact last_clean hd _
  rw [hsq]
  unfold readableCmd
  rw [words_cons (by decide), words_cons (by decide), words_quoted hp, words_last hd]
  rfl

/-- So does that of `executable_insinto`. -/
theorem executable_words {p d : Str} (hp : Clean p) (hd : Clean d) : shWords (executableCmd p d) =
    some [['s', 'u', 'd', 'o'], ['i', 'n', 's', 't', 'a', 'l', 'l'], ['-', 'm', '0', '7', '5', '5'], ['-', 'o'], ['r', 'o', 'o', 't'],
      ['-', 'g'], ['r', 'o', 'o', 't'], p, d] := by
  have hform : executableCmd p d = wSudo ++ ' ' :: (wInstall ++ ' ' :: (wExec ++ ' ' :: (['-', 'o'] ++ ' ' ::
      (['r', 'o', 'o', 't'] ++ ' ' :: (['-', 'g'] ++ ' ' :: (['r', 'o', 'o', 't'] ++ ' ' :: (p ++ ' ' :: d))))))) := by
    simp [executableCmd, wRoot, List.intercalate]
  rw [hform]
  rw [words_cons (by decide), words_cons (by decide), words_cons (by decide), words_cons (by decide), words_cons (by decide),
    words_cons (by decide), words_cons (by decide), words_cons hp, words_last hd]
  rfl

/-- A character with a meaning for the shell outside of quotes: then the words are something else. -/
theorem shWords_special {s : Str} (hq : '"' ∉ s) {c : Char} (hc : c ∈ shellChars) (hm : c ∈ s) : shWords s = none := by
  unfold shWords
  generalize (none : Option Str) = w
  induction s generalizing w with
  | nil => cases hm
  | cons x s ih =>
    have hx : x ≠ '"' := fun e => hq (e ▸ List.mem_cons_self)
    have hs : '"' ∉ s := fun e => hq (List.mem_cons_of_mem _ e)
    unfold shGo
    simp only [Bool.false_eq_true, if_false, hx]
    by_cases hxc : x = c
    · subst hxc
      have hb : ¬ (x = ' ' ∨ x = '\t') := by revert hc; generalize x = y; intro hc h; rcases h with rfl | rfl <;> revert hc <;> decide
      have hsp : shSpecial x = true := by simpa [shSpecial, shellChars] using hc
      rw [if_neg hb, if_pos hsp]
    · have hm' : c ∈ s := by
        rcases List.mem_cons.mp hm with h | h
        · exact absurd h.symm hxc
        · exact h
      split
      · rw [ih hs hm']; rfl
      · split
        · rfl
        · exact ih hs hm' _

/-! ## What `install` does -/

theorem installFile_exact {fs : FS} {s t : List Str} {c : Str} (hl : LinkFree fs) (hds : dotdot ∉ s) (hdt : dotdot ∉ t)
    (hrs : Reached fs s) (hrt : Reached fs t) (hc : look fs s = some (.file c)) (hnd : look fs t ≠ some .dir) (hst : s ≠ t) :
    installFile s t fs = fs.put t (.file c) := by
  unfold installFile
  rw [(stat_iff hl hds _).mpr ⟨hrs, hc⟩]
  dsimp only
  have hsame : sameFile fs s t = false := by
    unfold sameFile
    rw [(resolve_iff hl hds _).mpr ⟨rfl, hrs⟩, (resolve_iff hl hdt _).mpr ⟨rfl, hrt⟩]
    simp [hst]
  rw [hsame, if_neg (by simp), (lresolve_iff hl hdt _).mpr ⟨rfl, hrt⟩]
  dsimp only
  split
  · rename_i h; exact absurd h hnd
  · rfl

theorem installFile_skip {fs : FS} {s t : List Str} (hl : LinkFree fs) (hds : dotdot ∉ s)
    (hc : ∀ c, look fs s ≠ some (.file c)) : installFile s t fs = fs := by
  unfold installFile
  split
  · rename_i c h
    exact absurd ((stat_iff hl hds _).mp h).2 (hc c)
  · rfl

theorem head_abs {s : Str} (h : isAbs s = true) : ¬ s.head? = some '-' := by
  intro h2
  unfold isAbs at h
  rw [h2] at h
  revert h
  decide

theorem installArgs_two {e : Env} {fs : FS} {p d : Str} (hp : ¬ p.head? = some '-') (hd : isAbs d = true) (hdir : isDirC fs (e.cs d) = true) :
    installArgs e [p, d] fs = installFile (e.cs p) (e.cs (osJoin d (basename p))) fs := by
  unfold installArgs
  rw [if_neg (by simp [hp, head_abs hd])]
  simp only [List.reverse_cons, List.reverse_nil, List.nil_append, List.singleton_append]
  rw [if_pos hdir]
  rfl

/-- The loop over the files found. -/
theorem install_loop (e : Env) (d : Str) (hda : isAbs d = true) (hdd : dotdot ∉ e.cs d) (run : Str → Act) : ∀ (ps : List Str) (f : FS),
    LinkFree f → isDirC f (e.cs d) = true → Rooted f →
    (∀ p ∈ ps, ∀ g, run p g = (installArgs e [p, d] g, .ok ())) →
    (∀ p ∈ ps, (¬ p.head? = some '-') ∧ dotdot ∉ e.cs p ∧ Proper (basename p) ∧ ¬ e.cs d <+: e.cs p ∧
      look f (e.cs d ++ [basename p]) ≠ some .dir) →
    ps.Pairwise (fun p q => basename p ≠ basename q) →
    ∃ f', each run ps f = (f', .ok ()) ∧
      (∀ p ∈ ps, ∀ c, look f (e.cs p) = some (.file c) → look f' (e.cs d ++ [basename p]) = some (.file c)) ∧
      ∀ q, (∀ p ∈ ps, q ≠ e.cs d ++ [basename p]) → look f' q = look f q := by
  intro ps
  induction ps with
  | nil => intro f _ _ _ _ _ _; exact ⟨f, rfl, by simp, fun _ _ => rfl⟩
  | cons p ps ih =>
    intro f hl hdir hR hrun hps hpw
    obtain ⟨hpa, hpd, hpb, hpn, hpt⟩ := hps p List.mem_cons_self
    obtain ⟨hne, hpw⟩ := List.pairwise_cons.mp hpw
    have hT : e.cs (osJoin d (basename p)) = e.cs d ++ [basename p] := by
      unfold Env.cs
      rw [absComps_osJoin (isAbs_noslash (basename_noslash p)), comps_proper hpb]
    have hTd : dotdot ∉ e.cs d ++ [basename p] := by
      intro h
      rcases List.mem_append.mp h with h | h
      · exact hdd h
      · simp only [List.mem_singleton] at h; exact hpb.2.2.1 h.symm
    obtain ⟨hdr, hdl⟩ := (isDirC_iff hl hdd).mp hdir
    have hrT : Reached f (e.cs d ++ [basename p]) := by
      intro q hq hqn
      obtain ⟨t, ht⟩ := hq
      rcases List.eq_nil_or_concat t with rfl | ⟨t', y, rfl⟩
      · rw [List.append_nil] at ht; exact absurd ht hqn
      · have h2 : q ++ t' = e.cs d := by
          have := congrArg List.dropLast ht
          rwa [List.concat_eq_append, ← List.append_assoc, List.dropLast_concat, List.dropLast_concat] at this
        by_cases hqd : q = e.cs d
        · rw [hqd]; exact hdl
        · exact hdr q ⟨t', h2⟩ hqd
    -- the first file
    obtain ⟨f1, hf1, hl1, hR1, hlook, hsrc⟩ : ∃ f1, run p f = (f1, .ok ()) ∧ LinkFree f1 ∧ Rooted f1 ∧
        (∀ q, q ≠ e.cs d ++ [basename p] → look f1 q = look f q) ∧
        (∀ c, look f (e.cs p) = some (.file c) → look f1 (e.cs d ++ [basename p]) = some (.file c)) := by
      rw [hrun p List.mem_cons_self, installArgs_two hpa hda hdir, hT]
      by_cases hc : ∃ c, look f (e.cs p) = some (.file c)
      · obtain ⟨c, hc⟩ := hc
        have hx : installFile (e.cs p) (e.cs d ++ [basename p]) f = f.put (e.cs d ++ [basename p]) (.file c) :=
          installFile_exact hl hpd hTd (hR _ (by rw [hc]; simp)) hrT hc hpt
            (by rintro h; exact hpn (by rw [h]; exact List.prefix_append _ _))
        refine ⟨_, rfl, ?_, ?_, ?_, ?_⟩
        · rw [hx]; exact linkFree_put hl _ (by simp)
        · rw [hx]
          intro q hq r hr hrn
          rw [look_put (by simp)] at hq ⊢
          by_cases hqT : q = e.cs d ++ [basename p]
          · subst hqT
            rw [if_neg hrn]; exact hrT r hr hrn
          · rw [if_neg hqT] at hq
            have := hR q hq r hr hrn
            rw [if_neg, this]
            rintro rfl; exact hpt this
        · rw [hx]; intro q hq; rw [look_put (by simp), if_neg hq]
        · rw [hx]; intro c' hc'
          rw [look_put (by simp), if_pos rfl, ← hc', hc]
      · have hx : installFile (e.cs p) (e.cs d ++ [basename p]) f = f := installFile_skip hl hpd fun c h => hc ⟨c, h⟩
        rw [hx]
        exact ⟨f, rfl, hl, hR, fun _ _ => rfl, fun c h => absurd ⟨c, h⟩ hc⟩
    have hTn : ∀ q, q <+: e.cs d → q ≠ e.cs d ++ [basename p] := by
      rintro q hq rfl
      have := hq.length_le; simp at this; omega
    have hdir1 : isDirC f1 (e.cs d) = true := by
      refine (isDirC_iff hl1 hdd).mpr ⟨fun q hq hqn => ?_, ?_⟩
      · rw [hlook q (hTn q hq)]; exact hdr q hq hqn
      · rw [hlook _ (hTn _ List.prefix_rfl)]; exact hdl
    have hsame : ∀ p' ∈ ps, look f1 (e.cs p') = look f (e.cs p') := by
      intro p' hp'
      refine hlook _ ?_
      intro h
      exact (hps p' (List.mem_cons_of_mem _ hp')).2.2.2.1 (by rw [h]; exact List.prefix_append _ _)
    obtain ⟨f', h1, h2, h3⟩ := ih f1 hl1 hdir1 hR1 (fun x hx => hrun x (List.mem_cons_of_mem _ hx))
      (by
        intro p' hp'
        obtain ⟨a, b, c, d', g⟩ := hps p' (List.mem_cons_of_mem _ hp')
        refine ⟨a, b, c, d', ?_⟩
        rw [hlook _ (by
          intro h
          have := List.append_cancel_left h
          simp only [List.cons.injEq, and_true] at this
          exact hne p' hp' this.symm)]
        exact g) hpw
    refine ⟨f', ?_, ?_, ?_⟩
    · show seq (run p) (each run ps) f = _
      unfold seq; rw [hf1]; exact h1
    · intro p' hp' c hc
      rcases List.mem_cons.mp hp' with rfl | hp'
      · rw [h3 _ (by
          intro x hx h
          have := List.append_cancel_left h
          simp only [List.cons.injEq, and_true] at this
          exact hne x hx this)]
        exact hsrc c hc
      · exact h2 p' hp' c (by rw [hsame p' hp']; exact hc)
    · intro q hq
      rw [h3 q (fun x hx => hq x (List.mem_cons_of_mem _ hx)), hlook q (hq p List.mem_cons_self)]

/-! ## C121: dodoc and the like -/

/-- What `readable_insinto`, `executable_insinto` are for: every file that matches is in the directory. -/
def InstallFull (cmd : Env → Str → Str → List Str → Act) : Prop := ∀ (e : Env) (fs fs1 fs' : FS) (sd d s : Str), Tidy fs → LinkFree fs →
  Rooted fs → isAbs sd = true → isAbs d = true → NoUp sd → NoUp d → NoUp s → e.ignore = false → Clean d →
  makedirs e d fs = (fs1, .ok ()) → isDirC fs1 (e.cs d) = true → cmd e sd d [s] fs = (fs', .ok ()) →
  ∀ p ∈ glob fs1 e.cwd (joinPath sd [s]), ¬ e.cs d <+: e.cs p → ∀ c, look fs (e.cs p) = some (.file c) →
    look fs' (e.cs d ++ comps (basename p)) = some (.file c)

theorem glob_noup {e : Env} {fs : FS} (ht : Tidy fs) {sd s : Str} (ha : isAbs sd = true) (h1 : NoUp sd) (h2 : NoUp s) :
    ∀ p ∈ glob fs e.cwd (joinPath sd [s]), isAbs p = true ∧ dotdot ∉ e.cs p := by
  intro p hp
  obtain ⟨ha', hfit⟩ := glob_fits ht hp
  have hpa : isAbs p = true := by rw [ha']; exact isAbs_join1 _ ha
  refine ⟨hpa, ?_⟩
  unfold Env.cs absComps
  rw [if_pos hpa]
  intro hin
  have key : ∀ a b : List Str, List.Forall₂ Fits a b → (dotdot ∉ a) → dotdot ∉ b := by
    intro a b h
    induction h with
    | nil => exact fun h => h
    | @cons x y xs ys hxy _ ih =>
      intro hn hb
      simp only [List.mem_cons, not_or] at hn
      rcases List.mem_cons.mp hb with hb | hb
      · rcases hxy with ⟨_, h⟩ | ⟨_, h⟩
        · exact hn.1 (hb.trans h)
        · exact h.2.2.1 hb.symm
      · exact ih hn.2 hb
  refine key _ _ hfit ?_ hin
  rw [comps_join1]
  intro h
  rcases List.mem_append.mp h with h | h
  · exact h1 h
  · exact h2 h

theorem tidy_makedirs {e : Env} {fs fs1 : FS} {d : Str} (hl : LinkFree fs) (ht : Tidy fs) (hp : ∀ c ∈ e.cs d, Proper c)
    (h : makedirs e d fs = (fs1, .ok ())) : Tidy fs1 := by
  have h0 : Inv [] fs fs := ⟨hl, ht, by intro q hq hqn; simp at hq; exact absurd hq hqn, fun _ _ => rfl⟩
  have := makedirs_pres (l := []) (fs0 := fs) (e := e) (d := d) ⟨hp, by simp⟩ fs h0
  rw [h] at this
  exact this.tidy

/-- The two functions at once. -/
theorem install_both (e : Env) (fs fs1 : FS) (sd d s : Str) (cmd : Str → Str → Str) (ht : Tidy fs) (hl : LinkFree fs) (hR : Rooted fs)
    (ha : isAbs sd = true) (hda : isAbs d = true) (hsd : NoUp sd) (hd : NoUp d) (hs : NoUp s) (hi : e.ignore = false)
    (hmk : makedirs e d fs = (fs1, .ok ())) (hdir : isDirC fs1 (e.cs d) = true)
    (hrun : ∀ p ∈ glob fs1 e.cwd (joinPath sd [s]), ∀ g, shell e (cmd p d) g = (installArgs e [p, d] g, .ok ()))
    (hps : ∀ p ∈ glob fs1 e.cwd (joinPath sd [s]), Proper (basename p) ∧ ¬ e.cs d <+: e.cs p ∧
      look fs1 (e.cs d ++ [basename p]) ≠ some .dir)
    (hdiff : (glob fs1 e.cwd (joinPath sd [s])).Pairwise fun p q => basename p ≠ basename q) :
    ∃ fs', seq (makedirs e d) (each (fun s => fun fs =>
        each (fun p => shell e (cmd p d)) (glob fs e.cwd (joinPath sd [s])) fs) [s]) fs = (fs', .ok ()) ∧
      (∀ p ∈ glob fs1 e.cwd (joinPath sd [s]), ∀ c, look fs1 (e.cs p) = some (.file c) →
        look fs' (e.cs d ++ [basename p]) = some (.file c)) ∧
      ∀ q, (∀ p ∈ glob fs1 e.cwd (joinPath sd [s]), q ≠ e.cs d ++ [basename p]) → look fs' q = look fs1 q := by
  have hcs : e.cs d = comps d := by unfold Env.cs absComps; rw [if_pos hda]
  have hdd : dotdot ∉ e.cs d := by rw [hcs]; exact hd
  have hpr : ∀ c ∈ e.cs d, Proper c := fun c hc => by rw [hcs] at hc; exact proper_of_comps hc (fun h => hd (h ▸ hc))
  obtain ⟨hl1, hex⟩ := makedirs_exact hl hdd hi hmk
  have hre := makedirs_reached hl hdd hi hmk
  have hR1 := rooted_makedirs hR hre hex
  have ht1 := tidy_makedirs hl ht hpr hmk
  have hg := glob_noup (e := e) ht1 ha hsd hs
  obtain ⟨f', h1, h2, h3⟩ := install_loop e d hda hdd (fun p => shell e (cmd p d)) (glob fs1 e.cwd (joinPath sd [s])) fs1 hl1 hdir hR1 hrun
    (fun p hp => ⟨head_abs (hg p hp).1, (hg p hp).2, (hps p hp).1, (hps p hp).2.1, (hps p hp).2.2⟩) hdiff
  refine ⟨f', ?_, h2, h3⟩
  unfold seq
  rw [hmk]
  dsimp only
  show seq _ skip fs1 = _
  unfold seq
  beta_reduce
  rw [h1]
  rfl

/-- **C121** for names with blanks one by one at most, that have no characters with a meaning between quotes, come from elsewhere, differ
from one another, and find no directory in their place: exactly these files are put into the directory. -/
theorem readable_partial (e : Env) (fs fs1 : FS) (sd d s : Str) (ht : Tidy fs) (hl : LinkFree fs) (hR : Rooted fs)
    (ha : isAbs sd = true) (hda : isAbs d = true) (hsd : NoUp sd) (hd : NoUp d) (hs : NoUp s) (hi : e.ignore = false) (hc : Clean d)
    (hmk : makedirs e d fs = (fs1, .ok ())) (hdir : isDirC fs1 (e.cs d) = true)
    (hclean : ∀ p ∈ glob fs1 e.cwd (joinPath sd [s]), CleanQuoted p)
    (hps : ∀ p ∈ glob fs1 e.cwd (joinPath sd [s]), Proper (basename p) ∧ ¬ e.cs d <+: e.cs p ∧
      look fs1 (e.cs d ++ [basename p]) ≠ some .dir)
    (hdiff : (glob fs1 e.cwd (joinPath sd [s])).Pairwise fun p q => basename p ≠ basename q) :
    ∃ fs', readableInsinto e sd d [s] fs = (fs', .ok ()) ∧
      (∀ p ∈ glob fs1 e.cwd (joinPath sd [s]), ∀ c, look fs1 (e.cs p) = some (.file c) →
        look fs' (e.cs d ++ [basename p]) = some (.file c)) ∧
      ∀ q, (∀ p ∈ glob fs1 e.cwd (joinPath sd [s]), q ≠ e.cs d ++ [basename p]) → look fs' q = look fs1 q := by
  unfold readableInsinto
  rw [if_neg (by simp [hc.1])]
  refine install_both e fs fs1 sd d s (fun p d => squeeze (readableCmd p d)) ht hl hR ha hda hsd hd hs hi hmk hdir ?_ hps hdiff
  intro p hp g
  show shell e (squeeze (readableCmd p d)) g = _
  unfold shell
  rw [readable_words (hclean p hp) hc]
  dsimp only
  rw [if_pos ⟨rfl, rfl⟩]

/-- **C122**, the same for `dobin`, `doexe` and `dosbin`, for names without blanks and characters with a meaning for the shell. -/
theorem executable_partial (e : Env) (fs fs1 : FS) (sd d s : Str) (ht : Tidy fs) (hl : LinkFree fs) (hR : Rooted fs)
    (ha : isAbs sd = true) (hda : isAbs d = true) (hsd : NoUp sd) (hd : NoUp d) (hs : NoUp s) (hi : e.ignore = false) (hc : Clean d)
    (hmk : makedirs e d fs = (fs1, .ok ())) (hdir : isDirC fs1 (e.cs d) = true)
    (hclean : ∀ p ∈ glob fs1 e.cwd (joinPath sd [s]), Clean p)
    (hps : ∀ p ∈ glob fs1 e.cwd (joinPath sd [s]), Proper (basename p) ∧ ¬ e.cs d <+: e.cs p ∧
      look fs1 (e.cs d ++ [basename p]) ≠ some .dir)
    (hdiff : (glob fs1 e.cwd (joinPath sd [s])).Pairwise fun p q => basename p ≠ basename q) :
    ∃ fs', executableInsinto e sd d [s] fs = (fs', .ok ()) ∧
      (∀ p ∈ glob fs1 e.cwd (joinPath sd [s]), ∀ c, look fs1 (e.cs p) = some (.file c) →
        look fs' (e.cs d ++ [basename p]) = some (.file c)) ∧
      ∀ q, (∀ p ∈ glob fs1 e.cwd (joinPath sd [s]), q ≠ e.cs d ++ [basename p]) → look fs' q = look fs1 q := by
  unfold executableInsinto
  rw [if_neg (by simp [hc.1])]
  refine install_both e fs fs1 sd d s executableCmd ht hl hR ha hda hsd hd hs hi hmk hdir ?_ hps hdiff
  intro p hp g
  unfold shell
  rw [executable_words (hclean p hp) hc]
  dsimp only
  rw [if_neg (by rintro ⟨h, _⟩; revert h; decide), if_pos ⟨rfl, rfl, rfl⟩]
  rfl

/-- **C122** for `dobin`, `doexe` and `dosbin`: into a directory of the package. -/
theorem dobin_partial (e : Env) (fs fs1 : FS) (sd dst s : Str) (hf : e.Fit) (ht : Tidy fs) (hl : LinkFree fs) (hR : Rooted fs)
    (ha : isAbs sd = true) (hsd : NoUp sd) (hd : NoUp dst) (hs : NoUp s) (hi : e.ignore = false) (hc : Clean (joinPath e.inst [dst]))
    (hmk : makedirs e (joinPath e.inst [dst]) fs = (fs1, .ok ())) (hdir : isDirC fs1 (comps e.inst ++ comps dst) = true)
    (hclean : ∀ p ∈ glob fs1 e.cwd (joinPath sd [s]), Clean p)
    (hps : ∀ p ∈ glob fs1 e.cwd (joinPath sd [s]), Proper (basename p) ∧ ¬ comps e.inst ++ comps dst <+: e.cs p ∧
      look fs1 (comps e.inst ++ comps dst ++ [basename p]) ≠ some .dir)
    (hdiff : (glob fs1 e.cwd (joinPath sd [s])).Pairwise fun p q => basename p ≠ basename q) :
    ∃ fs', dobin e sd s dst fs = (fs', .ok ()) ∧
      (∀ p ∈ glob fs1 e.cwd (joinPath sd [s]), ∀ c, look fs1 (e.cs p) = some (.file c) →
        look fs' (comps e.inst ++ comps dst ++ [basename p]) = some (.file c)) ∧
      ∀ q, (∀ p ∈ glob fs1 e.cwd (joinPath sd [s]), q ≠ comps e.inst ++ comps dst ++ [basename p]) → look fs' q = look fs1 q := by
  have hcs := cs_join (e := e) dst hf.abs
  unfold dobin
  rw [← hcs] at hdir hps ⊢
  exact executable_partial e fs fs1 sd (joinPath e.inst [dst]) s ht hl hR ha (isAbs_join1 _ hf.abs) hsd (noup_join hf.noup hd) hs hi hc
    hmk hdir hclean hps hdiff

/-- **C121** for `dodoc`: into the directory of the package in `/usr/share/doc`. -/
theorem dodoc_partial (e : Env) (fs fs1 : FS) (sd tag s : Str) (D : Loc) (hf : e.Fit) (ht : Tidy fs) (hl : LinkFree fs) (hR : Rooted fs)
    (ha : isAbs sd = true) (hsd : NoUp sd) (hd : NoUp tag) (hs : NoUp s) (hi : e.ignore = false)
    (hD : D = comps e.inst ++ [['u', 's', 'r'], ['s', 'h', 'a', 'r', 'e'], ['d', 'o', 'c']] ++ comps tag)
    (hc : Clean (joinPath e.inst ["/usr/share/doc".toList, tag]))
    (hmk : makedirs e (joinPath e.inst ["/usr/share/doc".toList, tag]) fs = (fs1, .ok ())) (hdir : isDirC fs1 D = true)
    (hclean : ∀ p ∈ glob fs1 e.cwd (joinPath sd [s]), CleanQuoted p)
    (hps : ∀ p ∈ glob fs1 e.cwd (joinPath sd [s]), Proper (basename p) ∧ ¬ D <+: e.cs p ∧ look fs1 (D ++ [basename p]) ≠ some .dir)
    (hdiff : (glob fs1 e.cwd (joinPath sd [s])).Pairwise fun p q => basename p ≠ basename q) :
    ∃ fs', dodoc e sd tag [s] fs = (fs', .ok ()) ∧
      (∀ p ∈ glob fs1 e.cwd (joinPath sd [s]), ∀ c, look fs1 (e.cs p) = some (.file c) →
        look fs' (D ++ [basename p]) = some (.file c)) ∧
      ∀ q, (∀ p ∈ glob fs1 e.cwd (joinPath sd [s]), q ≠ D ++ [basename p]) → look fs' q = look fs1 q := by
  have hdoc : comps "/usr/share/doc".toList = [['u', 's', 'r'], ['s', 'h', 'a', 'r', 'e'], ['d', 'o', 'c']] := by decide
  have hab : isAbs (joinPath e.inst ["/usr/share/doc".toList, tag]) = true := isAbs_join2 _ _ hf.abs
  have hcs : e.cs (joinPath e.inst ["/usr/share/doc".toList, tag]) = D := by
    unfold Env.cs absComps
    rw [if_pos hab, comps_join2, hdoc, hD]
  have hno : NoUp (joinPath e.inst ["/usr/share/doc".toList, tag]) := by
    unfold NoUp
    rw [comps_join2, hdoc]
    simp only [List.mem_append, not_or]
    exact ⟨⟨hf.noup, by decide⟩, hd⟩
  unfold dodoc
  rw [← hcs] at hdir hps ⊢
  exact readable_partial e fs fs1 sd _ s ht hl hR ha hab hsd hno hs hi hc hmk hdir hclean hps hdiff

def exSd : Str := ['/', 'b', '/', 's', 'r', 'c']
def exD : Str := ['/', 'b', '/', 'i', 'n', 's', 't', 'a', 'l', 'l', '/', 'u']

/-- A name with one blank, and one with two. -/
def nBl : Str := ['a', ' ', 'b']
def nBB : Str := ['a', ' ', ' ', 'b']
def blankFS : FS := dirsFS ++ [([dB, dS, nBl], .file ['x'])]
def blanksFS : FS := dirsFS ++ [([dB, dS, nBB], .file ['x'])]

/-- A case of `readable_partial`: a blank in the name. -/
example : ∃ fs', readableInsinto exEnv exSd exD [['*']] blankFS = (fs', .ok ()) ∧ look fs' [dB, dI, ['u'], nBl] = some (.file ['x']) := by
  obtain ⟨fs', h1, h2, _⟩ := readable_partial exEnv blankFS (makedirs exEnv exD blankFS).1 exSd exD ['*'] (by decide +kernel)
    (linkFree_of (by decide +kernel)) (rooted_of (by decide +kernel)) (by decide) (by decide) (by decide) (by decide) (by decide) rfl (by decide)
    (eq_of_succeeds (by decide +kernel)) (by decide +kernel) (by decide +kernel) (by decide +kernel) (by decide +kernel)
  refine ⟨fs', h1, ?_⟩
  have := h2 (exSd ++ '/' :: nBl) (by decide +kernel) ['x'] (by decide +kernel)
  exact this

/-- A case of `executable_partial`. -/
example : ∃ fs', executableInsinto exEnv exSd exD [['*', '.', 'h']] filesFS = (fs', .ok ()) ∧ look fs' [dB, dI, ['u'], nC] = some (.file ['y']) := by
  obtain ⟨fs', h1, h2, _⟩ := executable_partial exEnv filesFS (makedirs exEnv exD filesFS).1 exSd exD ['*', '.', 'h'] (by decide +kernel)
    (linkFree_of (by decide +kernel)) (rooted_of (by decide +kernel)) (by decide) (by decide) (by decide) (by decide) (by decide) rfl (by decide)
    (eq_of_succeeds (by decide +kernel)) (by decide +kernel) (by decide +kernel) (by decide +kernel) (by decide +kernel)
  refine ⟨fs', h1, ?_⟩
  have := h2 (exSd ++ '/' :: nC) (by decide +kernel) ['y'] (by decide +kernel)
  exact this

/-- A case of `dobin_partial`. -/
example : ∃ fs', dobin exEnv exSd ['*', '.', 'h'] ['/', 'u'] filesFS = (fs', .ok ()) ∧ look fs' [dB, dI, ['u'], nC] = some (.file ['y']) := by
  obtain ⟨fs', h1, h2, _⟩ := dobin_partial exEnv filesFS (makedirs exEnv (joinPath exEnv.inst [['/', 'u']]) filesFS).1 exSd ['/', 'u'] ['*', '.', 'h']
    exEnv_fit (by decide +kernel) (linkFree_of (by decide +kernel)) (rooted_of (by decide +kernel)) (by decide) (by decide) (by decide) (by decide) rfl
    (by decide) (eq_of_succeeds (by decide +kernel)) (by decide +kernel) (by decide +kernel) (by decide +kernel) (by decide +kernel)
  refine ⟨fs', h1, ?_⟩
  have := h2 (exSd ++ '/' :: nC) (by decide +kernel) ['y'] (by decide +kernel)
  exact this

/-- A case of `dodoc_partial`. -/
example : ∃ fs', dodoc exEnv exSd ['p', '-', '1'] [['*']] blankFS = (fs', .ok ()) ∧
    look fs' ([dB, dI] ++ [['u', 's', 'r'], ['s', 'h', 'a', 'r', 'e'], ['d', 'o', 'c'], ['p', '-', '1'], nBl]) = some (.file ['x']) := by
  obtain ⟨fs', h1, h2, _⟩ := dodoc_partial exEnv blankFS (makedirs exEnv (joinPath exEnv.inst ["/usr/share/doc".toList, ['p', '-', '1']]) blankFS).1
    exSd ['p', '-', '1'] ['*'] _ exEnv_fit (by decide +kernel) (linkFree_of (by decide +kernel)) (rooted_of (by decide +kernel)) (by decide) (by decide)
    (by decide) (by decide) rfl rfl (by decide) (eq_of_succeeds (by decide +kernel)) (by decide +kernel) (by decide +kernel) (by decide +kernel)
    (by decide +kernel)
  refine ⟨fs', h1, ?_⟩
  have := h2 (exSd ++ '/' :: nBl) (by decide +kernel) ['x'] (by decide +kernel)
  exact this

/-- Not so in full: with two blanks in its name a file is left out, and nothing is said. -/
theorem readable_refuted : ¬ InstallFull readableInsinto := by
  intro h
  have := h exEnv blanksFS (makedirs exEnv exD blanksFS).1 (readableInsinto exEnv exSd exD [['*']] blanksFS).1 exSd exD ['*'] (by decide +kernel)
    (linkFree_of (by decide +kernel)) (rooted_of (by decide +kernel)) (by decide) (by decide) (by decide) (by decide) (by decide) rfl (by decide)
    (eq_of_succeeds (by decide +kernel)) (by decide +kernel) (eq_of_succeeds (by decide +kernel)) (exSd ++ '/' :: nBB) (by decide +kernel)
    (by decide +kernel) ['x'] (by decide +kernel)
  revert this
  decide +kernel

/-- And with one blank `dobin` leaves it out. -/
theorem executable_refuted : ¬ InstallFull executableInsinto := by
  intro h
  have := h exEnv blankFS (makedirs exEnv exD blankFS).1 (executableInsinto exEnv exSd exD [['*']] blankFS).1 exSd exD ['*'] (by decide +kernel)
    (linkFree_of (by decide +kernel)) (rooted_of (by decide +kernel)) (by decide) (by decide) (by decide) (by decide) (by decide) rfl (by decide)
    (eq_of_succeeds (by decide +kernel)) (by decide +kernel) (eq_of_succeeds (by decide +kernel)) (exSd ++ '/' :: nBl) (by decide +kernel)
    (by decide +kernel) ['x'] (by decide +kernel)
  revert this
  decide +kernel

/-- A pattern that nothing matches is no error either: nothing happens but that the directory is made. -/
theorem executable_none (e : Env) (fs fs1 : FS) (sd d s : Str) (hd : d ≠ []) (hmk : makedirs e d fs = (fs1, .ok ()))
    (hg : glob fs1 e.cwd (joinPath sd [s]) = []) : executableInsinto e sd d [s] fs = (fs1, .ok ()) ∧
      readableInsinto e sd d [s] fs = (fs1, .ok ()) := by
  unfold executableInsinto readableInsinto
  rw [if_neg (by simp [hd]), if_neg (by simp [hd])]
  unfold seq
  rw [hmk]
  dsimp only
  constructor <;>
  · show seq _ skip fs1 = _
    unfold seq
    beta_reduce
    rw [hg]
    rfl

/-- `doexes` never succeeds. -/
theorem doexes_fails (e : Env) (sd dst : Str) (srcs : List Str) (fs fs' : FS) : doexes e sd srcs dst fs ≠ (fs', .ok ()) := by
  intro h
  obtain ⟨f, _, h2⟩ := seq_ok h
  simp [fail] at h2

/-! ## C123: dolib -/

/-- **C123**, in full: a library that is there is in the package afterwards, a link as a link. -/
def DolibFull : Prop := ∀ (e : Env) (fs fs1 : FS) (src dst perm : Str), e.Fit → Tidy fs → Rooted fs → isAbs e.cwd = true →
  makedirs e (joinPath e.inst [dst]) fs = (fs1, .ok ()) → isDirC fs1 (comps e.inst ++ comps dst) = true →
  existsC fs1 (e.cs (joinPath e.cwd [src])) = true → Clean (joinPath e.cwd [src]) → Clean (joinPath e.inst [dst]) →
  ∃ fs', dolib e src dst perm fs = (fs', .ok ()) ∧ look fs' (comps e.inst ++ comps dst ++ comps (basename src)) ≠ none

/-- A library that is a symbolic link, like `libz.so` in the example beside `dolib`, always stops the script with an `OSError`. -/
theorem dolib_link (e : Env) (fs fs1 : FS) (src dst perm : Str) (hf : e.Fit) (hc : isAbs e.cwd = true)
    (hmk : makedirs e (joinPath e.inst [dst]) fs = (fs1, .ok ())) (hlink : isLinkC fs1 (e.cs (joinPath e.cwd [src])) = true) :
    dolib e src dst perm fs = (fs1, .error .os) := by
  have h1 : isAbs (joinPath e.cwd [src]) = true := isAbs_join1 _ hc
  have h2 : joinPath e.cwd [src] ≠ [] := by intro h; rw [h] at h1; cases h1
  have h3 : joinPath e.inst [dst] ≠ [] := by
    intro h; have := isAbs_join1 dst hf.abs; rw [h] at this; cases this
  unfold dolib libInsinto
  rw [if_neg (by simp [h2, h3])]
  unfold seq
  rw [hmk]
  dsimp only
  rw [if_pos hlink]
  have hj : osJoin (joinPath e.inst [dst]) (joinPath e.cwd [src]) = joinPath e.cwd [src] := by
    unfold osJoin; rw [if_pos h1]
  rw [hj]
  unfold call symlinkC
  unfold isLinkC lstat at hlink
  cases hr : lresolve fs1 (e.cs (joinPath e.cwd [src])) with
  | none => rw [hr] at hlink
  | some p =>
    rw [hr] at hlink
    dsimp only
    simp only [Option.bind_some] at hlink
    cases hx : look fs1 p with
    | none => rw [hx] at hlink; cases hlink
    | some n => simp

/-- **C123** for a library that is a file, with a clean name. -/
theorem dolib_partial (e : Env) (fs fs1 : FS) (src dst perm c : Str) (hf : e.Fit) (hl : LinkFree fs) (hR : Rooted fs)
    (hcw : isAbs e.cwd = true) (hcu : NoUp e.cwd) (hsrc : NoUp src) (hdst : NoUp dst) (hi : e.ignore = false)
    (hmk : makedirs e (joinPath e.inst [dst]) fs = (fs1, .ok ())) (hdir : isDirC fs1 (comps e.inst ++ comps dst) = true)
    (hcs : Clean (joinPath e.cwd [src])) (hcd : Clean (joinPath e.inst [dst])) (hcp : perm ≠ [] → Clean perm)
    (hb : Proper (basename src)) (hfile : look fs1 (comps e.cwd ++ comps src) = some (.file c))
    (hout : ¬ comps e.inst ++ comps dst <+: comps e.cwd ++ comps src)
    (hnd : look fs1 (comps e.inst ++ comps dst ++ [basename src]) ≠ some .dir) :
    ∃ fs', dolib e src dst perm fs = (fs', .ok ()) ∧ ∀ q, look fs' q =
      if q = comps e.inst ++ comps dst ++ [basename src] then some (.file c) else look fs1 q := by
  have h1 : isAbs (joinPath e.cwd [src]) = true := isAbs_join1 _ hcw
  have hda : isAbs (joinPath e.inst [dst]) = true := isAbs_join1 _ hf.abs
  have hS : e.cs (joinPath e.cwd [src]) = comps e.cwd ++ comps src := by
    unfold Env.cs absComps; rw [if_pos h1, comps_join1]
  have hD : e.cs (joinPath e.inst [dst]) = comps e.inst ++ comps dst := cs_join _ hf.abs
  have hdd : dotdot ∉ e.cs (joinPath e.inst [dst]) := (good_inst hf hdst).noup
  have hSd : dotdot ∉ comps e.cwd ++ comps src := by
    intro h
    rcases List.mem_append.mp h with h | h
    · exact hcu h
    · exact hsrc h
  obtain ⟨hl1, hex⟩ := makedirs_exact hl hdd hi hmk
  have hre := makedirs_reached hl hdd hi hmk
  have hR1 := rooted_makedirs hR hre hex
  have hcne : e.cwd ≠ [] := by intro h; rw [h] at hcw; cases hcw
  have hbn : basename (joinPath e.cwd [src]) = basename src := basename_join1 hcne
  rw [hD] at hdd
  unfold dolib libInsinto
  rw [if_neg (by simp [hcs.1, hcd.1])]
  unfold seq
  rw [hmk]
  dsimp only
  rw [isLinkC_false hl1, if_neg (by simp)]
  have hcmd : shWords (squeeze (wInstall ++ ' ' :: (wMode perm ++ ' ' :: (joinPath e.cwd [src] ++ ' ' :: joinPath e.inst [dst])))) =
      some [wInstall, wMode perm, joinPath e.cwd [src], joinPath e.inst [dst]] := by
    have hm : Clean (wMode perm) := by
      refine ⟨by simp [wMode], fun x hx => ?_⟩
      unfold wMode at hx
      rcases List.mem_cons.mp hx with rfl | hx
      · decide
      · rcases List.mem_cons.mp hx with rfl | hx
        · decide
        · exact (hcp (by intro h; rw [h] at hx; simp at hx)).2 x hx
    have hsq : squeeze (wInstall ++ ' ' :: (wMode perm ++ ' ' :: (joinPath e.cwd [src] ++ ' ' :: joinPath e.inst [dst]))) =
        wInstall ++ ' ' :: (wMode perm ++ ' ' :: (joinPath e.cwd [src] ++ ' ' :: joinPath e.inst [dst])) := by
      apply squeeze_same
      · exact clean_single _ (by decide) (clean_single _ hm (clean_single _ hcs (single_noblank _ fun c hc => (hcd.2 c hc).1)))
      · have : wInstall ++ ' ' :: (wMode perm ++ ' ' :: (joinPath e.cwd [src] ++ ' ' :: joinPath e.inst [dst])) =
            (wInstall ++ ' ' :: (wMode perm ++ ' ' :: (joinPath e.cwd [src] ++ [' ']))) ++ joinPath e.inst [dst] := by simp
        rw [this]; exact last_clean hcd _
    rw [hsq, words_cons (by decide), words_cons hm, words_cons hcs, words_last hcd]
    rfl
  unfold shell
  rw [hcmd]
  dsimp only
  rw [if_pos ⟨rfl, rfl⟩, installArgs_two (head_abs h1) hda (by rw [hD]; exact hdir), hbn, hS]
  have hT : e.cs (osJoin (joinPath e.inst [dst]) (basename src)) = comps e.inst ++ comps dst ++ [basename src] := by
    unfold Env.cs
    rw [absComps_osJoin (isAbs_noslash (basename_noslash src)), comps_proper hb]
    have : absComps e.cwd (joinPath e.inst [dst]) = comps e.inst ++ comps dst := hD
    rw [this]
  rw [hT]
  have hTd : dotdot ∉ comps e.inst ++ comps dst ++ [basename src] := by
    intro h
    rcases List.mem_append.mp h with h | h
    · exact hdd h
    · simp only [List.mem_singleton] at h; exact hb.2.2.1 h.symm
  obtain ⟨hdr, hdl⟩ := (isDirC_iff hl1 hdd).mp hdir
  have hrT : Reached fs1 (comps e.inst ++ comps dst ++ [basename src]) := by
    intro q hq hqn
    obtain ⟨t, ht⟩ := hq
    rcases List.eq_nil_or_concat t with rfl | ⟨t', y, rfl⟩
    · rw [List.append_nil] at ht; exact absurd ht hqn
    · have h2 : q ++ t' = comps e.inst ++ comps dst := by
        have := congrArg List.dropLast ht
        rwa [List.concat_eq_append, ← List.append_assoc, List.dropLast_concat, List.dropLast_concat] at this
      by_cases hqd : q = comps e.inst ++ comps dst
      · rw [hqd]; exact hdl
      · exact hdr q ⟨t', h2⟩ hqd
  refine ⟨_, rfl, fun q => ?_⟩
  rw [installFile_exact hl1 hSd hTd (hR1 _ (by rw [hfile]; simp)) hrT hfile hnd
    (by intro h; exact hout (by rw [h]; exact List.prefix_append _ _)), look_put (by simp)]

/-- A case of `dolib_partial`. -/
example : ∃ fs', dolib exEnv nB ['/', 'u'] ['7', '5', '5'] filesFS = (fs', .ok ()) ∧ look fs' [dB, dI, ['u'], nB] = some (.file ['x']) := by
  obtain ⟨fs', h1, h2⟩ := dolib_partial exEnv filesFS (makedirs exEnv (joinPath exEnv.inst [['/', 'u']]) filesFS).1 nB ['/', 'u'] ['7', '5', '5'] ['x']
    exEnv_fit (linkFree_of (by decide +kernel)) (rooted_of (by decide +kernel)) (by decide) (by decide) (by decide) (by decide) rfl
    (eq_of_succeeds (by decide +kernel)) (by decide +kernel) (by decide) (by decide) (fun _ => by decide) (by decide) (by decide +kernel)
    (by decide) (by decide +kernel)
  exact ⟨fs', h1, by rw [h2]; decide +kernel⟩

def libFS : FS := filesFS ++ [([dB, dS, ['l']], .link nB)]

/-- Not so in full. -/
theorem dolib_refuted : ¬ DolibFull := by
  intro h
  obtain ⟨fs', h1, _⟩ := h exEnv libFS (makedirs exEnv (joinPath exEnv.inst [['/', 'u']]) libFS).1 ['l'] ['/', 'u'] [] exEnv_fit (by decide +kernel)
    (rooted_of (by decide +kernel)) (by decide) (eq_of_succeeds (by decide +kernel)) (by decide +kernel) (by decide +kernel) (by decide) (by decide)
  rw [dolib_link exEnv libFS (makedirs exEnv (joinPath exEnv.inst [['/', 'u']]) libFS).1 ['l'] ['/', 'u'] [] exEnv_fit (by decide)
    (eq_of_succeeds (by decide +kernel)) (by decide +kernel)] at h1
  simp at h1

end Pisi.Act
