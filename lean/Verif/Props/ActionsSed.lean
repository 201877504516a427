import Verif.Spec.Replace
import Verif.Props.ActionsMove

/-! # C117: dosed -/
namespace Pisi.Act
open Pisi.Path (joinPath joinStep lstripSlash)

/-- **C117**, in full: every occurrence of a text in the file is replaced, and nothing else happens. -/
def DosedFull : Prop := ∀ (e : Env) (fs fs' : FS) (src c f r : Str), Tidy fs → LinkFree fs → Rooted fs → hasMagic src = false →
  dotdot ∉ e.cs src → look fs (e.cs src) = some (.file c) → f ≠ [] → dosed e (replaceAll f r) src fs = (fs', .ok ()) →
  ∀ q, look fs' q = if q = e.cs src then some (.file (replaceAll f r c)) else look fs q

theorem prefix_noline {f l s : Str} (hf : '\n' ∉ f) : f <+: l ++ '\n' :: s ↔ f <+: l := by
  induction l generalizing f with
  | nil =>
    cases f with
    | nil => simp
    | cons x f =>
      constructor
      · rintro ⟨t, ht⟩
        simp only [List.cons_append, List.nil_append, List.cons.injEq] at ht
        exact absurd (ht.1 ▸ List.mem_cons_self) hf
      · rintro ⟨t, ht⟩; simp at ht
  | cons y l ih =>
    cases f with
    | nil => simp
    | cons x f =>
      rw [List.cons_append, List.cons_prefix_cons, List.cons_prefix_cons, ih (fun h => hf (List.mem_cons_of_mem _ h))]

/-- A replacement works line by line if there is no line end in the text to be found. -/
theorem replaceFrom_line {f r : Str} (hf : '\n' ∉ f) (h0 : f ≠ []) : ∀ (l s : Str) (k : Nat), k ≤ l.length →
    replaceFrom f r k (l ++ '\n' :: s) = replaceFrom f r k (l ++ ['\n']) ++ replaceFrom f r 0 s := by
  intro l
  induction l with
  | nil =>
    intro s k hk
    have : k = 0 := by simpa using hk
    subst this
    have h1 : ¬ f <+: '\n' :: s := fun h => by
      have := (prefix_noline (l := []) hf).mp h
      simp at this; exact h0 this
    have h2 : ¬ f <+: ['\n'] := fun h => by
      have := (prefix_noline (l := []) (s := []) hf).mp h
      simp at this; exact h0 this
    simp [replaceFrom, h1, h2]
  | cons c l ih =>
    intro s k hk
    cases k with
    | succ k =>
      simp only [List.cons_append, replaceFrom]
      exact ih s k (by simpa using hk)
    | zero =>
      simp only [List.cons_append, replaceFrom]
      have h1 : f <+: c :: (l ++ '\n' :: s) ↔ f <+: c :: l := prefix_noline (l := c :: l) hf
      have h2 : f <+: c :: (l ++ ['\n']) ↔ f <+: c :: l := prefix_noline (l := c :: l) hf
      by_cases h : f <+: c :: l
      · rw [if_pos (h1.mpr h), if_pos (h2.mpr h), ih s _ (by have := h.length_le; simp at this; omega), List.append_assoc]
      · rw [if_neg (fun x => h (h1.mp x)), if_neg (fun x => h (h2.mp x)), ih s 0 (Nat.zero_le _), List.cons_append]

theorem linesKeep_line {l s : Str} (h : '\n' ∉ l) : linesKeep (l ++ '\n' :: s) = (l ++ ['\n']) :: linesKeep s := by
  induction l with
  | nil => simp [linesKeep]
  | cons c l ih =>
    have hc : c ≠ '\n' := fun e => h (e ▸ List.mem_cons_self)
    simp only [List.cons_append, linesKeep]
    rw [if_neg hc, ih (fun x => h (List.mem_cons_of_mem _ x))]

theorem linesKeep_last {l : Str} (h : '\n' ∉ l) (h0 : l ≠ []) : linesKeep l = [l] := by
  induction l with
  | nil => exact absurd rfl h0
  | cons c l ih =>
    have hc : c ≠ '\n' := fun e => h (e ▸ List.mem_cons_self)
    simp only [linesKeep]
    rw [if_neg hc]
    by_cases hl : l = []
    · subst hl; rfl
    · rw [ih (fun x => h (List.mem_cons_of_mem _ x)) hl]

/-- A text is a line and the rest, or has no line end. -/
theorem line_cases (c : Str) : '\n' ∉ c ∨ ∃ l s, '\n' ∉ l ∧ c = l ++ '\n' :: s := by
  induction c with
  | nil => left; simp
  | cons x c ih =>
    by_cases hx : x = '\n'
    · right; exact ⟨[], c, by simp, by rw [hx]; rfl⟩
    · rcases ih with h | ⟨l, s, h, rfl⟩
      · left; simp only [List.mem_cons, not_or]; exact ⟨Ne.symm hx, h⟩
      · right; exact ⟨x :: l, s, by simp only [List.mem_cons, not_or]; exact ⟨Ne.symm hx, h⟩, rfl⟩

theorem lines_induction {P : Str → Prop} (h0 : ∀ c, '\n' ∉ c → P c) (hs : ∀ l s, '\n' ∉ l → P s → P (l ++ '\n' :: s)) : ∀ c, P c := by
  intro c
  induction hn : c.length using Nat.strongRecOn generalizing c with
  | _ n ih =>
    rcases line_cases c with h | ⟨l, s, h, rfl⟩
    · exact h0 c h
    · exact hs l s h (ih s.length (by subst hn; simp; omega) s rfl)

/-- Line by line a text without a line end is replaced everywhere. -/
theorem lines_replace {f r : Str} (hf : '\n' ∉ f) (h0 : f ≠ []) (c : Str) :
    (linesKeep c).flatMap (replaceAll f r) = replaceAll f r c := by
  induction c using lines_induction with
  | h0 c hc =>
    by_cases h : c = []
    · subst h; rfl
    · rw [linesKeep_last hc h]; simp
  | hs l s hl ih =>
    rw [linesKeep_line hl, List.flatMap_cons, ih]
    unfold replaceAll
    rw [← replaceFrom_line hf h0 l s 0 (Nat.zero_le _)]

theorem replaceFrom_none {f r : Str} : ∀ s : Str, ¬ f <:+: s → replaceFrom f r 0 s = s := by
  intro s
  induction s with
  | nil => intro _; rfl
  | cons c s ih =>
    intro h
    simp only [replaceFrom]
    rw [if_neg (fun hp => h hp.isInfix), ih (fun hi => h (hi.trans (List.suffix_cons _ _).isInfix))]

theorem linesKeep_flatten (c : Str) : (linesKeep c).flatten = c := by
  induction c using lines_induction with
  | h0 c hc =>
    by_cases h : c = []
    · subst h; rfl
    · rw [linesKeep_last hc h]; simp
  | hs l s hl ih => rw [linesKeep_line hl, List.flatten_cons, ih]; simp

/-- Of a line only the last character is a line end. -/
theorem mem_linesKeep {c x : Str} (h : x ∈ linesKeep c) : '\n' ∉ x.dropLast := by
  induction c using lines_induction with
  | h0 c hc =>
    by_cases h0 : c = []
    · subst h0; simp [linesKeep] at h
    · rw [linesKeep_last hc h0] at h
      simp only [List.mem_singleton] at h
      subst h
      exact fun hm => hc (List.dropLast_subset _ hm)
  | hs l s hl ih =>
    rw [linesKeep_line hl] at h
    rcases List.mem_cons.mp h with rfl | h
    · rw [List.dropLast_concat]; exact hl
    · exact ih h

/-- Line by line a text with a line end before its last character is never found, wherever it occurs. -/
theorem lines_blind {u v r : Str} (hv : v ≠ []) (c : Str) : (linesKeep c).flatMap (replaceAll (u ++ '\n' :: v) r) = c := by
  conv_rhs => rw [← linesKeep_flatten c]
  rw [List.flatMap_def]
  congr 1
  conv_rhs => rw [← List.map_id (linesKeep c)]
  apply List.map_congr_left
  intro x hx
  refine replaceFrom_none x ?_
  rintro ⟨a, b, hab⟩
  apply mem_linesKeep hx
  obtain ⟨v', y, rfl⟩ : ∃ v' y, v = v' ++ [y] := by
    rcases List.eq_nil_or_concat v with rfl | ⟨v', y, rfl⟩
    · exact absurd rfl hv
    · exact ⟨v', y, by simp⟩
  rcases List.eq_nil_or_concat b with rfl | ⟨b', z, rfl⟩
  · have : x = (a ++ u ++ '\n' :: v') ++ [y] := by rw [← hab]; simp
    rw [this, List.dropLast_concat]; simp
  · have : x = (a ++ u ++ '\n' :: v' ++ [y] ++ b') ++ [z] := by rw [← hab]; simp
    rw [this, List.dropLast_concat]; simp

/-! ### The file -/

theorem bak_cs {e : Env} {s : Str} (hb : Proper (basename s)) : ∃ P, e.cs s = P ++ [basename s] ∧ e.cs (bak s) = P ++ [bak (basename s)] := by
  have hs : s ≠ [] := by rintro rfl; exact hb.1 rfl
  have hpb : Proper (bak (basename s)) := by
    refine ⟨?_, ?_, ?_, ?_⟩
    · simp [bak]
    · intro h; have := congrArg List.length h; simp [bak] at this
    · intro h; have := congrArg List.length h; simp [bak, dotdot] at this
    · intro h
      unfold bak at h
      rcases List.mem_append.mp h with h | h
      · exact hb.2.2.2 h
      · revert h; decide
  have h1 : comps s = comps (headOf s) ++ [basename s] := by rw [comps_headOf s, comps_proper hb]
  have h2 : comps (bak s) = comps (headOf s) ++ [bak (basename s)] := by
    have : bak s = headOf s ++ bak (basename s) := by
      unfold bak; rw [← List.append_assoc, headOf_append]
    rw [this]
    rcases headOf_cases s with h | ⟨a, h⟩
    · rw [h]; simp [comps_proper hpb]
    · rw [h, List.append_assoc, List.singleton_append, comps_append, comps_trail, comps_proper hpb]
  have h3 : isAbs (bak s) = isAbs s := isAbs_append _ hs
  unfold Env.cs absComps
  rw [h3, h1, h2]
  split
  · exact ⟨_, rfl, rfl⟩
  · exact ⟨comps e.cwd ++ comps (headOf s), by simp, by simp⟩

theorem bak_ne (b : Str) : bak b ≠ b := by
  intro h; have := congrArg List.length h; simp [bak] at this

/-- **C117**: the lines of the file are edited one by one; a file of the same name with `.bak` is lost; nothing else changes.
Without `.bak` this is the statement in full for a text without line ends, see `dosed_text`. -/
theorem dosed_partial (e : Env) (fs : FS) (sub : Str → Str) (src c : Str) (hl : LinkFree fs)
    (hm : hasMagic src = false) (hb : Proper (basename src)) (hd : dotdot ∉ e.cs src) (hr : Reached fs (e.cs src))
    (hc : look fs (e.cs src) = some (.file c)) (hbak : look fs (e.cs (bak src)) ≠ some .dir) :
    ∃ fs', dosed e sub src fs = (fs', .ok ()) ∧ ∀ q, look fs' q =
      if q = e.cs src then some (.file ((linesKeep c).flatMap sub)) else if q = e.cs (bak src) then none else look fs q := by
  obtain ⟨P, hS, hB⟩ := bak_cs (e := e) hb
  have hne : e.cs (bak src) ≠ e.cs src := by
    rw [hS, hB]; simp [bak_ne]
  have hS0 : e.cs src ≠ [] := by rw [hS]; simp
  have hB0 : e.cs (bak src) ≠ [] := by rw [hB]; simp
  have hdB : dotdot ∉ e.cs (bak src) := by
    rw [hB]
    intro h
    rcases List.mem_append.mp h with h | h
    · apply hd; rw [hS]; exact List.mem_append_left _ h
    · simp only [List.mem_singleton] at h
      have := congrArg List.length h; simp [bak, dotdot] at this
  have hP : ∀ q, q <+: P → look fs q = some .dir := by
    intro q hq
    refine hr q (by rw [hS]; exact hq.trans (List.prefix_append _ _)) ?_
    rintro rfl
    have := hq.length_le
    rw [hS] at this; simp at this; omega
  have hpre : ∀ (x : Str) (q : Loc), q <+: P ++ [x] → q ≠ P ++ [x] → q <+: P := by
    intro x q hq hqn
    obtain ⟨t, ht⟩ := hq
    rcases List.eq_nil_or_concat t with rfl | ⟨t', y, rfl⟩
    · rw [List.append_nil] at ht; exact absurd ht hqn
    · refine ⟨t', ?_⟩
      have := congrArg List.dropLast ht
      rw [List.concat_eq_append, ← List.append_assoc, List.dropLast_concat, List.dropLast_concat] at this
      exact this
  -- any state that agrees with the first one on the directories on the way
  have reach : ∀ f : FS, (∀ q, q <+: P → look f q = some .dir) → Reached f (e.cs src) ∧ Reached f (e.cs (bak src)) := by
    intro f hf
    constructor
    · rw [hS]; exact fun q hq hqn => hf q (hpre _ q hq hqn)
    · rw [hB]; exact fun q hq hqn => hf q (hpre _ q hq hqn)
  have hPs : ∀ q, q <+: P → q ≠ e.cs src ∧ q ≠ e.cs (bak src) := by
    intro q hq
    constructor
    · rintro rfl; have := hq.length_le; rw [hS] at this; simp at this; omega
    · rintro rfl; have := hq.length_le; rw [hB] at this; simp at this; omega
  -- the old copy is deleted
  obtain ⟨f1, h1, hl1, hf1⟩ : ∃ f1, catching (· == .os) (call (unlinkC (e.cs (bak src)))) skip fs = (f1, .ok ()) ∧ LinkFree f1 ∧
      ∀ q, look f1 q = if q = e.cs (bak src) then none else look fs q := by
    unfold catching call unlinkC
    rw [(lresolve_iff hl hdB _).mpr ⟨rfl, (reach fs hP).2⟩]
    dsimp only
    cases hk : look fs (e.cs (bak src)) with
    | none =>
      refine ⟨fs, rfl, hl, fun q => ?_⟩
      by_cases hq : q = e.cs (bak src)
      · rw [if_pos hq, hq, hk]
      · rw [if_neg hq]
    | some n => cases n with
      | dir => exact absurd hk hbak
      | link t => exact absurd hk (look_not_link hl _ _)
      | file c' => exact ⟨_, rfl, linkFree_filter hl _, fun q => look_del hB0 q⟩
  have hP1 : ∀ q, q <+: P → look f1 q = some .dir := fun q hq => by rw [hf1, if_neg (hPs q hq).2, hP q hq]
  have hc1 : look f1 (e.cs src) = some (.file c) := by rw [hf1, if_neg hne.symm, hc]
  have hb1 : look f1 (e.cs (bak src)) = none := by rw [hf1, if_pos rfl]
  -- the file is renamed
  obtain ⟨f2, h2, hl2, hf2⟩ : ∃ f2, renameC (e.cs src) (e.cs (bak src)) f1 = .ok f2 ∧ LinkFree f2 ∧
      ∀ q, look f2 q = if q = e.cs (bak src) then some (.file c) else if q = e.cs src then none else look f1 q := by
    refine ⟨(f1.del (e.cs src)).put (e.cs (bak src)) (.file c), ?_, linkFree_put (linkFree_filter hl1 _) _ (by simp), fun q => ?_⟩
    · unfold renameC
      rw [(lresolve_iff hl1 hd _).mpr ⟨rfl, (reach f1 hP1).1⟩, (lresolve_iff hl1 hdB _).mpr ⟨rfl, (reach f1 hP1).2⟩]
      dsimp only
      rw [hc1]
      dsimp only
      rw [if_neg hne.symm, if_neg, hb1]
      rintro (h | h | h)
      · apply hne
        rw [hS, hB] at h ⊢
        have := List.IsPrefix.eq_of_length h (by simp)
        exact this.symm
      · exact hB0 h
      · exact hS0 h
    · rw [look_put hB0, look_del hS0]
  have hP2 : ∀ q, q <+: P → look f2 q = some .dir := fun q hq => by
    rw [hf2, if_neg (hPs q hq).2, if_neg (hPs q hq).1, hP1 q hq]
  have hb2 : look f2 (e.cs (bak src)) = some (.file c) := by rw [hf2, if_pos rfl]
  have hs2 : look f2 (e.cs src) = none := by rw [hf2, if_neg hne.symm, if_pos rfl]
  have hst : stat f2 (e.cs (bak src)) = some (.file c) := (stat_iff hl2 hdB _).mpr ⟨(reach f2 hP2).2, hb2⟩
  -- it is written
  have h3 : writeC (e.cs src) ((linesKeep c).flatMap sub) f2 = .ok (f2.put (e.cs src) (.file ((linesKeep c).flatMap sub))) := by
    unfold writeC
    rw [(resolve_iff hl2 hd _).mpr ⟨rfl, (reach f2 hP2).1⟩]
    dsimp only
    rw [hs2]
  generalize hf3 : f2.put (e.cs src) (.file ((linesKeep c).flatMap sub)) = f3 at h3
  have hl3 : LinkFree f3 := by rw [← hf3]; exact linkFree_put hl2 _ (by simp)
  have hf3 : ∀ q, look f3 q = if q = e.cs src then some (.file ((linesKeep c).flatMap sub)) else look f2 q := by
    intro q; rw [← hf3, look_put hS0]
  have hP3 : ∀ q, q <+: P → look f3 q = some .dir := fun q hq => by rw [hf3, if_neg (hPs q hq).1, hP2 q hq]
  -- and the copy deleted
  have h4 : unlinkC (e.cs (bak src)) f3 = .ok (f3.del (e.cs (bak src))) := by
    unfold unlinkC
    rw [(lresolve_iff hl3 hdB _).mpr ⟨rfl, (reach f3 hP3).2⟩]
    dsimp only
    rw [hf3, if_neg hne, hb2]
  refine ⟨f3.del (e.cs (bak src)), ?_, fun q => ?_⟩
  · unfold dosed
    have hls : lexistsC fs (absComps e.cwd src) = true := by
      unfold lexistsC
      show (lstat fs (e.cs src)).isSome = true
      rw [(lstat_iff hl hd _).mpr ⟨hr, hc⟩]; rfl
    have hex : existsC fs (e.cs src) = true := by
      unfold existsC; rw [(stat_iff hl hd _).mpr ⟨hr, hc⟩]; rfl
    rw [glob_plain hm hb.1, if_pos hls]
    show seq _ skip fs = _
    unfold seq
    beta_reduce
    rw [if_pos hex]
    have : sedFile e sub src fs = (f3.del (e.cs (bak src)), .ok ()) := by
      unfold sedFile
      unfold seq
      rw [h1]
      dsimp only
      unfold call
      rw [h2]
      dsimp only
      rw [hst]
      dsimp only
      rw [h3]
      unfold catching
      dsimp only
      rw [h4]
    rw [this]
    rfl
  · rw [look_del hB0, hf3, hf2, hf1]
    by_cases hq : q = e.cs src
    · subst hq; simp [hne.symm]
    · by_cases hq2 : q = e.cs (bak src)
      · simp [hq2, hne]
      · simp [hq, hq2]

/-- Hence the statement in full for a text without line ends, if there is no file with `.bak`. -/
theorem dosed_text (e : Env) (fs : FS) (src c f r : Str) (hl : LinkFree fs) (hm : hasMagic src = false) (hb : Proper (basename src))
    (hd : dotdot ∉ e.cs src) (hr : Reached fs (e.cs src)) (hc : look fs (e.cs src) = some (.file c))
    (hbak : look fs (e.cs (bak src)) = none) (hf0 : f ≠ []) (hf : '\n' ∉ f) :
    ∃ fs', dosed e (replaceAll f r) src fs = (fs', .ok ()) ∧ ∀ q, look fs' q =
      if q = e.cs src then some (.file (replaceAll f r c)) else look fs q := by
  obtain ⟨fs', h1, h2⟩ := dosed_partial e fs (replaceAll f r) src c hl hm hb hd hr hc (by rw [hbak]; simp)
  refine ⟨fs', h1, fun q => ?_⟩
  rw [h2, lines_replace hf hf0]
  by_cases hq : q = e.cs src
  · rw [if_pos hq, if_pos hq]
  · rw [if_neg hq, if_neg hq]
    by_cases hq2 : q = e.cs (bak src)
    · rw [if_pos hq2, hq2, hbak]
    · rw [if_neg hq2]

/-- And a text with a line end before its last character is never replaced: the file keeps its content. -/
theorem dosed_blind (e : Env) (fs : FS) (src c u v r : Str) (hl : LinkFree fs) (hm : hasMagic src = false) (hb : Proper (basename src))
    (hd : dotdot ∉ e.cs src) (hr : Reached fs (e.cs src)) (hc : look fs (e.cs src) = some (.file c))
    (hbak : look fs (e.cs (bak src)) = none) (hv : v ≠ []) :
    ∃ fs', dosed e (replaceAll (u ++ '\n' :: v) r) src fs = (fs', .ok ()) ∧ look fs' (e.cs src) = some (.file c) := by
  obtain ⟨fs', h1, h2⟩ := dosed_partial e fs (replaceAll (u ++ '\n' :: v) r) src c hl hm hb hd hr hc (by rw [hbak]; simp)
  exact ⟨fs', h1, by rw [h2, if_pos rfl, lines_blind hv]⟩

def sedFS : FS := dirsFS ++ [([dB, dS, nB], .file ['x', 'y', '\n', 'x', 'y'])]
def sedBakFS : FS := sedFS ++ [([dB, dS, bak nB], .file ['z'])]

/-- A case of `dosed_text`. -/
example : ∃ fs', dosed exEnv (replaceAll ['x', 'y'] ['y', 'x']) nB sedFS = (fs', .ok ()) ∧
    look fs' [dB, dS, nB] = some (.file ['y', 'x', '\n', 'y', 'x']) := by
  obtain ⟨fs', h1, h2⟩ := dosed_text exEnv sedFS nB ['x', 'y', '\n', 'x', 'y'] ['x', 'y'] ['y', 'x'] (linkFree_of (by decide +kernel)) (by decide)
    (by decide) (by decide) (reached_of (by decide +kernel)) (by decide +kernel) (by decide +kernel) (by decide) (by decide)
  exact ⟨fs', h1, by rw [h2]; decide +kernel⟩

/-- A case of `dosed_blind`. -/
example : ∃ fs', dosed exEnv (replaceAll (['y'] ++ '\n' :: ['x']) []) nB sedFS = (fs', .ok ()) ∧
    look fs' (exEnv.cs nB) = some (.file ['x', 'y', '\n', 'x', 'y']) :=
  dosed_blind exEnv sedFS nB ['x', 'y', '\n', 'x', 'y'] ['y'] ['x'] [] (linkFree_of (by decide +kernel)) (by decide)
    (by decide) (by decide) (reached_of (by decide +kernel)) (by decide +kernel) (by decide +kernel) (by decide)

/-- Not so in full: a text over the end of a line is not found. -/
theorem dosed_refuted : ¬ DosedFull := by
  intro h
  have := h exEnv sedFS (dosed exEnv (replaceAll ['y', '\n'  , 'x'] []) nB sedFS).1 nB ['x', 'y', '\n', 'x', 'y'] ['y', '\n', 'x'] []
    (by decide +kernel) (linkFree_of (by decide +kernel)) (rooted_of (by decide +kernel)) (by decide) (by decide) (by decide +kernel) (by decide)
    (eq_of_succeeds (by decide +kernel)) [dB, dS, nB]
  revert this
  decide +kernel

/-- And a file whose name ends with `.bak` is lost. -/
theorem dosed_refuted_bak : ¬ DosedFull := by
  intro h
  have := h exEnv sedBakFS (dosed exEnv (replaceAll ['y'] []) nB sedBakFS).1 nB ['x', 'y', '\n', 'x', 'y'] ['y'] []
    (by decide +kernel) (linkFree_of (by decide +kernel)) (rooted_of (by decide +kernel)) (by decide) (by decide) (by decide +kernel) (by decide)
    (eq_of_succeeds (by decide +kernel)) [dB, dS, bak nB]
  revert this
  decide +kernel

/-- A symbolic link is replaced by a file, the file it leads to is not edited. -/
theorem dosed_link : ∃ (fs fs' : FS), Tidy fs ∧ Rooted fs ∧ dosed exEnv (replaceAll ['y'] []) nC fs = (fs', .ok ()) ∧
    look fs [dB, dS, nC] = some (.link nB) ∧ look fs [dB, dS, nB] = some (.file ['x', 'y', '\n', 'x', 'y']) ∧
    look fs' [dB, dS, nC] = some (.file ['x', '\n', 'x']) ∧ look fs' [dB, dS, nB] = some (.file ['x', 'y', '\n', 'x', 'y']) := by
  refine ⟨sedFS ++ [([dB, dS, nC], .link nB)], _, by decide +kernel, rooted_of (by decide +kernel), eq_of_succeeds (by decide +kernel),
    by decide +kernel, by decide +kernel, by decide +kernel, by decide +kernel⟩

/-- The path is not taken from the install directory, as the examples beside `dosed` have it: the file of the system is edited. -/
theorem dosed_system : ∃ (fs fs' : FS), LinkFree fs ∧ Rooted fs ∧ exEnv.Fit ∧ ¬ SameOutside (comps exEnv.inst) fs fs' ∧
    dosed exEnv (replaceAll ['y'] []) ['/', 'e', '/', 'p'] fs = (fs', .ok ()) ∧
    look fs [dB, dI, ['e'], ['p']] = some (.file ['y']) ∧ look fs' [dB, dI, ['e'], ['p']] = some (.file ['y']) := by
  refine ⟨dirsFS ++ [([['e']], .dir), ([['e'], ['p']], .file ['y']), ([dB, dI, ['e']], .dir), ([dB, dI, ['e'], ['p']], .file ['y'])], _,
    linkFree_of (by decide +kernel), rooted_of (by decide +kernel), exEnv_fit, ?_, eq_of_succeeds (by decide +kernel),
    by decide +kernel, by decide +kernel⟩
  intro h
  have := h [['e'], ['p']] (by decide)
  revert this
  decide +kernel

end Pisi.Act
