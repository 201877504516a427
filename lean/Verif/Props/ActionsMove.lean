import Verif.Props.ActionsEffects

/-! # C115, C116: moving and removing -/
namespace Pisi.Act
open Pisi.Path (joinPath joinStep lstripSlash)

/-! ## C115: domove -/

/-- **C115**, in full and as the example beside `domove` has it: afterwards the file is at the destination. -/
def DomoveFull : Prop := ∀ (e : Env) (fs fs' : FS) (src dst c : Str), e.Fit → Tidy fs → LinkFree fs → Rooted fs →
  isDirC fs (comps e.inst) = true → NoUp src → NoUp dst → hasMagic src = false → e.ignore = false →
  look fs (comps e.inst ++ comps src) = some (.file c) → domove e src dst [] fs = (fs', .ok ()) →
  look fs' (comps e.inst ++ comps dst) = some (.file c)

theorem basename_slash (x t : Str) : basename (x ++ '/' :: t) = basename t := by
  unfold basename
  rw [List.reverse_append, List.reverse_cons, List.append_assoc, List.singleton_append]
  by_cases h : '/' ∈ t
  · rw [List.takeWhile_append]
    have hlt : (List.takeWhile (fun c => decide (c ≠ '/')) t.reverse).length ≠ t.reverse.length := by
      intro hl
      have h2 := List.takeWhile_prefix (fun c => decide (c ≠ '/')) (l := t.reverse)
      have h3 := List.IsPrefix.eq_of_length h2 hl
      have hmem : '/' ∈ List.takeWhile (fun c => decide (c ≠ '/')) t.reverse := by rw [h3]; exact List.mem_reverse.mpr h
      have key : ∀ l : List Char, '/' ∉ l.takeWhile (fun c => decide (c ≠ '/')) := by
        intro l
        induction l with
        | nil => simp
        | cons a l ih =>
          by_cases ha : a = '/'
          · simp [ha]
          · simp only [List.takeWhile_cons, ne_eq, ha, not_false_eq_true, decide_true, if_true, List.mem_cons, not_or]
            exact ⟨fun e => ha e.symm, ih⟩
      exact key _ hmem
    rw [if_neg hlt]
  · have hr : ∀ x ∈ t.reverse, (decide (x ≠ '/')) = true := by
      intro x hx
      have : x ≠ '/' := fun e => h (e ▸ List.mem_reverse.mp hx)
      simp [this]
    rw [List.takeWhile_append_of_pos hr]
    have := List.takeWhile_append_of_pos (l₂ := []) hr
    simp only [List.append_nil, List.takeWhile_nil] at this
    rw [this]
    simp

theorem basename_lstrip (s : Str) : basename (lstripSlash s) = basename s := by
  induction s with
  | nil => rfl
  | cons x xs ih =>
    by_cases h : x = '/'
    · subst h
      have := basename_slash [] xs
      rw [List.nil_append] at this
      rw [this, ← ih]
      simp [lstripSlash]
    · simp [lstripSlash, h]

theorem basename_join1 {a b : Str} (ha : a ≠ []) : basename (joinPath a [b]) = basename b := by
  simp only [joinPath, List.foldl, joinStep]
  split
  · rename_i h
    rcases h with h | h
    · exact absurd h ha
    · obtain ⟨a', rfl⟩ := List.getLast?_eq_some_iff.mp h
      rw [List.append_assoc, List.singleton_append, basename_slash, basename_lstrip]
  · rw [basename_slash, basename_lstrip]

theorem hasMagic_lstrip {b : Str} (h : hasMagic b = false) : hasMagic (lstripSlash b) = false := by
  simp only [hasMagic, List.any_eq_false] at h ⊢
  intro x hx
  exact h x ((List.dropWhile_suffix _).subset hx)

theorem hasMagic_join1 {a b : Str} (ha : hasMagic a = false) (hb : hasMagic b = false) : hasMagic (joinPath a [b]) = false := by
  simp only [joinPath, List.foldl, joinStep]
  split
  · rw [hasMagic_append, ha, hasMagic_lstrip hb]; rfl
  · rw [show (a ++ '/' :: lstripSlash b) = a ++ (['/'] ++ lstripSlash b) by simp, hasMagic_append, hasMagic_append, ha,
      hasMagic_lstrip hb]; rfl

/-- After a tree has been moved from `s` to a place `d` where nothing was. -/
def Moved (s d : Loc) (fs fs' : FS) : Prop := ∀ q, look fs' q =
  if d <+: q then look fs (s ++ q.drop d.length) else if s <+: q then none else look fs q

theorem get_reroot (s d : Loc) (r : Loc) : ∀ fs : FS,
    Dict.get ((fs.filter fun e => s <+: e.1).map (fun e => (d ++ e.1.drop s.length, e.2))) (d ++ r) = fs.get (s ++ r) := by
  intro fs
  induction fs with
  | nil => rfl
  | cons x xs ih =>
    obtain ⟨k, v⟩ := x
    rw [List.filter_cons]
    by_cases h : s <+: k
    · obtain ⟨t, rfl⟩ := h
      simp only [List.prefix_append, decide_true, if_true, List.map_cons, List.drop_left, Dict.get, ih]
      by_cases hr : t = r
      · simp [hr]
      · simp [hr]
    · simp only [h, decide_false, Bool.false_eq_true, if_false, ih, Dict.get]
      have : k ≠ s ++ r := by rintro rfl; exact h (List.prefix_append _ _)
      simp [this]

theorem get_filter_none {fs : FS} {q : Loc} (P : Loc × Node → Bool) (h : ∀ n, P (q, n) = false) : Dict.get (fs.filter P) q = none := by
  induction fs with
  | nil => rfl
  | cons x xs ih =>
    obtain ⟨k, v⟩ := x
    rw [List.filter_cons]
    split
    · rename_i hp
      have : k ≠ q := by rintro rfl; rw [h v] at hp; cases hp
      simp [Dict.get, this, ih]
    · exact ih

theorem moveTree_moved {fs : FS} {s d : Loc} (hs : s ≠ []) (hd : d ≠ []) (hn : ∀ r, look fs (d ++ r) = none)
    (hsd : ¬ s <+: d) : Moved s d fs (moveTree fs s d) := by
  intro q
  have hget : ∀ r, fs.get (d ++ r) = none := fun r => by
    have := hn r
    unfold look at this
    rwa [if_neg (by simp [hd])] at this
  by_cases hq : d <+: q
  · obtain ⟨r, rfl⟩ := hq
    rw [if_pos (List.prefix_append _ _), List.drop_left]
    unfold look moveTree
    rw [if_neg (by simp [hd]), if_neg (by simp [hs]), get_append, get_reroot]
    cases hg : fs.get (s ++ r) with
    | some n => rfl
    | none =>
      rw [Option.none_or]
      by_cases hp : ¬ s <+: d ++ r ∧ d ++ r ≠ d
      · rw [get_filter _ (by intro n; simpa using hp), hget]
      · rw [get_filter_none _ (by intro n; simpa using hp)]
  · rw [if_neg hq]
    have hqd : q ≠ d := by rintro rfl; exact hq List.prefix_rfl
    by_cases hq0 : q = []
    · subst hq0
      rw [if_neg (by simpa using hs)]; rfl
    · unfold look moveTree
      rw [if_neg hq0, get_append, get_none_of, Option.none_or]
      · by_cases hsq : s <+: q
        · rw [if_pos hsq, get_filter_none _ (by intro n; simp [hsq])]
        · rw [if_neg hsq, if_neg hq0, get_filter _ (by intro n; simp [hsq, hqd])]
      · intro x hx
        obtain ⟨y, _, rfl⟩ := List.mem_map.mp hx
        rintro rfl; exact hq (List.prefix_append _ _)

/-- `os.rename` to a place where nothing is. -/
theorem renameC_moved {fs : FS} {s d : Loc} (hl : LinkFree fs) (hR : Rooted fs) (hs : s ≠ []) (hd : d ≠ [])
    (hds : dotdot ∉ s) (hdd : dotdot ∉ d) (hrs : Reached fs s) (hrd : Reached fs d) {n : Node} (hn : look fs s = some n)
    (hnone : look fs d = none) (hsd : ¬ s <+: d) : ∃ fs', renameC s d fs = .ok fs' ∧ Moved s d fs fs' := by
  have hbelow : ∀ r, look fs (d ++ r) = none := by
    intro r
    by_cases hr : r = []
    · rw [hr, List.append_nil]; exact hnone
    · cases hx : look fs (d ++ r) with
      | none => rfl
      | some m =>
        have := hR (d ++ r) (by rw [hx]; simp) d (List.prefix_append _ _) (by
          intro h0; apply hr
          have := congrArg List.length h0
          simp at this; exact this)
        rw [hnone] at this; cases this
  unfold renameC
  rw [(lresolve_iff hl hds s).mpr ⟨rfl, hrs⟩, (lresolve_iff hl hdd d).mpr ⟨rfl, hrd⟩]
  dsimp only
  rw [hn]
  dsimp only
  have hne : s ≠ d := by rintro rfl; exact hsd List.prefix_rfl
  rw [if_neg hne, if_neg (by simp [hsd, hd, hs])]
  cases n with
  | link t => exact absurd hn (look_not_link hl _ _)
  | dir =>
    rw [hnone]
    exact ⟨_, rfl, moveTree_moved hs hd hbelow hsd⟩
  | file c =>
    rw [hnone]
    refine ⟨_, rfl, fun q => ?_⟩
    have hbs : ∀ r, r ≠ [] → look fs (s ++ r) = none := by
      intro r hr
      cases hx : look fs (s ++ r) with
      | none => rfl
      | some m =>
        have := hR (s ++ r) (by rw [hx]; simp) s (List.prefix_append _ _) (by
          intro h0; apply hr
          have := congrArg List.length h0
          simp at this; exact this)
        rw [hn] at this; cases this
    rw [look_put hd, look_del hs]
    by_cases hq : d <+: q
    · obtain ⟨r, rfl⟩ := hq
      rw [if_pos (List.prefix_append _ _), List.drop_left]
      by_cases hr : r = []
      · subst hr
        rw [List.append_nil, if_pos rfl, List.append_nil, hn]
      · rw [if_neg (by simp [hr]), hbs r hr, hbelow r]; split <;> rfl
    · rw [if_neg hq, if_neg (by rintro rfl; exact hq List.prefix_rfl)]
      by_cases hsq : s <+: q
      · obtain ⟨r, rfl⟩ := hsq
        rw [if_pos (List.prefix_append _ _)]
        by_cases hr : r = []
        · subst hr; simp
        · rw [if_neg (by simp [hr]), hbs r hr]
      · rw [if_neg hsq, if_neg (by rintro rfl; exact hsq List.prefix_rfl)]

theorem rooted_makedirs {fs fs1 : FS} {cs : List Str} (hR : Rooted fs) (hre : Reached fs1 cs)
    (hex : ∀ q, look fs1 q = if q <+: cs ∧ look fs q = none then some .dir else look fs q) : Rooted fs1 := by
  intro p hp q hq hne
  rw [hex] at hp
  split at hp
  · rename_i hc
    refine hre q (hq.trans hc.1) ?_
    rintro rfl
    exact hne (List.IsPrefix.eq_of_length hq (Nat.le_antisymm hq.length_le hc.1.length_le))
  · rw [hex]
    have := hR p hp q hq hne
    rw [if_neg (by rw [this]; simp), this]

/-- **C115** for a source without wild cards: it is moved, with everything below it, into the directory given, under its own name, if
there is nothing of that name; nothing else changes but the directories made on the way. -/
theorem domove_partial (e : Env) (fs fs1 : FS) (src dst : Str) (hf : e.Fit) (hl : LinkFree fs) (hR : Rooted fs)
    (hsrc : NoUp src) (hdst : NoUp dst) (hm : hasMagic src = false) (hi : e.ignore = false) (hb : Proper (basename src))
    (hmk : makedirs e (joinPath e.inst [dst]) fs = (fs1, .ok ()))
    (hDf : ∀ c, look fs (comps e.inst ++ comps dst) ≠ some (.file c))
    (n : Node) (hn : look fs (comps e.inst ++ comps src) = some n)
    (hnone : look fs (comps e.inst ++ comps dst ++ [basename src]) = none)
    (hsd : ¬ comps e.inst ++ comps src <+: comps e.inst ++ comps dst ++ [basename src]) :
    ∃ fs', domove e src dst [] fs = (fs', .ok ()) ∧
      Moved (comps e.inst ++ comps src) (comps e.inst ++ comps dst ++ [basename src]) fs1 fs' ∧
      ∀ q, look fs1 q = if q <+: comps e.inst ++ comps dst ∧ look fs q = none then some .dir else look fs q := by
  have hgD := good_inst hf hdst
  have hnoD : dotdot ∉ e.cs (joinPath e.inst [dst]) := hgD.noup
  obtain ⟨hl1, hex⟩ := makedirs_exact hl hnoD hi hmk
  have hre := makedirs_reached hl hnoD hi hmk
  have hR1 := rooted_makedirs hR hre hex
  rw [cs_join _ hf.abs] at hre hnoD
  simp only [cs_join _ hf.abs] at hex
  have hne : e.inst ≠ [] := by intro h0; have := hf.abs; rw [h0] at this; cases this
  have hL : ∀ r, comps e.inst ++ r ≠ [] := fun r h0 => hf.nonroot (List.append_eq_nil_iff.mp h0).1
  have hgS := good_inst hf hsrc
  have hnoS : dotdot ∉ comps e.inst ++ comps src := by rw [← cs_join (e := e) _ hf.abs]; exact hgS.noup
  have hn1 : look fs1 (comps e.inst ++ comps src) = some n := by rw [hex, if_neg (by rw [hn]; simp), hn]
  have hrs := hR1 _ (by rw [hn1]; simp)
  have hcb : comps (basename src) = [basename src] := comps_proper hb
  have hnone1 : look fs1 (comps e.inst ++ comps dst ++ [basename src]) = none := by
    rw [hex, if_neg, hnone]
    rintro ⟨h1, _⟩
    have := h1.length_le; simp at this; omega
  have hrd : Reached fs1 (comps e.inst ++ comps dst ++ [basename src]) := by
    intro q hq hqn
    by_cases hqd : q = comps e.inst ++ comps dst
    · subst hqd
      rw [hex]
      split
      · rfl
      · rename_i h0
        have hsome : look fs (comps e.inst ++ comps dst) ≠ none := fun h1 => h0 ⟨List.prefix_rfl, h1⟩
        cases hlk : look fs (comps e.inst ++ comps dst) with
        | none => exact absurd hlk hsome
        | some n => cases n with
          | dir => rfl
          | file c => exact absurd hlk (hDf c)
          | link t => exact absurd hlk (look_not_link hl _ _)
    · refine hre q ?_ hqd
      obtain ⟨t, ht⟩ := hq
      rcases List.eq_nil_or_concat t with rfl | ⟨t', y, rfl⟩
      · rw [List.append_nil] at ht; exact absurd ht hqn
      · refine ⟨t', ?_⟩
        have := congrArg List.dropLast ht
        rw [List.concat_eq_append, ← List.append_assoc, List.dropLast_concat, List.dropLast_concat] at this
        exact this
  have hnoT : dotdot ∉ comps e.inst ++ comps dst ++ [basename src] := by
    intro hx
    rcases List.mem_append.mp hx with hx | hx
    · exact hnoD hx
    · simp at hx; exact hb.2.2.1 hx.symm
  obtain ⟨fs', hren, hmv⟩ := renameC_moved hl1 hR1 (hL _) (by simp) hnoS hnoT hrs hrd hn1 hnone1 hsd
  refine ⟨fs', ?_, hmv, hex⟩
  -- the source is found
  have hp : e.cs (joinPath e.inst [src]) = comps e.inst ++ comps src := cs_join _ hf.abs
  have hbp : basename (joinPath e.inst [src]) = basename src := basename_join1 hne
  have hmp := hasMagic_join1 hf.plain hm
  have hlex : lexistsC fs1 (absComps e.cwd (joinPath e.inst [src])) = true := by
    show lexistsC fs1 (e.cs (joinPath e.inst [src])) = true
    unfold lexistsC
    rw [hp, (lstat_iff hl1 hnoS n).mpr ⟨hrs, hn1⟩]; rfl
  have hglob : glob fs1 e.cwd (joinPath e.inst [src]) = [joinPath e.inst [src]] := by
    rw [glob_plain hmp (by rw [hbp]; exact hb.1), if_pos hlex]
  have hdest : e.cs (joinPath e.inst [joinPath dst [basename src]]) = comps e.inst ++ comps dst ++ [basename src] := by
    rw [cs_join _ hf.abs, comps_join1, hcb, List.append_assoc]
  have hmove : shutilMove e.cwd e.limit (joinPath e.inst [src]) (joinPath e.inst [joinPath dst [basename src]]) fs1 = (fs', .ok ()) := by
    unfold shutilMove
    dsimp only
    have hnd : ¬ isDirC fs1 (absComps e.cwd (joinPath e.inst [joinPath dst [basename src]])) = true := by
      show ¬ isDirC fs1 (e.cs _) = true
      rw [hdest]
      intro h
      have := ((isDirC_iff hl1 hnoT).mp h).2
      rw [hnone1] at this; cases this
    rw [if_neg hnd]
    unfold catching call
    have : renameC (absComps e.cwd (joinPath e.inst [src])) (absComps e.cwd (joinPath e.inst [joinPath dst [basename src]])) fs1 =
        .ok fs' := by
      show renameC (e.cs _) (e.cs _) fs1 = _
      rw [hp, hdest]; exact hren
    rw [this]
  have hcond : (isFileC fs1 (e.cs (joinPath e.inst [src])) || isLinkC fs1 (e.cs (joinPath e.inst [src])) ||
      isDirC fs1 (e.cs (joinPath e.inst [src]))) = true := by
    rw [hp]
    cases n with
    | link t => exact absurd hn (look_not_link hl _ _)
    | file c => rw [(isFileC_iff hl1 hnoS).mpr ⟨hrs, c, hn1⟩]; rfl
    | dir => rw [(isDirC_iff hl1 hnoS).mpr ⟨hrs, hn1⟩]; simp
  show seq (makedirs e (joinPath e.inst [dst])) _ fs = _
  unfold seq
  rw [hmk]
  dsimp only
  rw [hglob]
  show seq _ skip fs1 = _
  have hone : move e (joinPath e.inst [src]) (joinPath e.inst [joinPath dst [if ([] : Str) = [] then basename (joinPath e.inst [src]) else []]]) fs1 =
      (fs', .ok ()) := by
    rw [if_pos rfl, hbp]
    unfold move
    rw [hglob]
    show seq _ skip fs1 = _
    unfold seq
    dsimp only
    rw [if_pos hcond]
    unfold catching
    rw [hmove]
    rfl
  unfold seq
  beta_reduce
  rw [hone]
  rfl

/-- A case of `domove_partial`. -/
def moveFS : FS := dirsFS ++ [([dB, dI, ['u']], .dir), ([dB, dI, ['u'], nB], .file ['x'])]

example : ∃ fs', domove exEnv ['/', 'u', '/', 'b', '.', 'h'] ['/', 'v'] [] moveFS = (fs', .ok ()) ∧
    look fs' [dB, dI, ['v'], nB] = some (.file ['x']) ∧ look fs' [dB, dI, ['u'], nB] = none := by
  obtain ⟨fs', h1, h2, h3⟩ := domove_partial exEnv moveFS (makedirs exEnv (joinPath exEnv.inst [['/', 'v']]) moveFS).1
    ['/', 'u', '/', 'b', '.', 'h'] ['/', 'v'] exEnv_fit (linkFree_of (by decide +kernel)) (rooted_of (by decide +kernel)) (by decide)
    (by decide) (by decide) rfl (by decide) (eq_of_succeeds (by decide +kernel))
    (by intro c; rw [show look moveFS (comps exEnv.inst ++ comps ['/', 'v']) = none by decide +kernel]; simp)
    (.file ['x']) (by decide +kernel) (by decide +kernel) (by decide)
  refine ⟨fs', h1, ?_, ?_⟩
  · rw [h2]; decide +kernel
  · rw [h2]; decide +kernel

/-- Not so in full: the example beside `domove`, `domove("/usr/bin/bash", "/bin/bash")`, makes a directory of the destination. -/
theorem domove_refuted : ¬ DomoveFull := by
  intro h
  have := h exEnv moveFS (domove exEnv ['/', 'u', '/', 'b', '.', 'h'] ['/', 'b', '.', 'h'] [] moveFS).1
    ['/', 'u', '/', 'b', '.', 'h'] ['/', 'b', '.', 'h'] ['x'] exEnv_fit (by decide +kernel) (linkFree_of (by decide +kernel))
    (rooted_of (by decide +kernel)) (by decide +kernel) (by decide) (by decide) (by decide) rfl (by decide +kernel)
    (eq_of_succeeds (by decide +kernel))
  revert this
  decide +kernel

/-- With a wild card and a destination file all the matches go to the same place and only the last is left. -/
theorem domove_lost : ∃ (fs fs' : FS), LinkFree fs ∧ Rooted fs ∧
    domove exEnv ['/', 'u', '/', '*'] ['/', 'v'] ['z'] fs = (fs', .ok ()) ∧ look fs [dB, dI, ['u'], nB] = some (.file ['x']) ∧
    ∀ n ∈ fs', n.2 ≠ .file ['x'] := by
  refine ⟨moveFS ++ [([dB, dI, ['u'], nC], .file ['y'])], _, linkFree_of (by decide +kernel), rooted_of (by decide +kernel),
    eq_of_succeeds (by decide +kernel), by decide +kernel, ?_⟩
  decide +kernel

/-! ## C116: remove and removeDir -/

open Classical in
/-- **C116**, in full: what matches the argument of `remove` is gone, and nothing else. -/
def RemoveFull : Prop := ∀ (e : Env) (fs fs' : FS) (src : Str), e.Fit → Tidy fs → LinkFree fs → Rooted fs → NoUp src →
  e.ignore = false → remove e src fs = (fs', .ok ()) → ∀ q, look fs' q =
    if (∃ p ∈ glob fs e.cwd (joinPath e.inst [src]), e.cs p <+: q) then none else look fs q

theorem unlink_file {e : Env} {fs : FS} {p : Str} (hl : LinkFree fs) (hd : dotdot ∉ e.cs p) (hf : isFileC fs (e.cs p) = true) :
    unlink e p fs = (fs.del (e.cs p), .ok ()) := by
  obtain ⟨hr, c, hc⟩ := (isFileC_iff hl hd).mp hf
  unfold unlink
  rw [if_pos (by rw [hf]; rfl)]
  unfold catching call unlinkC
  rw [(lresolve_iff hl hd _).mpr ⟨rfl, hr⟩]
  dsimp only
  rw [hc]

theorem unlink_other {e : Env} {fs : FS} {p : Str} (hl : LinkFree fs) (hf : isFileC fs (e.cs p) = false) :
    unlink e p fs = (fs, .ok ()) := by
  unfold unlink
  rw [if_neg (by rw [hf, isLinkC_false hl]; simp)]

open Classical in
theorem each_unlink (e : Env) : ∀ (ps : List Str) (fs : FS), LinkFree fs → (∀ p ∈ ps, dotdot ∉ e.cs p ∧ e.cs p ≠ []) →
    ∃ fs', each (unlink e) ps fs = (fs', .ok ()) ∧ ∀ q, look fs' q =
      if (∃ p ∈ ps, isFileC fs (e.cs p) = true ∧ e.cs p = q) then none else look fs q := by
  intro ps
  induction ps with
  | nil => intro fs _ _; exact ⟨fs, rfl, fun q => by simp⟩
  | cons p ps ih =>
    intro fs hl hp
    obtain ⟨hpd, hpn⟩ := hp p List.mem_cons_self
    have hps : ∀ p ∈ ps, dotdot ∉ e.cs p ∧ e.cs p ≠ [] := fun x hx => hp x (List.mem_cons_of_mem _ hx)
    by_cases hf : isFileC fs (e.cs p) = true
    · obtain ⟨hr, c, hc⟩ := (isFileC_iff hl hpd).mp hf
      have hl1 : LinkFree (fs.del (e.cs p)) := linkFree_filter hl _
      obtain ⟨fs', h1, h2⟩ := ih (fs.del (e.cs p)) hl1 hps
      refine ⟨fs', ?_, fun q => ?_⟩
      · show seq (unlink e p) (each (unlink e) ps) fs = _
        unfold seq; rw [unlink_file hl hpd hf]; exact h1
      · rw [h2 q, look_del hpn]
        by_cases hq : q = e.cs p
        · subst hq
          have : ∃ p' ∈ p :: ps, isFileC fs (e.cs p') = true ∧ e.cs p' = e.cs p := ⟨p, List.mem_cons_self, hf, rfl⟩
          rw [if_pos this]
          simp
        · rw [if_neg hq]
          have hiff : (∃ p' ∈ ps, isFileC (fs.del (e.cs p)) (e.cs p') = true ∧ e.cs p' = q) ↔
              (∃ p' ∈ p :: ps, isFileC fs (e.cs p') = true ∧ e.cs p' = q) := by
            have hsame : ∀ r, e.cs p ≠ r → look (fs.del (e.cs p)) r = look fs r := fun r hr => by
              rw [look_del hpn, if_neg (Ne.symm hr)]
            have hfile : ∀ p' ∈ ps, e.cs p' = q → (isFileC (fs.del (e.cs p)) (e.cs p') = true ↔ isFileC fs (e.cs p') = true) := by
              intro p' hp' he
              have hd' := (hps p' hp').1
              rw [isFileC_iff hl1 hd', isFileC_iff hl hd', he, hsame q (Ne.symm hq)]
              constructor
              · rintro ⟨hr1, hc1⟩
                refine ⟨fun r hr2 hrn => ?_, hc1⟩
                have := hr1 r hr2 hrn
                by_cases hrp : r = e.cs p
                · rw [hrp, look_del hpn, if_pos rfl] at this; cases this
                · rwa [hsame r (Ne.symm hrp)] at this
              · rintro ⟨hr1, hc1⟩
                refine ⟨fun r hr2 hrn => ?_, hc1⟩
                have := hr1 r hr2 hrn
                by_cases hrp : r = e.cs p
                · rw [hrp, hc] at this; cases this
                · rwa [hsame r (Ne.symm hrp)]
            constructor
            · rintro ⟨p', hp', h3, h4⟩
              exact ⟨p', List.mem_cons_of_mem _ hp', (hfile p' hp' h4).mp h3, h4⟩
            · rintro ⟨p', hp', h3, h4⟩
              rcases List.mem_cons.mp hp' with rfl | hp'
              · exact absurd h4.symm hq
              · exact ⟨p', hp', (hfile p' hp' h4).mpr h3, h4⟩
          simp only [hiff]
    · have hf' : isFileC fs (e.cs p) = false := by simpa using hf
      obtain ⟨fs', h1, h2⟩ := ih fs hl hps
      refine ⟨fs', ?_, fun q => ?_⟩
      · show seq (unlink e p) (each (unlink e) ps) fs = _
        unfold seq; rw [unlink_other hl hf']; exact h1
      · rw [h2 q]
        have hiff : (∃ p' ∈ ps, isFileC fs (e.cs p') = true ∧ e.cs p' = q) ↔
            (∃ p' ∈ p :: ps, isFileC fs (e.cs p') = true ∧ e.cs p' = q) := by
          constructor
          · rintro ⟨p', hp', h3⟩; exact ⟨p', List.mem_cons_of_mem _ hp', h3⟩
          · rintro ⟨p', hp', h3, h4⟩
            rcases List.mem_cons.mp hp' with rfl | hp'
            · rw [hf'] at h3; cases h3
            · exact ⟨p', hp', h3, h4⟩
        simp only [hiff]

theorem glob_inst {e : Env} {fs : FS} (hf : e.Fit) (ht : Tidy fs) {s : Str} (hs : NoUp s) :
    ∀ p ∈ glob fs e.cwd (joinPath e.inst [s]), dotdot ∉ e.cs p ∧ e.cs p ≠ [] ∧ comps e.inst <+: e.cs p := by
  intro p hp
  have hgs : Good (comps e.inst) (comps (joinPath e.inst [s])) := by
    have := good_inst (e := e) hf hs; rw [cs_join _ hf.abs] at this; rw [comps_join1]; exact this
  have h := (glob_good ht (isAbs_join1 _ hf.abs) (comps_plain hf.plain) hgs hp).1
  refine ⟨h.noup, ?_, h.2⟩
  intro h0
  have h2 := h.2
  unfold Env.cs at h0
  rw [h0] at h2
  simp at h2
  exact hf.nonroot h2

open Classical in
/-- **C116**, `remove`: exactly the files that match are gone; it never fails. -/
theorem remove_partial (e : Env) (fs : FS) (src : Str) (hf : e.Fit) (ht : Tidy fs) (hl : LinkFree fs) (hs : NoUp src) :
    ∃ fs', remove e src fs = (fs', .ok ()) ∧ ∀ q, look fs' q =
      if (∃ p ∈ glob fs e.cwd (joinPath e.inst [src]), isFileC fs (e.cs p) = true ∧ e.cs p = q) then none else look fs q :=
  each_unlink e _ fs hl fun p hp => ⟨(glob_inst hf ht hs p hp).1, (glob_inst hf ht hs p hp).2.1⟩

example : ∃ fs', remove exEnv ['/', 'u', '/', '*'] moveFS = (fs', .ok ()) ∧ look fs' [dB, dI, ['u'], nB] = none ∧
    look fs' [dB, dI, ['u']] = some .dir := by
  obtain ⟨fs', h1, h2⟩ := remove_partial exEnv moveFS ['/', 'u', '/', '*'] exEnv_fit (by decide +kernel) (linkFree_of (by decide +kernel))
    (by decide)
  refine ⟨fs', h1, ?_, ?_⟩
  · rw [h2, if_pos]
    exact ⟨"/b/install/u/b.h".toList, by decide +kernel, by decide +kernel, by decide +kernel⟩
  · rw [h2, if_neg]
    · decide +kernel
    · rintro ⟨p, hp, _, h3⟩
      have : glob moveFS exEnv.cwd (joinPath exEnv.inst [['/', 'u', '/', '*']]) = ["/b/install/u/b.h".toList] := by decide +kernel
      rw [this] at hp
      simp only [List.mem_singleton] at hp
      subst hp
      revert h3
      decide +kernel

/-- Not so in full: a directory stays, and nothing is said about it. -/
theorem remove_refuted : ¬ RemoveFull := by
  intro h
  have := h exEnv moveFS (remove exEnv ['/', 'u'] moveFS).1 ['/', 'u'] exEnv_fit (by decide +kernel) (linkFree_of (by decide +kernel))
    (rooted_of (by decide +kernel)) (by decide) rfl (eq_of_succeeds (by decide +kernel)) [dB, dI, ['u']]
  rw [if_pos ⟨"/b/install/u".toList, by decide +kernel, by decide +kernel⟩] at this
  revert this
  decide +kernel

theorem look_rmtree {fs : FS} {p : Loc} (hp : p ≠ []) (q : Loc) :
    look (fs.filter fun e => ¬ p <+: e.1) q = if p <+: q then none else look fs q := by
  by_cases hq : q = []
  · subst hq; rw [if_neg (by simpa using hp)]; rfl
  · unfold look
    rw [if_neg hq, if_neg hq]
    by_cases h : p <+: q
    · rw [if_pos h, get_filter_none _ (by intro n; simp [h])]
    · rw [if_neg h, get_filter _ (by intro n; simp [h])]

theorem unlinkDir_dir {e : Env} {fs : FS} {p : Str} (hl : LinkFree fs) (hd : dotdot ∉ e.cs p) (hn : e.cs p ≠ [])
    (hf : isDirC fs (e.cs p) = true) : unlinkDir e p fs = (fs.filter (fun x => ¬ e.cs p <+: x.1), .ok ()) := by
  obtain ⟨hr, hc⟩ := (isDirC_iff hl hd).mp hf
  unfold unlinkDir
  rw [if_pos (by rw [hf]; rfl)]
  unfold catching call rmtreeC
  rw [(lresolve_iff hl hd _).mpr ⟨rfl, hr⟩]
  dsimp only
  rw [if_pos ⟨hc, hn⟩]

open Classical in
theorem each_unlinkDir (e : Env) (hi : e.ignore = false) : ∀ (ps : List Str) (fs fs' : FS), LinkFree fs →
    (∀ p ∈ ps, dotdot ∉ e.cs p ∧ e.cs p ≠ []) → each (unlinkDir e) ps fs = (fs', .ok ()) → ∀ q, look fs' q =
      if (∃ p ∈ ps, isDirC fs (e.cs p) = true ∧ e.cs p <+: q) then none else look fs q := by
  intro ps
  induction ps with
  | nil =>
    intro fs fs' _ _ h q
    have : fs = fs' := by simpa [each, skip] using h
    subst this; simp
  | cons p ps ih =>
    intro fs fs' hl hp h q
    obtain ⟨hpd, hpn⟩ := hp p List.mem_cons_self
    have hps : ∀ p ∈ ps, dotdot ∉ e.cs p ∧ e.cs p ≠ [] := fun x hx => hp x (List.mem_cons_of_mem _ hx)
    obtain ⟨f1, h1, h2⟩ := seq_ok h
    by_cases hf : isDirC fs (e.cs p) = true
    · rw [unlinkDir_dir hl hpd hpn hf] at h1
      simp only [Prod.mk.injEq, and_true] at h1
      subst h1
      have hl1 : LinkFree (fs.filter fun x => ¬ e.cs p <+: x.1) := linkFree_filter hl _
      rw [ih _ _ hl1 hps h2 q, look_rmtree hpn]
      by_cases hq : e.cs p <+: q
      · rw [if_pos hq, if_pos (⟨p, List.mem_cons_self, hf, hq⟩ : ∃ p' ∈ p :: ps, isDirC fs (e.cs p') = true ∧ e.cs p' <+: q)]
        split <;> rfl
      · rw [if_neg hq]
        have hiff : (∃ p' ∈ ps, isDirC (fs.filter fun x => ¬ e.cs p <+: x.1) (e.cs p') = true ∧ e.cs p' <+: q) ↔
            (∃ p' ∈ p :: ps, isDirC fs (e.cs p') = true ∧ e.cs p' <+: q) := by
          have hdir : ∀ p' ∈ ps, e.cs p' <+: q →
              (isDirC (fs.filter fun x => ¬ e.cs p <+: x.1) (e.cs p') = true ↔ isDirC fs (e.cs p') = true) := by
            intro p' hp' he
            have hd' := (hps p' hp').1
            have hsame : ∀ r, r <+: e.cs p' → look (fs.filter fun x => ¬ e.cs p <+: x.1) r = look fs r := by
              intro r hr
              rw [look_rmtree hpn, if_neg (fun h3 => hq (h3.trans (hr.trans he)))]
            rw [isDirC_iff hl1 hd', isDirC_iff hl hd', hsame _ List.prefix_rfl]
            constructor
            · rintro ⟨a, b⟩
              exact ⟨fun r hr hrn => by rw [← hsame r hr]; exact a r hr hrn, b⟩
            · rintro ⟨a, b⟩
              exact ⟨fun r hr hrn => by rw [hsame r hr]; exact a r hr hrn, b⟩
          constructor
          · rintro ⟨p', hp', h3, h4⟩
            exact ⟨p', List.mem_cons_of_mem _ hp', (hdir p' hp' h4).mp h3, h4⟩
          · rintro ⟨p', hp', h3, h4⟩
            rcases List.mem_cons.mp hp' with rfl | hp'
            · exact absurd h4 hq
            · exact ⟨p', hp', (hdir p' hp' h4).mpr h3, h4⟩
        simp only [hiff]
    · have : f1 = fs := by
        unfold unlinkDir at h1
        rw [if_neg (by rw [isLinkC_false hl]; simpa using hf)] at h1
        split at h1
        · simp only [Prod.mk.injEq, and_true] at h1; exact h1.symm
        · exact absurd h1 (error_ne hi _ _)
      subst this
      rw [ih _ _ hl hps h2 q]
      have hiff : (∃ p' ∈ ps, isDirC f1 (e.cs p') = true ∧ e.cs p' <+: q) ↔
          (∃ p' ∈ p :: ps, isDirC f1 (e.cs p') = true ∧ e.cs p' <+: q) := by
        constructor
        · rintro ⟨p', hp', h3⟩; exact ⟨p', List.mem_cons_of_mem _ hp', h3⟩
        · rintro ⟨p', hp', h3, h4⟩
          rcases List.mem_cons.mp hp' with rfl | hp'
          · exact absurd h3 hf
          · exact ⟨p', hp', h3, h4⟩
      simp only [hiff]

open Classical in
/-- **C116**, `removeDir`: if no error is reported, exactly the directories that match are gone, with all below them. -/
theorem removeDir_partial (e : Env) (fs fs' : FS) (d : Str) (hf : e.Fit) (ht : Tidy fs) (hl : LinkFree fs) (hs : NoUp d)
    (hi : e.ignore = false) (hok : removeDir e d fs = (fs', .ok ())) : ∀ q, look fs' q =
      if (∃ p ∈ glob fs e.cwd (joinPath e.inst [d]), isDirC fs (e.cs p) = true ∧ e.cs p <+: q) then none else look fs q :=
  each_unlinkDir e hi _ fs fs' hl (fun p hp => ⟨(glob_inst hf ht hs p hp).1, (glob_inst hf ht hs p hp).2.1⟩) hok

example : look (removeDir exEnv ['/', 'u'] moveFS).1 [dB, dI, ['u'], nB] = none := by
  rw [removeDir_partial exEnv moveFS (removeDir exEnv ['/', 'u'] moveFS).1 ['/', 'u'] exEnv_fit (by decide +kernel)
    (linkFree_of (by decide +kernel)) (by decide) rfl (eq_of_succeeds (by decide +kernel)), if_pos]
  exact ⟨"/b/install/u".toList, by decide +kernel, by decide +kernel, by decide +kernel⟩

/-- **C116**, `removeDir`: when all that matches are files, nothing is done and no error is reported. -/
theorem removeDir_files (e : Env) (fs : FS) (d : Str) (hl : LinkFree fs)
    (h : ∀ p ∈ glob fs e.cwd (joinPath e.inst [d]), isFileC fs (e.cs p) = true ∧ isDirC fs (e.cs p) = false) :
    removeDir e d fs = (fs, .ok ()) := by
  unfold removeDir
  generalize glob fs e.cwd (joinPath e.inst [d]) = ps at h
  induction ps with
  | nil => rfl
  | cons p ps ih =>
    obtain ⟨h1, h2⟩ := h p (List.mem_cons_self ..)
    have hp : unlinkDir e p fs = (fs, .ok ()) := by
      unfold unlinkDir
      rw [if_neg (by rw [isLinkC_false hl, h2]; simp), if_pos h1]
    unfold each seq
    rw [hp]
    exact ih (fun p' hp' => h p' (List.mem_cons_of_mem _ hp'))

/-- **C116**, `removeDir`: a match that is neither a file nor a directory is an error. -/
theorem unlinkDir_neither (e : Env) (fs : FS) (p : Str) (hl : LinkFree fs) (hi : e.ignore = false)
    (h1 : isFileC fs (e.cs p) = false) (h2 : isDirC fs (e.cs p) = false) : unlinkDir e p fs = (fs, .error .action) := by
  unfold unlinkDir
  rw [if_neg (by rw [isLinkC_false hl, h2]; simp), if_neg (by rw [h1]; simp)]
  unfold error
  simp [hi, fail]

example : removeDir exEnv ['/', 'u', '/', 'b', '.', 'h'] moveFS = (moveFS, .ok ()) :=
  removeDir_files exEnv moveFS _ (linkFree_of (by decide +kernel)) (by decide +kernel)

example : (glob moveFS exEnv.cwd (joinPath exEnv.inst [['/', 'u', '/', 'b', '.', 'h']])).length = 1 := by decide +kernel

/-- A symbolic link to a directory is not removed by `removeDir`: it fails. -/
theorem removeDir_refuted : ∃ (fs : FS), Tidy fs ∧ Rooted fs ∧ isDirC fs [dB, dI, ['l']] = true ∧
    removeDir exEnv ['/', 'l'] fs = (fs, .error .action) := by
  refine ⟨moveFS ++ [([dB, dI, ['l']], .link ['u'])], by decide +kernel, rooted_of (by decide +kernel), by decide +kernel, ?_⟩
  have h : (removeDir exEnv ['/', 'l'] (moveFS ++ [([dB, dI, ['l']], .link ['u'])])).1 = moveFS ++ [([dB, dI, ['l']], .link ['u'])] ∧
      (match (removeDir exEnv ['/', 'l'] (moveFS ++ [([dB, dI, ['l']], .link ['u'])])).2 with | .error .action => true | _ => false) = true := by
    decide +kernel
  generalize removeDir exEnv ['/', 'l'] (moveFS ++ [([dB, dI, ['l']], .link ['u'])]) = r at h
  obtain ⟨f, x⟩ := r
  obtain ⟨h1, h2⟩ := h
  simp only at h1 h2
  subst h1
  split at h2
  · rfl
  · cases h2

end Pisi.Act
