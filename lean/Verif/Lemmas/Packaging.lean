import Verif.Spec.Packaging
import Verif.Props.Path
import Verif.Lemmas.FS
import Verif.Lemmas.ListAux

/-!
# Lemmas on collecting built files
-/
namespace Pisi.Pack
open Pisi.FS

theorem Below.trans {a b c : Str} (h : Below a b) (h' : Below b c) : Below a c := by
  rcases h with rfl | ⟨r, rfl⟩
  · exact h'
  · rcases h' with rfl | ⟨r', rfl⟩
    · exact .inr ⟨r, rfl⟩
    · exact .inr ⟨r ++ '/' :: r', by simp⟩

theorem Below.pre {a b : Str} (h : Below a b) : a <+: b := by
  rcases h with rfl | ⟨r, rfl⟩
  · exact List.prefix_refl _
  · exact List.prefix_append _ _

theorem proper_head {r : Str} (h : Proper r) : ∃ c t, r = c :: t ∧ c ≠ '/' := by
  cases r with
  | nil => exact absurd rfl (h [] (by simp [splitOn]))
  | cons c t =>
    refine ⟨c, t, rfl, ?_⟩
    rintro rfl
    exact h [] (by rw [splitOn_sep]; simp) rfl

theorem proper_last {r : Str} (h : Proper r) : r.getLast? ≠ some '/' := by
  intro hl
  obtain ⟨t, rfl⟩ : ∃ t, r = t ++ ['/'] := by
    cases hr : r.reverse with
    | nil => simp at hr; subst hr; simp at hl
    | cons c q =>
      have hre : r = q.reverse ++ [c] := by rw [← List.reverse_reverse r, hr]; simp
      rw [hre] at hl; simp at hl; subst hl
      exact ⟨q.reverse, hre⟩
  have := Path.splitOn_append '/' t []
  exact h [] (by rw [this]; simp [splitOn]) rfl

theorem last_append {a r : Str} (h : Proper r) : (a ++ '/' :: r).getLast? ≠ some '/' := by
  obtain ⟨c, t, rfl, _⟩ := proper_head h
  have h2 := proper_last h
  rw [List.getLast?_append]
  simp only [List.getLast?_cons_cons] at h2 ⊢
  cases hq : (c :: t).getLast? with
  | none => simp at hq
  | some d => rw [hq] at h2; simpa using h2

theorem joinPath_one {a n : Str} (ha : a ≠ []) (hl : a.getLast? ≠ some '/') (hn : n.head? ≠ some '/') :
    Path.joinPath a [n] = a ++ '/' :: n := by
  unfold Path.joinPath
  simp only [List.foldl_cons, List.foldl_nil]
  unfold Path.joinStep
  rw [if_neg (by simp [ha, hl])]
  congr 2
  unfold Path.lstripSlash
  cases n with
  | nil => rfl
  | cons c t =>
    have : c ≠ '/' := by simpa using hn
    rw [List.dropWhile_cons_of_neg (by simpa using this)]

theorem noslash_head {n : Str} (h : '/' ∉ n) : n.head? ≠ some '/' := by
  cases n with
  | nil => simp
  | cons c t => simp only [List.head?_cons, ne_eq, Option.some.injEq]; rintro rfl; simp at h

theorem root_last {fs : FS} {inst d : Str} (hr : BuildRoot fs inst) (hb : Below inst d) (hh : fs.has d = true) :
    d ≠ [] ∧ d.getLast? ≠ some '/' := by
  rcases hb with rfl | ⟨r, rfl⟩
  · exact ⟨hr.ne, hr.last⟩
  · exact ⟨by simp, last_append (hr.names r hh)⟩

theorem has_of_get {fs : FS} {p : Str} {n : Node} (h : fs.get p = some n) : fs.has p = true := by
  simp [Dict.has, h]

theorem get_of_has {fs : FS} {p : Str} (h : fs.has p = true) : ∃ n, fs.get p = some n := by
  simpa [Dict.has, Option.isSome_iff_exists] using h

theorem splitpath_of_last {a : Str} (ha : a ≠ []) (hl : a.getLast? ≠ some '/') : Path.splitpath a = splitOn '/' a := by
  unfold Path.splitpath
  rw [if_neg]
  intro h
  cases hr : a.reverse with
  | nil => simp at hr; exact ha hr
  | cons c q =>
    have hre : a = q.reverse ++ [c] := by rw [← List.reverse_reverse a, hr]; simp
    rw [hre] at hl; simp at hl
    -- the last piece contains the last character
    have hs := splitOn_splits '/' a
    have key : ∀ (s : Str) (ps : List Str), Version.Spec.Splits (· = '/') s ps → ps.getLast? = some [] → s ≠ [] →
        s.getLast? = some '/' := by
      intro s ps h
      induction h with
      | last p hp => intro h1 h2; simp at h1; exact absurd h1 h2
      | cons p c t ps hp hc ht ih =>
        intro h1 _
        subst hc
        cases ps with
        | nil => cases ht
        | cons q qs =>
          rw [List.getLast?_cons_cons] at h1
          by_cases hn : t = []
          · subst hn; simp
          · have := ih h1 hn
            rw [List.getLast?_append]
            obtain ⟨c', t', rfl⟩ := List.exists_cons_of_ne_nil hn
            rw [List.getLast?_cons_cons, this]; simp
    have := key a _ hs h ha
    rw [hre] at this; simp at this
    exact hl this

theorem joinPath_comps (cs : List Str) : ∀ c : Str, (∀ x ∈ c :: cs, x ≠ [] ∧ '/' ∉ x) →
    ∀ p : Str, p ≠ [] → p.getLast? ≠ some '/' → Path.joinPath p (c :: cs) = p ++ '/' :: joinWith ['/'] (c :: cs) := by
  induction cs with
  | nil =>
    intro c h p hp hl
    rw [joinPath_one hp hl (noslash_head (h c (by simp)).2)]
    simp [joinWith]
  | cons c' cs ih =>
    intro c h p hp hl
    have e : Path.joinPath p (c :: c' :: cs) = Path.joinPath (Path.joinPath p [c]) (c' :: cs) := rfl
    rw [e, joinPath_one hp hl (noslash_head (h c (by simp)).2)]
    have hc := h c (by simp)
    rw [ih c' (fun x hx => h x (by simp [hx])) _ (by simp) (last_append (by
      intro x hx
      rw [splitOn_noSep _ _ (fun y hy => by rintro rfl; exact hc.2 hy)] at hx
      simp at hx; subst hx; exact hc.1))]
    simp [joinWith]

theorem splitOn_noslash {r c : Str} (h : c ∈ splitOn '/' r) : '/' ∉ c := by
  have key : ∀ (s : Str) (ps : List Str), Version.Spec.Splits (· = '/') s ps → ∀ c ∈ ps, '/' ∉ c := by
    intro s ps h
    induction h with
    | last p hp => intro c hc; simp at hc; subst hc; intro hm; exact hp _ hm rfl
    | cons p c t ps hp hc ht ih =>
      intro x hx
      rcases List.mem_cons.mp hx with rfl | hx
      · intro hm; exact hp _ hm rfl
      · exact ih x hx
  exact key r _ (splitOn_splits '/' r) c h

/-- The path relative to the build root. -/
theorem rel_path {inst r : Str} (hi : inst ≠ []) (hl : inst.getLast? ≠ some '/') (hr : Proper r) :
    Path.removepathprefix inst (inst ++ '/' :: r) = .ok r := by
  have h1 : Path.splitpath inst = splitOn '/' inst := splitpath_of_last hi hl
  have h2 : Path.splitpath (inst ++ '/' :: r) = splitOn '/' inst ++ splitOn '/' r := by
    rw [splitpath_of_last (by simp) (last_append hr), Path.splitOn_append]
  unfold Path.removepathprefix
  rw [h1, h2, Path.remove_prefix_append]
  have hns : ∀ x ∈ splitOn '/' r, x ≠ [] ∧ '/' ∉ x := fun x hx => ⟨hr x hx, splitOn_noslash hx⟩
  have hj : joinWith ['/'] (splitOn '/' r) = r := Path.splits_joinWith r _ (splitOn_splits '/' r)
  cases hs : splitOn '/' r with
  | nil => exact absurd hs (splitOn_ne_nil _ _)
  | cons c cs =>
    rw [hs] at hj hns
    cases cs with
    | nil => simpa [joinWith, Path.joinPath] using hj
    | cons c' cs =>
      dsimp only
      congr 1
      have hc := hns c (by simp)
      rw [joinPath_comps cs c' (fun x hx => hns x (by simp [hx])) c hc.1]
      · rw [← hj]; simp [joinWith]
      · intro hm
        exact hc.2 (List.mem_of_getLast? hm)

/-! ## The walk -/

/-- The collisions that a path begins with. -/
def Excl (coll : List Str) (inst f : Str) : Prop := ∃ q ∈ coll, q <+: f.drop inst.length

/-- The list of excluded prefixes only grows by links. -/
def Grown (fs : FS) (coll : List Str) (inst : Str) (ex : List Str) : Prop :=
  ∃ L, ex = coll ++ L ∧ ∀ s ∈ L, ∃ p, isLink fs p = true ∧ Below inst p ∧ s = p.drop inst.length ++ ['/']

theorem link_get {fs : FS} {p : Str} (h : isLink fs p = true) : ∃ t, fs.get p = some (.link t) := by
  unfold isLink at h
  cases hg : fs.get p with
  | none => simp [hg] at h
  | some n => cases n <;> simp_all

theorem drop_below {inst f : Str} (h : Below inst f) : inst ++ f.drop inst.length = f := by
  obtain ⟨t, rfl⟩ := h.pre
  simp

theorem excluded_iff {fs : FS} {coll ex : List Str} {inst f : Str} (hr : BuildRoot fs inst) (hg : Grown fs coll inst ex)
    (hb : Below inst f) (hh : fs.has f = true) : excluded ex inst f = true ↔ Excl coll inst f := by
  obtain ⟨L, rfl, hL⟩ := hg
  unfold excluded Excl startsWith
  have hi : inst.isEmpty = false := by simp [hr.ne]
  simp only [hi, Bool.not_false, Bool.and_true, Bool.and_eq_true, Bool.not_eq_true', List.isEmpty_eq_false_iff,
    List.any_eq_true, Path.prefix_iff]
  constructor
  · rintro ⟨_, q, hq, hp⟩
    rcases List.mem_append.mp hq with hq | hq
    · exact ⟨q, hq, hp⟩
    · exfalso
      obtain ⟨p, hp1, hp2, rfl⟩ := hL q hq
      obtain ⟨t, ht⟩ := hp
      have : f = p ++ '/' :: t := by
        rw [← drop_below hb, ← ht, ← drop_below hp2]
        simp
      obtain ⟨tg, hl⟩ := link_get hp1
      have hne : p ≠ [] := by
        rintro rfl
        rcases hp2 with rfl | ⟨_, h2⟩
        · exact hr.ne rfl
        · simp at h2
      rw [this] at hh
      rw [hr.tree p t hne hh] at hl
      cases hl
  · rintro ⟨q, hq, hp⟩
    refine ⟨?_, q, by simp [hq], hp⟩
    intro h
    have := List.append_eq_nil_iff.mp h
    rw [this.1] at hq; simp at hq

theorem Grown.refl (fs : FS) (coll : List Str) (inst : Str) : Grown fs coll inst coll := ⟨[], by simp, by simp⟩

theorem Grown.snoc {fs : FS} {coll ex : List Str} {inst p : Str} (h : Grown fs coll inst ex) (hp : isLink fs p = true)
    (hb : Below inst p) : Grown fs coll inst (ex ++ [p.drop inst.length ++ ['/']]) := by
  obtain ⟨L, rfl, hL⟩ := h
  refine ⟨L ++ [p.drop inst.length ++ ['/']], by simp, ?_⟩
  intro s hs
  rcases List.mem_append.mp hs with hs | hs
  · exact hL s hs
  · simp at hs; exact ⟨p, hp, hb, hs⟩

section
variable {sha : Str → Str} {fs : FS}

theorem walkDirs_spec {coll : List Str} {inst root : Str} (hr : BuildRoot fs inst) (hrt : Below inst root)
    (hroot : fs.has root = true) (ds : List Str)
    (hds : ∀ d ∈ ds, '/' ∉ d ∧ fs.has (root ++ '/' :: d) = true) : ∀ ex, Grown fs coll inst ex →
    (∀ it, it ∈ (walkDirs sha fs inst root ds ex).1 ↔ ∃ d ∈ ds, isLink fs (root ++ '/' :: d) = true ∧
      ¬ Excl coll inst (root ++ '/' :: d) ∧ it = linkItem sha fs (root ++ '/' :: d)) ∧
    Grown fs coll inst (walkDirs sha fs inst root ds ex).2 := by
  obtain ⟨hne, hlast⟩ := root_last hr hrt hroot
  induction ds with
  | nil => intro ex hg; exact ⟨by simp [walkDirs], hg⟩
  | cons d ds ih =>
    intro ex hg
    have hd := hds d (by simp)
    have hj : Path.joinPath root [d] = root ++ '/' :: d := joinPath_one hne hlast (noslash_head hd.1)
    have hb : Below inst (root ++ '/' :: d) := hrt.trans (.inr ⟨d, rfl⟩)
    have hex := excluded_iff hr hg hb hd.2
    unfold walkDirs
    simp only [hj]
    by_cases hc : isLink fs (root ++ '/' :: d) = true ∧ ¬ Excl coll inst (root ++ '/' :: d)
    · have hcond : (isLink fs (root ++ '/' :: d) && !excluded ex inst (root ++ '/' :: d)) = true := by
        rw [hc.1]
        have : excluded ex inst (root ++ '/' :: d) = false := by
          cases h : excluded ex inst (root ++ '/' :: d)
          · rfl
          · exact absurd (hex.mp h) hc.2
        simp [this]
      rw [if_pos hcond]
      obtain ⟨h1, h2⟩ := ih (fun d hd => hds d (by simp [hd])) _ (hg.snoc hc.1 hb)
      refine ⟨?_, h2⟩
      intro it
      simp only [List.mem_cons, h1]
      constructor
      · rintro (rfl | ⟨e, he, h⟩)
        · exact ⟨d, .inl rfl, hc.1, hc.2, rfl⟩
        · exact ⟨e, .inr he, h⟩
      · rintro ⟨e, rfl | he, h3, h4, rfl⟩
        · exact .inl rfl
        · exact .inr ⟨e, he, h3, h4, rfl⟩
    · have hcond : ¬ (isLink fs (root ++ '/' :: d) && !excluded ex inst (root ++ '/' :: d)) = true := by
        intro h
        simp only [Bool.and_eq_true, Bool.not_eq_true'] at h
        exact hc ⟨h.1, fun he => by rw [hex.mpr he] at h; exact Bool.noConfusion h.2⟩
      rw [if_neg hcond]
      obtain ⟨h1, h2⟩ := ih (fun d hd => hds d (by simp [hd])) ex hg
      refine ⟨?_, h2⟩
      intro it
      rw [h1]
      constructor
      · rintro ⟨e, he, h⟩; exact ⟨e, by simp [he], h⟩
      · rintro ⟨e, he, h3, h4, rfl⟩
        rcases List.mem_cons.mp he with rfl | he
        · exact absurd ⟨h3, h4⟩ hc
        · exact ⟨e, he, h3, h4, rfl⟩

/-- What the walk yields for a path. -/
def leafItem (sha : Str → Str) (fs : FS) (f : Str) : Item :=
  if isLink fs f then linkItem sha fs f else (f, hashFile sha fs f)

theorem isDir_get {p : Str} (h : fs.get p = some .dir) : isDir fs p = true := by
  simp [isDir, stat, statN, h]

theorem isLink_dir {p : Str} (h : fs.get p = some .dir) : isLink fs p = false := by simp [isLink, h]

/-- One directory: the links and files in it and, if there is nothing in it, the directory. -/
theorem walkRoot_spec {coll : List Str} {inst top : Str} {w : List Triple} (hr : BuildRoot fs inst) (hw : IsWalk fs top w)
    (ht : Below inst top) {t : Triple} (htw : t ∈ w) {ex : List Str} (hg : Grown fs coll inst ex) :
    (∀ it, it ∈ (walkRoot sha fs inst t ex).1 ↔ ∃ f, (f = t.1 ∨ ∃ n, '/' ∉ n ∧ f = t.1 ++ '/' :: n) ∧ Leaf fs f ∧
      (fs.get f = some .dir → f = t.1) ∧ ¬ Excl coll inst f ∧ it = leafItem sha fs f) ∧
    Grown fs coll inst (walkRoot sha fs inst t ex).2 := by
  obtain ⟨hbt, hdir⟩ := (hw.roots t.1).mp ⟨t, htw, rfl⟩
  have hrt : Below inst t.1 := ht.trans hbt
  have hroot := has_of_get hdir
  obtain ⟨hne, hlast⟩ := root_last hr hrt hroot
  unfold walkRoot
  rw [if_neg (by simp [isLink_dir hdir])]
  obtain ⟨h1, h2⟩ := walkDirs_spec (sha := sha) hr hrt hroot t.2.1
    (fun d hd => ⟨((hw.dirs t htw d).mp hd).2.1, ((hw.dirs t htw d).mp hd).2.2.1⟩) ex hg
  refine ⟨?_, h2⟩
  generalize walkDirs sha fs inst t.1 t.2.1 ex = a at h1 h2
  have hexr := excluded_iff hr h2 hrt hroot
  have hempty : (t.2.1 = [] ∧ t.2.2 = []) ↔ ∀ r, fs.has (t.1 ++ '/' :: r) = false := by
    constructor
    · rintro ⟨e1, e2⟩ r
      cases hh : fs.has (t.1 ++ '/' :: r) with
      | false => rfl
      | true =>
        exfalso
        -- the first component of `r`
        have hnm : ∀ n, n ≠ [] → '/' ∉ n → fs.has (t.1 ++ '/' :: n) = true → False := by
          intro n hn hns hhn
          cases hd : isDir fs (t.1 ++ '/' :: n) with
          | true => have := (hw.dirs t htw n).mpr ⟨hn, hns, hhn, hd⟩; rw [e1] at this; simp at this
          | false => have := (hw.files t htw n).mpr ⟨hn, hns, hhn, hd⟩; rw [e2] at this; simp at this
        have hprop : ∃ n, n ≠ [] ∧ '/' ∉ n ∧ (r = n ∨ ∃ q, r = n ++ '/' :: q) := by
          have hP : Proper r := by
            rcases hrt with e | ⟨r0, e⟩
            · rw [e] at hh; exact hr.names r hh
            · rw [e] at hh
              have : Proper (r0 ++ '/' :: r) := hr.names (r0 ++ '/' :: r) (by simpa using hh)
              intro c hc
              exact this c (by rw [Path.splitOn_append]; simp [hc])
          cases hs : splitOn '/' r with
          | nil => exact absurd hs (splitOn_ne_nil _ _)
          | cons c cs =>
            have hj : joinWith ['/'] (splitOn '/' r) = r := Path.splits_joinWith r _ (splitOn_splits '/' r)
            rw [hs] at hj
            refine ⟨c, hP c (by rw [hs]; simp), splitOn_noslash (r := r) (by rw [hs]; simp), ?_⟩
            cases cs with
            | nil => left; rw [← hj]; rfl
            | cons c' cs => right; exact ⟨joinWith ['/'] (c' :: cs), by rw [← hj]; simp [joinWith]⟩
        obtain ⟨n, hn, hns, rfl | ⟨q, rfl⟩⟩ := hprop
        · exact hnm r hn hns hh
        · have := hr.tree (t.1 ++ '/' :: n) q (by simp) (by simpa using hh)
          exact hnm n hn hns (has_of_get this)
    · intro h
      constructor
      · cases e : t.2.1 with
        | nil => rfl
        | cons d ds =>
          have := (hw.dirs t htw d).mp (by rw [e]; simp)
          rw [h] at this; simp at this
      · cases e : t.2.2 with
        | nil => rfl
        | cons d ds =>
          have := (hw.files t htw d).mp (by rw [e]; simp)
          rw [h] at this; simp at this
  intro it
  simp only [List.mem_append, or_assoc]
  constructor
  · rintro (hit | hit | hit)
    · obtain ⟨d, hd, hl, hx, rfl⟩ := (h1 it).mp hit
      have hd' := (hw.dirs t htw d).mp hd
      obtain ⟨tg, hgl⟩ := link_get hl
      refine ⟨_, .inr ⟨d, hd'.2.1, rfl⟩, ?_, ?_, hx, ?_⟩
      · simp [Leaf, hgl]
      · rw [hgl]; intro h; cases h
      · simp [leafItem, hl]
    · split at hit
      next hc =>
        simp only [Bool.and_eq_true, Bool.not_eq_true', List.isEmpty_iff] at hc
        simp only [List.mem_singleton] at hit
        subst hit
        refine ⟨t.1, .inl rfl, ?_, fun _ => rfl, ?_, ?_⟩
        · unfold Leaf; rw [hdir]; exact hempty.mp ⟨hc.1.2, hc.2⟩
        · intro he; rw [hexr.mpr he] at hc; simp at hc
        · simp [leafItem, isLink_dir hdir]
      next => simp at hit
    · unfold walkFiles at hit
      obtain ⟨n, hn, hit⟩ := List.mem_filterMap.mp hit
      have hn' := (hw.files t htw n).mp hn
      have hj : Path.joinPath t.1 [n] = t.1 ++ '/' :: n := joinPath_one hne hlast (noslash_head hn'.2.1)
      have hb : Below inst (t.1 ++ '/' :: n) := hrt.trans (.inr ⟨n, rfl⟩)
      have hexf := excluded_iff hr h2 hb hn'.2.2.1
      simp only [hj] at hit
      split at hit
      · simp at hit
      next hx =>
        have hnd : fs.get (t.1 ++ '/' :: n) ≠ some .dir := by
          intro h; have := hn'.2.2.2; rw [isDir_get h] at this; simp at this
        refine ⟨_, .inr ⟨n, hn'.2.1, rfl⟩, ?_, fun h => absurd h hnd, fun he => hx (hexf.mpr he), ?_⟩
        · obtain ⟨nd, hnd'⟩ := get_of_has hn'.2.2.1
          unfold Leaf; rw [hnd']
          cases nd with
          | dir => exact absurd hnd' hnd
          | file _ => trivial
          | link _ => trivial
        · unfold leafItem
          split at hit <;> simp_all
  · rintro ⟨f, hf, hleaf, hd, hx, rfl⟩
    rcases hf with rfl | ⟨n, hns, rfl⟩
    · right; left
      have hle : ∀ r, fs.has (t.1 ++ '/' :: r) = false := by
        unfold Leaf at hleaf; rw [hdir] at hleaf; exact hleaf
      obtain ⟨e1, e2⟩ := hempty.mpr hle
      rw [if_pos]
      · simp [leafItem, isLink_dir hdir]
      · have : excluded a.2 inst t.1 = false := by
          cases h : excluded a.2 inst t.1
          · rfl
          · exact absurd (hexr.mp h) hx
        simp [isDir_get hdir, this, e1, e2]
    · have hh : fs.has (t.1 ++ '/' :: n) = true := by
        unfold Leaf at hleaf
        cases hg : fs.get (t.1 ++ '/' :: n) with
        | none => rw [hg] at hleaf; exact hleaf.elim
        | some nd => exact has_of_get hg
      have hnd : fs.get (t.1 ++ '/' :: n) ≠ some .dir := by
        intro h
        have e := congrArg List.length (hd h)
        simp at e
      have hnn : n ≠ [] := by
        rintro rfl
        have := (root_last hr (hrt.trans (.inr ⟨[], rfl⟩)) hh).2
        simp at this
      have hb : Below inst (t.1 ++ '/' :: n) := hrt.trans (.inr ⟨n, rfl⟩)
      cases hdd : isDir fs (t.1 ++ '/' :: n) with
      | true =>
        left
        rw [h1]
        have hl : isLink fs (t.1 ++ '/' :: n) = true := by
          obtain ⟨nd, hg⟩ := get_of_has hh
          cases nd with
          | dir => exact absurd hg hnd
          | link _ => simp [isLink, hg]
          | file _ => simp [isDir, stat, statN, hg] at hdd
        exact ⟨n, (hw.dirs t htw n).mpr ⟨hnn, hns, hh, hdd⟩, hl, hx, by simp [leafItem, hl]⟩
      | false =>
        right; right
        have hn' := (hw.files t htw n).mpr ⟨hnn, hns, hh, hdd⟩
        have hj : Path.joinPath t.1 [n] = t.1 ++ '/' :: n := joinPath_one hne hlast (noslash_head hns)
        have hexf := excluded_iff hr h2 hb hh
        unfold walkFiles
        refine List.mem_filterMap.mpr ⟨n, hn', ?_⟩
        simp only [hj]
        rw [if_neg (fun h => hx (hexf.mp h))]
        unfold leafItem
        split <;> simp_all

theorem walkAll_grown {coll : List Str} {inst top : Str} {w : List Triple} (hr : BuildRoot fs inst) (hw : IsWalk fs top w)
    (ht : Below inst top) (ts : List Triple) (hts : ∀ t ∈ ts, t ∈ w) : ∀ ex, Grown fs coll inst ex →
    (∀ it, it ∈ (walkAll sha fs inst ts ex).1 ↔ ∃ t ∈ ts, ∃ f, (f = t.1 ∨ ∃ n, '/' ∉ n ∧ f = t.1 ++ '/' :: n) ∧ Leaf fs f ∧
      (fs.get f = some .dir → f = t.1) ∧ ¬ Excl coll inst f ∧ it = leafItem sha fs f) ∧
    Grown fs coll inst (walkAll sha fs inst ts ex).2 := by
  induction ts with
  | nil => intro ex hg; exact ⟨by simp [walkAll], hg⟩
  | cons t ts ih =>
    intro ex hg
    obtain ⟨h1, h2⟩ := walkRoot_spec (sha := sha) hr hw ht (hts t (by simp)) hg
    obtain ⟨h3, h4⟩ := ih (fun t h => hts t (by simp [h])) _ h2
    unfold walkAll
    refine ⟨?_, h4⟩
    intro it
    simp only [List.mem_append, h1, h3, List.mem_cons]
    constructor
    · rintro (h | ⟨t', ht', h⟩)
      · exact ⟨t, .inl rfl, h⟩
      · exact ⟨t', .inr ht', h⟩
    · rintro ⟨t', rfl | ht', h⟩
      · exact .inl h
      · exact .inr ⟨t', ht', h⟩

/-- The parent of something below a directory. -/
theorem below_split {top f : Str} (h : Below top f) (hne : f ≠ top) : ∃ d n, f = d ++ '/' :: n ∧ '/' ∉ n ∧ Below top d := by
  obtain ⟨r, rfl⟩ := h.resolve_left hne
  -- the last slash of `'/' :: r`
  have key : ∀ r : Str, ∃ d n, ('/' :: r) = d ++ '/' :: n ∧ '/' ∉ n ∧ (d = [] ∨ ∃ r', d = '/' :: r') := by
    intro r
    induction r using snoc_induction with
    | h0 => exact ⟨[], [], rfl, by simp, .inl rfl⟩
    | hs r c ih =>
      obtain ⟨d, n, h1, h2, h3⟩ := ih
      by_cases hc : c = '/'
      · subst hc
        exact ⟨'/' :: r, [], by simp, by simp, .inr ⟨r, rfl⟩⟩
      · refine ⟨d, n ++ [c], ?_, ?_, h3⟩
        · rw [← List.cons_append, h1]; simp
        · simp [h2]; exact fun h => hc h.symm
  obtain ⟨d, n, h1, h2, h3⟩ := key r
  refine ⟨top ++ d, n, by rw [h1]; simp, h2, ?_⟩
  rcases h3 with rfl | ⟨r', rfl⟩
  · exact .inl (by simp)
  · exact .inr ⟨r', rfl⟩

/-- What `get_file_hashes` yields for one expanded path. -/
def Yield (sha : Str → Str) (fs : FS) (coll : List Str) (inst x : Str) (it : Item) : Prop :=
  (isFile fs x = true ∧ it = (x, hashFile sha fs x)) ∨
  (isFile fs x = false ∧ isLink fs x = true ∧ it = linkItem sha fs x) ∨
  (fs.get x = some .dir ∧ ∃ f, Below x f ∧ Leaf fs f ∧ ¬ Excl coll inst f ∧ it = leafItem sha fs f)

theorem fileHashes_spec {coll : List Str} {inst top : Str} {walk : Str → List Triple} (hr : BuildRoot fs inst)
    (hw : Walks fs walk) (ht : Below inst top) {ex : List Str} (hg : Grown fs coll inst ex) :
    (∀ it, it ∈ (fileHashes sha fs walk inst top ex).1 ↔ Yield sha fs coll inst top it) ∧
    Grown fs coll inst (fileHashes sha fs walk inst top ex).2 := by
  have hdf : isFile fs top = true → fs.get top ≠ some .dir := by
    intro h h'; simp [isFile, stat, statN, h'] at h
  have hdl : isLink fs top = true → fs.get top ≠ some .dir := by
    intro h h'; simp [isLink, h'] at h
  unfold fileHashes Yield
  by_cases hf : isFile fs top = true
  · rw [if_pos hf]
    refine ⟨?_, hg⟩
    intro it
    simp [hf, hdf hf]
  rw [if_neg hf]
  have hf' : isFile fs top = false := by simpa using hf
  by_cases hl : isLink fs top = true
  · rw [if_pos hl]
    refine ⟨?_, hg⟩
    intro it
    simp [hf', hl, hdl hl]
  rw [if_neg hl]
  obtain ⟨h1, h2⟩ := walkAll_grown (sha := sha) hr (hw top) ht (walk top) (fun _ h => h) ex hg
  refine ⟨?_, h2⟩
  intro it
  rw [h1]
  simp only [hf', hl, Bool.false_eq_true, false_and, and_false, false_or]
  constructor
  · rintro ⟨t, htw, f, hf, hleaf, _, hx, rfl⟩
    obtain ⟨hbt, hdir⟩ := ((hw top).roots t.1).mp ⟨t, htw, rfl⟩
    have htd : fs.get top = some .dir := by
      rcases hbt with e | ⟨r, e⟩
      · rw [← e]; exact hdir
      · have hne : top ≠ [] := by
          rintro rfl
          rcases ht with e2 | ⟨_, e2⟩
          · exact hr.ne e2.symm
          · simp at e2
        exact hr.tree top r hne (by rw [← e]; exact has_of_get hdir)
    refine ⟨htd, f, ?_, hleaf, hx, rfl⟩
    rcases hf with rfl | ⟨n, _, rfl⟩
    · exact hbt
    · exact hbt.trans (.inr ⟨n, rfl⟩)
  · rintro ⟨htd, f, hb, hleaf, hx, rfl⟩
    have hfh : fs.has f = true := by
      unfold Leaf at hleaf
      cases hg : fs.get f with
      | none => rw [hg] at hleaf; exact hleaf.elim
      | some nd => exact has_of_get hg
    by_cases hd : fs.get f = some .dir
    · obtain ⟨t, htw, hte⟩ := ((hw top).roots f).mpr ⟨hb, hd⟩
      exact ⟨t, htw, f, .inl hte.symm, hleaf, fun _ => hte.symm, hx, rfl⟩
    · have hne : f ≠ top := by rintro rfl; exact hd htd
      obtain ⟨d, n, rfl, hn, hbd⟩ := below_split hb hne
      have hdne : d ≠ [] := by
        rintro rfl
        rcases ht.trans hbd with e2 | ⟨_, e2⟩
        · exact hr.ne e2.symm
        · simp at e2
      have hdd := hr.tree d n hdne hfh
      obtain ⟨t, htw, hte⟩ := ((hw top).roots d).mpr ⟨hbd, hdd⟩
      exact ⟨t, htw, _, .inr ⟨n, hn, by rw [hte]⟩, hleaf, fun h => absurd h hd, hx, rfl⟩

/-! ## Filling the list of files -/

variable {walk : Str → List Triple} {glob : Str → List Str}

/-- All that is yielded for the expanded paths of a package. -/
def allItems (sha : Str → Str) (fs : FS) (walk : Str → List Triple) (inst : Str) : List Str → List Str → List Item × List Str
  | [], ex => ([], ex)
  | x :: xs, ex =>
    let a := fileHashes sha fs walk inst x ex
    let b := allItems sha fs walk inst xs a.2
    (a.1 ++ b.1, b.2)

theorem addPath_fold (o : Opts) (pkg : Pkg) (inst : Str) (xs : List Str) : ∀ (d : Dict Str FileInfo) (ex : List Str),
    xs.foldlM (addPath sha fs walk glob o pkg inst) (d, ex) =
      (do let d' ← (allItems sha fs walk inst xs ex).1.foldlM (addItem fs walk glob o pkg inst) d
          .ok (d', (allItems sha fs walk inst xs ex).2)) := by
  induction xs with
  | nil => intro d ex; rfl
  | cons x xs ih =>
    intro d ex
    rw [List.foldlM_cons]
    simp only [addPath, allItems, List.foldlM_append]
    cases h : (fileHashes sha fs walk inst x ex).1.foldlM (addItem fs walk glob o pkg inst) d with
    | error e => rfl
    | ok d' => exact ih d' _

theorem allItems_spec {coll : List Str} {inst : Str} (hr : BuildRoot fs inst) (hw : Walks fs walk) (xs : List Str)
    (hx : ∀ x ∈ xs, Below inst x) : ∀ ex, Grown fs coll inst ex →
    ∀ it, it ∈ (allItems sha fs walk inst xs ex).1 ↔ ∃ x ∈ xs, Yield sha fs coll inst x it := by
  induction xs with
  | nil => intro ex hg it; simp [allItems]
  | cons x xs ih =>
    intro ex hg it
    obtain ⟨h1, h2⟩ := fileHashes_spec (sha := sha) hr hw (hx x (by simp)) hg
    simp only [allItems, List.mem_append, h1, ih (fun x h => hx x (by simp [h])) _ h2 it]
    simp

theorem genFiles_items {o : Opts} {pkg : Pkg} {others : List Pkg} {inst : Str} (hr : BuildRoot fs inst) (hw : Walks fs walk)
    (hx : ∀ x ∈ expand glob pkg inst, Below inst x) :
    ∃ items : List Item, (∀ it, it ∈ items ↔ ∃ x ∈ expand glob pkg inst, Yield sha fs (pathCollision o pkg others) inst x it) ∧
      genFiles sha fs walk glob o pkg others inst = items.foldlM (addItem fs walk glob o pkg inst) [] := by
  refine ⟨(allItems sha fs walk inst (expand glob pkg inst) (pathCollision o pkg others)).1,
    allItems_spec hr hw _ hx _ (Grown.refl _ _ _), ?_⟩
  unfold genFiles
  rw [addPath_fold]
  cases (allItems sha fs walk inst (expand glob pkg inst) (pathCollision o pkg others)).1.foldlM
    (addItem fs walk glob o pkg inst) [] <;> rfl

/-- Static libraries go to the static package, if there is one. -/
def Skips (fs : FS) (o : Opts) (pkg : Pkg) (f : Str) : Prop :=
  o.createStatic = true ∧ endsWith f arSuffix = true ∧ endsWith pkg.name staticSuffix = false ∧ isArFile fs f = .ok true

theorem addItem_ok {o : Opts} {pkg : Pkg} {inst r : Str} {h : Except FErr (Option Str)} {d d' : Dict Str FileInfo}
    (hi : inst ≠ []) (hl : inst.getLast? ≠ some '/') (hr : Proper r)
    (hd : addItem fs walk glob o pkg inst d (inst ++ '/' :: r, h) = .ok d') :
    (Skips fs o pkg (inst ++ '/' :: r) ∧ d' = d) ∨
    (¬ Skips fs o pkg (inst ++ '/' :: r) ∧ ∃ hh t p, h = .ok hh ∧ fileType glob r pkg.files inst = .ok (t, p) ∧
      d' = d.put r ⟨r, t, p, dirSize fs walk (inst ++ '/' :: r), hh⟩) := by
  unfold addItem at hd
  cases h with
  | error e => exact absurd hd (by intro h; cases h)
  | ok hh =>
    simp only [bind, Except.bind] at hd
    rw [rel_path hi hl hr] at hd
    by_cases hc : (o.createStatic && endsWith (inst ++ '/' :: r) arSuffix && !endsWith pkg.name staticSuffix) = true
    · rw [if_pos hc] at hd
      cases ha : isArFile fs (inst ++ '/' :: r) with
      | error e => rw [ha] at hd; cases hd
      | ok b =>
        rw [ha] at hd
        have hc' := hc
        simp only [Bool.and_eq_true, Bool.not_eq_true'] at hc'
        cases b with
        | true =>
          simp only [if_true] at hd
          cases hd
          exact .inl ⟨⟨hc'.1.1, hc'.1.2, hc'.2, ha⟩, rfl⟩
        | false =>
          right
          refine ⟨fun hs => (by have := hs.2.2.2; rw [ha] at this; cases this), ?_⟩
          simp only [Except.mapError, Bool.false_eq_true, if_false] at hd
          cases ht : fileType glob r pkg.files inst with
          | error e => rw [ht] at hd; cases hd
          | ok tp =>
            rw [ht] at hd
            cases hd
            exact ⟨hh, tp.1, tp.2, rfl, rfl, rfl⟩
    · rw [if_neg hc] at hd
      right
      refine ⟨fun hs => hc (by simp [hs.1, hs.2.1, hs.2.2.1]), ?_⟩
      simp only [Except.mapError, Bool.false_eq_true, if_false] at hd
      cases ht : fileType glob r pkg.files inst with
      | error e => rw [ht] at hd; cases hd
      | ok tp =>
        rw [ht] at hd
        cases hd
        exact ⟨hh, tp.1, tp.2, rfl, rfl, rfl⟩

theorem addItem_fold {o : Opts} {pkg : Pkg} {inst : Str} (hi : inst ≠ []) (hl : inst.getLast? ≠ some '/') (items : List Item)
    (hp : ∀ it ∈ items, ∃ r, it.1 = inst ++ '/' :: r ∧ Proper r) : ∀ (d d' : Dict Str FileInfo),
    items.foldlM (addItem fs walk glob o pkg inst) d = .ok d' → ∀ r,
    (d'.has r = true ↔ d.has r = true ∨ ∃ it ∈ items, it.1 = inst ++ '/' :: r ∧ ¬ Skips fs o pkg it.1) ∧
    (∀ info, d'.get r = some info → d.get r = some info ∨ ∃ it ∈ items, it.1 = inst ++ '/' :: r ∧
      it.2 = .ok info.hash ∧ fileType glob r pkg.files inst = .ok (info.type, info.permanent) ∧
      info.path = r ∧ info.size = dirSize fs walk (inst ++ '/' :: r)) := by
  induction items with
  | nil =>
    intro d d' h r
    cases h
    exact ⟨by simp, fun info h => .inl h⟩
  | cons it items ih =>
    intro d d' h r
    rw [List.foldlM_cons] at h
    obtain ⟨r0, he, hpr⟩ := hp it (by simp)
    obtain ⟨f, h0⟩ := it
    dsimp only at he
    subst he
    cases h1 : addItem fs walk glob o pkg inst d (inst ++ '/' :: r0, h0) with
    | error e => rw [h1] at h; cases h
    | ok d1 =>
      rw [h1] at h
      obtain ⟨i1, i2⟩ := ih (fun it hit => hp it (by simp [hit])) d1 d' h r
      rcases addItem_ok hi hl hpr h1 with ⟨hs, rfl⟩ | ⟨hs, hh, t, p, rfl, ht, rfl⟩
      · constructor
        · rw [i1]
          constructor
          · rintro (h | ⟨it, hit, h⟩)
            · exact .inl h
            · exact .inr ⟨it, by simp [hit], h⟩
          · rintro (h | ⟨it, hit, h2, h3⟩)
            · exact .inl h
            · rcases List.mem_cons.mp hit with rfl | hit
              · exact absurd hs h3
              · exact .inr ⟨it, hit, h2, h3⟩
        · intro info hi
          rcases i2 info hi with h | ⟨it, hit, h⟩
          · exact .inl h
          · exact .inr ⟨it, by simp [hit], h⟩
      · have hput : ∀ x, Dict.get (Dict.put d r0 ⟨r0, t, p, dirSize fs walk (inst ++ '/' :: r0), hh⟩) x = _ :=
          fun x => Dict.get_put d r0 x _
        constructor
        · rw [i1]
          simp only [Dict.has, hput]
          constructor
          · rintro (h | ⟨it, hit, h⟩)
            · by_cases e : r0 = r
              · subst e
                exact .inr ⟨_, List.mem_cons_self .., rfl, hs⟩
              · rw [if_neg e] at h; exact .inl h
            · exact .inr ⟨it, by simp [hit], h⟩
          · rintro (h | ⟨it, hit, h2, h3⟩)
            · left
              by_cases e : r0 = r
              · rw [if_pos e]; rfl
              · rw [if_neg e]; exact h
            · rcases List.mem_cons.mp hit with rfl | hit
              · left
                have : r0 = r := by simpa using h2
                rw [if_pos this]; rfl
              · exact .inr ⟨it, hit, h2, h3⟩
        · intro info hi
          rcases i2 info hi with h | ⟨it, hit, h⟩
          · rw [hput] at h
            by_cases e : r0 = r
            · subst e
              rw [if_pos rfl] at h; cases h
              exact .inr ⟨_, List.mem_cons_self .., rfl, rfl, ht, rfl, rfl⟩
            · rw [if_neg e] at h; exact .inl h
          · exact .inr ⟨it, by simp [hit], h⟩

end
end Pisi.Pack
