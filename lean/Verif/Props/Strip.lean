import Verif.Spec.Strip
import Verif.Props.Path
import Verif.Lemmas.ListAux

/-!
# Stripping the files of a build (C136, C137)
-/
namespace Pisi.Strip
open Pisi.StripSpec Pisi.PathSpec Pisi.Path

/-! ### Paths -/

theorem pathOf_append (a b : List Str) : pathOf (a ++ b) = pathOf a ++ pathOf b := by simp [pathOf]

theorem pathOf_snoc (a : List Str) (x : Str) : pathOf (a ++ [x]) = pathOf a ++ '/' :: x := by simp [pathOf]

theorem segs_pathOf : ∀ (n : List Str), (∀ x ∈ n, Name x) → segs (pathOf n) = n := by
  intro n
  induction n using snoc_induction with
  | h0 => intro _; rfl
  | hs l x ih =>
    intro h
    have hx := h x (by simp)
    rw [pathOf_snoc, segs_append, ih fun y hy => h y (by simp [hy]), segs_single x hx.2 hx.1]

theorem name_last {x : Str} (h : Name x) : x.getLast? ≠ some '/' := fun e => h.2 (List.mem_of_getLast? e)

theorem name_lstrip {x : Str} (h : Name x) (t : Str) : lstripSlash (x ++ t) = x ++ t := by
  obtain ⟨h1, h2⟩ := h
  cases x with
  | nil => exact absurd rfl h1
  | cons c s =>
    have : c ≠ '/' := fun e => h2 (by simp [e])
    simp [lstripSlash, this]

theorem getLast_append_name {a x : Str} (h : Name x) : (a ++ x).getLast? ≠ some '/' := by
  intro e
  rw [List.getLast?_append] at e
  cases hx : x.getLast? with
  | none => exact h.1 (List.getLast?_eq_none_iff.1 hx)
  | some c => rw [hx] at e; exact name_last h (by rw [hx]; simpa using e)

def installSuffix : Str := ['/', 'i', 'n', 's', 't', 'a', 'l', 'l']

theorem root_last (pkg : Str) (d : List Str) (h : ∀ x ∈ d, Name x) :
    (pkg ++ installSuffix ++ pathOf d).getLast? ≠ some '/' := by
  rcases List.eq_nil_or_concat d with rfl | ⟨l, x, e⟩
  · simp [pathOf, installSuffix]
  · rw [List.concat_eq_append] at e
    subst e
    rw [pathOf_snoc, ← List.append_assoc, List.append_cons]
    exact getLast_append_name (h x (by simp))

theorem join_file (pkg : Str) (d : List Str) (fn : Str) (h : ∀ x ∈ d, Name x) (hf : Name fn) :
    joinPath (pkg ++ installSuffix ++ pathOf d) [fn] = pkg ++ installSuffix ++ pathOf (d ++ [fn]) := by
  have hl := root_last pkg d h
  have hn : pkg ++ installSuffix ++ pathOf d ≠ [] := by simp [installSuffix]
  have hs := name_lstrip hf []
  rw [List.append_nil] at hs
  simp only [joinPath, List.foldl_cons, List.foldl_nil, joinStep]
  rw [if_neg (by simp only [not_or]; exact ⟨hn, hl⟩), hs, pathOf_snoc, List.append_assoc]

theorem dirname_install (pkg : Str) (hp : pkg ≠ []) (hl : pkg.getLast? ≠ some '/') :
    FS.dirname (pkg ++ installSuffix) = pkg := by
  have e : ((pkg ++ installSuffix).reverse.dropWhile (· ≠ '/')).reverse = pkg ++ ['/'] := by
    simp [installSuffix]
  unfold FS.dirname
  rw [e]
  dsimp only
  rw [if_neg]
  · have := rstrip_slashes pkg 1 hl
    simpa [List.replicate] using this
  · intro h
    rw [List.all_append] at h
    simp only [Bool.and_eq_true, List.all_eq_true] at h
    obtain ⟨x, hx⟩ : ∃ x, pkg.getLast? = some x := by
      cases hh : pkg.getLast? with
      | none => exact absurd (List.getLast?_eq_none_iff.1 hh) hp
      | some x => exact ⟨x, rfl⟩
    have := h.1 x (List.mem_of_getLast? hx)
    simp at this
    exact hl (by rw [hx, this])

theorem join_debug (pkg : Str) (hp : pkg ≠ []) (hl : pkg.getLast? ≠ some '/') (d : List Str) (fn : Str)
    (h : ∀ x ∈ d, Name x) (hf : Name fn) :
    joinPath (FS.dirname (pkg ++ installSuffix)) [debugSuffix, pathOf (d ++ [fn])] = pkg ++ debugSuffix ++ pathOf (d ++ [fn]) := by
  rw [dirname_install pkg hp hl]
  have e1 : joinStep pkg debugSuffix = pkg ++ debugSuffix := by
    unfold joinStep
    rw [if_neg (by simp only [not_or]; exact ⟨hp, hl⟩)]
    rfl
  simp only [joinPath, List.foldl_cons, List.foldl_nil]
  rw [e1]
  obtain ⟨x, r, hx, e⟩ : ∃ x r, Name x ∧ pathOf (d ++ [fn]) = '/' :: (x ++ r) := by
    cases d with
    | nil => exact ⟨fn, [], hf, by simp [pathOf]⟩
    | cons y ys => exact ⟨y, pathOf (ys ++ [fn]), h y (by simp), by simp [pathOf]⟩
  rw [e]
  have e2 : lstripSlash ('/' :: (x ++ r)) = x ++ r := by
    have := name_lstrip hx r
    simpa [lstripSlash] using this
  unfold joinStep
  rw [e2, if_neg]
  simp [debugSuffix]

/-! ### C136: NoStrip -/

/-- The calls of `strip_file` for the files of a directory. -/
def callsIn (pkg : Str) (ex : List Str) (t : List Str × List Str) : List (Str × Str) :=
  t.2.filterMap fun fn =>
    if strips ex ('/' :: pathOf (t.1 ++ [fn])) then
      some (pkg ++ installSuffix ++ pathOf (t.1 ++ [fn]), pkg ++ debugSuffix ++ pathOf (t.1 ++ [fn]))
    else none

theorem stripFiles_eq (pkg : Str) (hp : pkg ≠ []) (hl : pkg.getLast? ≠ some '/') (ex : List Str) (d : List Str)
    (h : ∀ x ∈ d, Name x) (fns : List Str) (hf : ∀ f ∈ fns, Name f) :
    stripFiles (pkg ++ installSuffix) ex (pkg ++ installSuffix ++ pathOf d) fns = .ok (callsIn pkg ex (d, fns)) := by
  induction fns with
  | nil => rfl
  | cons fn fns ih =>
    have hfn := hf fn (by simp)
    have e : stripOne (pkg ++ installSuffix) ex (pkg ++ installSuffix ++ pathOf d) fn
        = .ok (if strips ex ('/' :: pathOf (d ++ [fn])) then
            some (pkg ++ installSuffix ++ pathOf (d ++ [fn]), pkg ++ debugSuffix ++ pathOf (d ++ [fn])) else none) := by
      unfold stripOne
      dsimp only
      rw [join_file pkg d fn h hfn, remove_prefix_append]
      dsimp only
      rw [join_debug pkg hp hl d fn h hfn]
    rw [stripFiles, e, ih fun f hh => hf f (by simp [hh])]
    simp only [callsIn, List.filterMap_cons]
    split <;> simp

theorem strip_exact (pkg : Str) (hp : pkg ≠ []) (hl : pkg.getLast? ≠ some '/') (ex : List Str) (w : Walk) (h : Proper w) :
    stripDirectory (pkg ++ installSuffix) ex w = .ok (w.flatMap (callsIn pkg ex)) := by
  induction w with
  | nil => rfl
  | cons t w ih =>
    obtain ⟨d, fns⟩ := t
    have h1 := h d fns (by simp)
    rw [stripDirectory, stripFiles_eq pkg hp hl ex d h1.1 fns h1.2, ih fun d' f' hh => h d' f' (by simp [hh])]
    rfl

theorem fileAt_names {w : Walk} (h : Proper w) {rel : List Str} (hr : FileAt w rel) : ∀ x ∈ rel, Name x := by
  obtain ⟨d, fns, fn, h1, h2, rfl⟩ := hr
  have := h d fns h1
  intro x hx
  rcases List.mem_append.1 hx with hx | hx
  · exact this.1 x hx
  · rw [List.mem_singleton.1 hx]; exact this.2 fn h2

theorem mem_calls (pkg : Str) (ex : List Str) (w : Walk) (rel : List Str) (hr : FileAt w rel) (dr : Str) :
    (pkg ++ installSuffix ++ pathOf rel, dr) ∈ w.flatMap (callsIn pkg ex) ↔
      strips ex ('/' :: pathOf rel) = true ∧ dr = pkg ++ debugSuffix ++ pathOf rel := by
  constructor
  · intro hm
    obtain ⟨⟨d, fns⟩, h1, h2⟩ := List.mem_flatMap.1 hm
    obtain ⟨fn, h3, h4⟩ := List.mem_filterMap.1 h2
    dsimp only at h3 h4
    by_cases hs : strips ex ('/' :: pathOf (d ++ [fn])) = true
    · rw [if_pos hs] at h4
      have h5 := Option.some.inj h4
      rw [Prod.mk.injEq] at h5
      have h6 : pathOf (d ++ [fn]) = pathOf rel := List.append_cancel_left h5.1
      rw [h6] at hs h5
      exact ⟨hs, h5.2.symm⟩
    · rw [if_neg hs] at h4; cases h4
  · rintro ⟨hs, rfl⟩
    obtain ⟨d, fns, fn, h1, h2, rfl⟩ := hr
    refine List.mem_flatMap.2 ⟨(d, fns), h1, List.mem_filterMap.2 ⟨fn, h2, ?_⟩⟩
    dsimp only
    rw [if_pos hs]

/-- The full statement: exactly the files that `NoStrip` does not name are stripped. -/
def NoStripFull : Prop := ∀ (pkg : Str) (ex : List Str) (w : Walk), pkg ≠ [] → pkg.getLast? ≠ some '/' → Proper w →
  (∀ e ∈ ex, IsAbs e) → ∃ cs, stripDirectory (pkg ++ installSuffix) ex w = .ok cs ∧
    ∀ rel, FileAt w rel → ((∃ dr, (pkg ++ installSuffix ++ pathOf rel, dr) ∈ cs) ↔ ¬ Named ex rel)

/-- Entries of `NoStrip` that begin with one slash have no effect at all: every file is stripped, and its debug information
goes to the same place below the directory `debug`. -/
theorem nostrip_ignored (pkg : Str) (hp : pkg ≠ []) (hl : pkg.getLast? ≠ some '/') (ex : List Str) (w : Walk) (h : Proper w)
    (he : ∀ e ∈ ex, ∃ c r, e = '/' :: c :: r ∧ c ≠ '/') : ∃ cs, stripDirectory (pkg ++ installSuffix) ex w = .ok cs ∧
      ∀ rel, FileAt w rel → (pkg ++ installSuffix ++ pathOf rel, pkg ++ debugSuffix ++ pathOf rel) ∈ cs := by
  refine ⟨_, strip_exact pkg hp hl ex w h, fun rel hr => (mem_calls pkg ex w rel hr _).2 ⟨?_, rfl⟩⟩
  unfold strips
  rw [Bool.not_eq_true', List.any_eq_false]
  intro e hh hpre
  obtain ⟨c, r, rfl, hc⟩ := he e hh
  rw [prefix_iff] at hpre
  obtain ⟨d, fns, fn, h1, h2, rfl⟩ := hr
  have : ∃ t, pathOf (d ++ [fn]) = '/' :: t := by
    cases d with
    | nil => exact ⟨fn, by simp [pathOf]⟩
    | cons y ys => exact ⟨y ++ pathOf (ys ++ [fn]), by simp [pathOf]⟩
  obtain ⟨t, ht⟩ := this
  rw [ht] at hpre
  obtain ⟨q, hq⟩ := hpre
  simp at hq
  exact hc hq.1

/-- The debug information of a stripped file goes to its place below the directory `debug` beside `install`, and to no other
place. -/
theorem debug_place (pkg : Str) (hp : pkg ≠ []) (hl : pkg.getLast? ≠ some '/') (ex : List Str) (w : Walk) (h : Proper w) :
    ∃ cs, stripDirectory (pkg ++ ['/', 'i', 'n', 's', 't', 'a', 'l', 'l']) ex w = .ok cs ∧
      ∀ rel, FileAt w rel → ∀ dr, (pkg ++ ['/', 'i', 'n', 's', 't', 'a', 'l', 'l'] ++ pathOf rel, dr) ∈ cs →
        dr = pkg ++ ['/', 'd', 'e', 'b', 'u', 'g'] ++ pathOf rel :=
  ⟨_, strip_exact pkg hp hl ex w h, fun rel hr dr hm => ((mem_calls pkg ex w rel hr dr).1 hm).2⟩

theorem named_iff {n rel : List Str} (hn : ∀ x ∈ n, Name x)
    (hs : pathOf n <+: pathOf rel → n <+: rel) :
    «prefix» ('/' :: pathOf n) ('/' :: pathOf rel) = true ↔ segs ('/' :: pathOf n) <+: rel := by
  rw [prefix_iff, segs_slash, segs_pathOf n hn]
  constructor
  · intro h
    exact hs ((List.prefix_cons_inj _).1 h)
  · rintro ⟨t, rfl⟩
    rw [pathOf_append]
    exact ⟨pathOf t, by simp⟩

/-- Exactly the files that `NoStrip` does not name are stripped, if its entries are written with two slashes at the beginning
and no file has a path that continues an entry within a name.  Missing for the full statement: other entries, see
`nostrip_refuted`. -/
theorem nostrip_partial (pkg : Str) (hp : pkg ≠ []) (hl : pkg.getLast? ≠ some '/') (ex : List Str) (w : Walk) (h : Proper w)
    (he : ∀ e ∈ ex, ∃ n, e = '/' :: pathOf n ∧ (∀ x ∈ n, Name x) ∧ ∀ rel, FileAt w rel → pathOf n <+: pathOf rel → n <+: rel) :
    ∃ cs, stripDirectory (pkg ++ installSuffix) ex w = .ok cs ∧
      ∀ rel, FileAt w rel → ((∃ dr, (pkg ++ installSuffix ++ pathOf rel, dr) ∈ cs) ↔ ¬ Named ex rel) := by
  refine ⟨_, strip_exact pkg hp hl ex w h, fun rel hr => ?_⟩
  have key : strips ex ('/' :: pathOf rel) = true ↔ ¬ Named ex rel := by
    unfold strips
    rw [Bool.not_eq_true', List.any_eq_false]
    constructor
    · rintro h1 ⟨e, h2, h3⟩
      obtain ⟨n, rfl, hn, hs⟩ := he e h2
      exact h1 _ h2 ((named_iff hn (hs rel hr)).2 h3)
    · intro h1 e h2 h3
      obtain ⟨n, rfl, hn, hs⟩ := he e h2
      exact h1 ⟨_, h2, (named_iff hn (hs rel hr)).1 h3⟩
  rw [← key]
  constructor
  · rintro ⟨dr, hd⟩
    exact ((mem_calls pkg ex w rel hr dr).1 hd).1
  · intro hs
    exact ⟨_, (mem_calls pkg ex w rel hr _).2 ⟨hs, rfl⟩⟩

def usr : Str := ['u', 's', 'r']
def lib : Str := ['l', 'i', 'b']
def fileA : Str := ['a']
def w1 : Walk := [([], []), ([usr], []), ([usr, lib], [fileA])]

theorem w1_proper : Proper w1 := by
  intro d fns h
  simp only [w1, List.mem_cons, Prod.mk.injEq, List.not_mem_nil, or_false] at h
  rcases h with ⟨rfl, rfl⟩ | ⟨rfl, rfl⟩ | ⟨rfl, rfl⟩ <;> simp [Name, usr, lib, fileA]

/-- The full statement is false: `NoStrip = ["/usr/lib"]` does not keep /usr/lib/a from being stripped. -/
theorem nostrip_refuted : ¬ NoStripFull := by
  intro h
  have hex : ∀ e ∈ [pathOf [usr, lib]], IsAbs e := by
    intro e he
    rw [List.mem_singleton.1 he]
    exact ⟨_, rfl⟩
  obtain ⟨cs, h1, h2⟩ := h ['/', 'p'] [pathOf [usr, lib]] w1 (by simp) (by simp) w1_proper hex
  have hr : FileAt w1 [usr, lib, fileA] := ⟨[usr, lib], [fileA], fileA, by simp [w1], by simp, rfl⟩
  obtain ⟨cs', h3, h4⟩ := nostrip_ignored ['/', 'p'] (by simp) (by simp) [pathOf [usr, lib]] w1 w1_proper (by
    intro e he
    rw [List.mem_singleton.1 he]
    exact ⟨'u', _, rfl, by decide⟩)
  rw [h1] at h3
  cases h3
  refine (h2 _ hr).1 ⟨_, h4 _ hr⟩ ⟨_, List.mem_singleton.2 rfl, ?_⟩
  decide

example : ∃ n, ['/', '/', 'u', 's', 'r'] = '/' :: pathOf n ∧ (∀ x ∈ n, Name x) ∧
    ∀ rel, FileAt w1 rel → pathOf n <+: pathOf rel → n <+: rel := by
  refine ⟨[usr], rfl, by simp [Name, usr], ?_⟩
  rintro rel ⟨d, fns, fn, h1, h2, rfl⟩ _
  simp only [w1, List.mem_cons, Prod.mk.injEq, List.not_mem_nil, or_false] at h1
  rcases h1 with ⟨rfl, rfl⟩ | ⟨rfl, rfl⟩ | ⟨rfl, rfl⟩ <;> simp at h2 ⊢

/-! ### C137: which files are stripped -/

theorem inside_iff (a : Str) : ∀ s, inside a s = true ↔ a <:+: s
  | [] => by simp [inside]
  | c :: s => by
    rw [inside, Bool.or_eq_true, prefix_iff, inside_iff a s, List.infix_cons_iff]

theorem infix_over {a p q : Str} {c : Char} (hc : c ∉ a) (h : a <:+: p ++ c :: q) : a <:+: p ∨ a <:+: q := by
  induction p with
  | nil =>
    rw [List.nil_append, List.infix_cons_iff] at h
    rcases h with h | h
    · cases a with
      | nil => exact .inl (List.nil_infix)
      | cons x a =>
        have := (List.cons_prefix_cons.1 h).1
        subst this
        exact absurd (List.mem_cons_self) hc
    · exact .inr h
  | cons x p ih =>
    rw [List.cons_append, List.infix_cons_iff] at h
    rcases h with h | h
    · left
      obtain ⟨t, ht⟩ := h
      rw [← List.cons_append] at ht
      rw [List.append_eq_append_iff] at ht
      rcases ht with ⟨u, e, _⟩ | ⟨u, e, e2⟩
      · exact ⟨[], u, by simpa using e.symm⟩
      · cases u with
        | nil => exact ⟨[], [], by simpa using e⟩
        | cons y u =>
          simp at e2
          exact absurd (by rw [e, ← e2.1]; simp) hc
    · rcases ih h with h | h
      · exact .inl (h.trans (List.suffix_cons _ _).isInfix)
      · exact .inr h

/-- The texts are looked for in the description, if they are not in the path. -/
theorem inside_output {a : Str} (h1 : ':' ∉ a) (h2 : '\n' ∉ a) (h3 : a.head? ≠ some ' ') (h4 : a ≠ []) (path desc : Str)
    (hp : ¬ a <:+: path) : inside a (fileOutput path desc) = true ↔ a <:+: desc := by
  rw [inside_iff]
  unfold fileOutput
  constructor
  · intro h
    have e : path ++ (':' :: ' ' :: desc) ++ ['\n'] = (path ++ (':' :: ' ' :: desc)) ++ '\n' :: [] := by simp
    rw [e] at h
    rcases infix_over h2 h with h | h
    · rcases infix_over h1 h with h | h
      · exact absurd h hp
      · rw [List.infix_cons_iff] at h
        rcases h with h | h
        · cases a with
          | nil => exact absurd rfl h4
          | cons x a =>
            have := (List.cons_prefix_cons.1 h).1
            subst this
            exact absurd rfl h3
        · exact h
    · exact absurd (List.eq_nil_of_infix_nil h) h4
  · rintro ⟨s, t, rfl⟩
    exact ⟨path ++ ':' :: ' ' :: s, t ++ ['\n'], by simp⟩

/-- The full statement: a file is stripped if and only if `file` describes it as a library, a program or a shared library. -/
def KindFull : Prop := ∀ (g : Bool) (path out desc : Str),
  (stripFile g path out desc).isSome = true ↔ (archiveText <:+: desc ∨ executableText <:+: desc ∨ sharedText <:+: desc)

theorem kind_exact (path desc : Str) (hp : ∀ a ∈ [archiveText, executableText, sharedText], ¬ a <:+: path) :
    (archiveText <:+: desc → kind (fileOutput path desc) = some .archive) ∧
    (¬ archiveText <:+: desc → executableText <:+: desc → kind (fileOutput path desc) = some .executable) ∧
    (¬ archiveText <:+: desc → ¬ executableText <:+: desc → sharedText <:+: desc → kind (fileOutput path desc) = some .shared) ∧
    (¬ archiveText <:+: desc → ¬ executableText <:+: desc → ¬ sharedText <:+: desc → kind (fileOutput path desc) = none) := by
  have i1 := inside_output (a := archiveText) (by decide) (by decide) (by decide) (by decide) path desc (hp _ (by simp))
  have i2 := inside_output (a := executableText) (by decide) (by decide) (by decide) (by decide) path desc (hp _ (by simp))
  have i3 := inside_output (a := sharedText) (by decide) (by decide) (by decide) (by decide) path desc (hp _ (by simp))
  refine ⟨fun h => ?_, fun h h' => ?_, fun h h' h'' => ?_, fun h h' h'' => ?_⟩
  · rw [kind, if_pos (i1.2 h)]
  · rw [kind, if_neg (mt i1.1 h), if_pos (i2.2 h')]
  · rw [kind, if_neg (mt i1.1 h), if_neg (mt i2.1 h'), if_pos (i3.2 h'')]
  · rw [kind, if_neg (mt i1.1 h), if_neg (mt i2.1 h'), if_neg (mt i3.1 h'')]

/-- A file is stripped if and only if `file` describes it as a library, a program or a shared library, if its path contains
none of these words.  Missing for the full statement: other paths, see `kind_refuted`. -/
theorem kind_partial (g : Bool) (path out desc : Str) (hp : ∀ a ∈ [archiveText, executableText, sharedText], ¬ a <:+: path) :
    (stripFile g path out desc).isSome = true ↔ (archiveText <:+: desc ∨ executableText <:+: desc ∨ sharedText <:+: desc) := by
  obtain ⟨k1, k2, k3, k4⟩ := kind_exact path desc hp
  by_cases h1 : archiveText <:+: desc
  · simp [stripFile, k1 h1, h1]
  · by_cases h2 : executableText <:+: desc
    · simp [stripFile, k2 h1 h2, h2]
    · by_cases h3 : sharedText <:+: desc
      · simp [stripFile, k3 h1 h2 h3, h3]
      · simp [stripFile, k4 h1 h2 h3, h1, h2, h3]

/-- Libraries lose their debugging symbols only, and debug information is kept for programs and shared libraries, if and only
if the configuration says so. -/
theorem strip_options (g : Bool) (path out desc : Str) (hp : ∀ a ∈ [archiveText, executableText, sharedText], ¬ a <:+: path) :
    (archiveText <:+: desc → stripFile g path out desc = some ([['-', 'g']], none)) ∧
    (∀ r, stripFile g path out desc = some r → ¬ archiveText <:+: desc →
      ['-', 'g'] ∉ r.1 ∧ r.2 = if g then some (out ++ ['.', 'd', 'e', 'b', 'u', 'g']) else none) := by
  obtain ⟨k1, k2, k3, k4⟩ := kind_exact path desc hp
  refine ⟨fun h => by simp [stripFile, k1 h], fun r hr h1 => ?_⟩
  by_cases h2 : executableText <:+: desc
  · simp only [stripFile, k2 h1 h2, Option.some.injEq] at hr
    subst hr
    exact ⟨by simp, rfl⟩
  · by_cases h3 : sharedText <:+: desc
    · simp only [stripFile, k3 h1 h2 h3, Option.some.injEq] at hr
      subst hr
      exact ⟨by simp, rfl⟩
    · simp [stripFile, k4 h1 h2 h3] at hr

def text : Str := ['A', 'S', 'C', 'I', 'I', ' ', 't', 'e', 'x', 't']

/-- The full statement is false: the words are also found in the name of the file, which `file` prints. -/
theorem kind_refuted : ¬ KindFull := by
  intro h
  have := (h false ('/' :: executableText) [] text).1 (by decide)
  revert this
  rw [← inside_iff, ← inside_iff, ← inside_iff]
  decide

example : ∀ a ∈ [archiveText, executableText, sharedText], ¬ a <:+: ['/', 'u', 's', 'r'] := by
  intro a ha
  rw [← inside_iff]
  revert a
  decide

end Pisi.Strip
