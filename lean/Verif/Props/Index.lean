import Verif.Lemmas.Index
import Verif.Props.Path
import Verif.Props.PackageDB
import Verif.Spec.Rebuild
import Verif.Props.Fetch
import Verif.Props.Version

/-!
# Properties of indices: what they list, where packages are found by them, which package is offered (C131-C133)
-/
set_option linter.unusedSectionVars false

namespace Pisi.Indexing
open Pisi.DB Pisi.DBSpec Pisi.IndexSpec Pisi.PathSpec Pisi.Version Pisi.Version.Spec
variable {α : Type} [DecidableEq α]

/-! ### C131: an index lists what is in the directory -/

/-- What a file adds to the packages. -/
def pkgOf (d : List Str) (f : Str × Content α) : List (Meta α) :=
  if isPkg f.1 then match f.2.pkg with
    | .good m => [{ m with uri := relPath (d ++ [f.1]) }]
    | _ => []
  else []

/-- What a file adds to the components. -/
def compOf (f : Str × Content α) : List (α × Comp α) := if f.1 = componentXml then f.2.comp.toList else []

/-- What a file adds to the sources. -/
def specOf (o : Opts) (d : List Str) (f : Str × Content α) : List (SrcSpec α) :=
  if f.1 = pspecXml ∧ o.skipSources = false then
    f.2.spec.toList.map (fun s => { s with uri := relPath (d ++ [f.1]) })
  else []

/-- One file can be read. -/
def FileOk (o : Opts) (f : Str × Content α) : Prop :=
  (isPkg f.1 = true → f.2.pkg ≠ .broken) ∧ (f.1 = componentXml → f.2.comp.isSome) ∧
  (f.1 = pspecXml ∧ o.skipSources = false → f.2.spec.isSome) ∧ (f.1 = distributionXml → f.2.distro = true)

/-- An index with more in it. -/
def plus (ix : Index α) (a : List (Meta α)) (b : List (α × Comp α)) (c : List (SrcSpec α)) : Index α :=
  { components := ix.components ++ b, packages := ix.packages ++ a, specs := ix.specs ++ c }

theorem addFile_ok {o : Opts} (ho : o.realpath = none) {r : Str} {d : List Str} (hl : LocalPath r) (hr : r ≠ [])
    (hd : ∀ x ∈ d, Name x) {f : Str × Content α} (hf : Name f.1) (ix : Index α) :
    (FileOk o f → addFile o r (rootOf r d) ix f = .ok (plus ix (pkgOf d f) (compOf f) (specOf o d f))) ∧
    (¬ FileOk o f → ∃ e, addFile o r (rootOf r d) ix f = .error e) := by
  obtain ⟨hl', hr'⟩ := localPath_root hl hr d hd
  have hrem := isRemote_local (localPath_join hl' hr' (name_head hf))
  have hu := uriOf_rel ho r d f.1 hd hf
  have h1 : (f.2.pkg = .broken ∧ isPkg f.1 = true ∧
        (if isPkg f.1 = true then addPackage o r (Pack.osJoin (rootOf r d) f.1) f.2 ix else .ok ix) = .error .read) ∨
      ((isPkg f.1 = true → f.2.pkg ≠ .broken) ∧
        (if isPkg f.1 = true then addPackage o r (Pack.osJoin (rootOf r d) f.1) f.2 ix else .ok ix) =
          .ok (plus ix (pkgOf d f) [] [])) := by
    by_cases hp : isPkg f.1 = true
    · simp only [hp, if_true, addPackage, hrem, pkgOf, hu]
      cases hc : f.2.pkg with
      | broken => left; exact ⟨rfl, trivial, rfl⟩
      | invalid => right; simp [plus]
      | good m => right; simp [plus]
    · right
      simp [hp, pkgOf, plus]
  have h2 : ∀ ix : Index α, (f.2.comp = none ∧ f.1 = componentXml ∧
        (if f.1 = componentXml then addComponent f.2 ix else .ok ix) = .error .read) ∨
      ((f.1 = componentXml → f.2.comp.isSome) ∧
        (if f.1 = componentXml then addComponent f.2 ix else .ok ix) = .ok (plus ix [] (compOf f) [])) := by
    intro ix
    by_cases hp : f.1 = componentXml
    · simp only [hp, if_true, addComponent, compOf]
      cases hc : f.2.comp with
      | none => left; exact ⟨rfl, trivial, rfl⟩
      | some m => right; simp [plus]
    · right
      simp [hp, compOf, plus]
  have h3 : ∀ ix : Index α, (f.2.spec = none ∧ (f.1 = pspecXml ∧ o.skipSources = false) ∧
        (if f.1 = pspecXml ∧ o.skipSources = false then addSpec o r (Pack.osJoin (rootOf r d) f.1) f.2 ix else .ok ix) =
          .error .read) ∨
      ((f.1 = pspecXml ∧ o.skipSources = false → f.2.spec.isSome) ∧
        (if f.1 = pspecXml ∧ o.skipSources = false then addSpec o r (Pack.osJoin (rootOf r d) f.1) f.2 ix else .ok ix) =
          .ok (plus ix [] [] (specOf o d f))) := by
    intro ix
    by_cases hp : f.1 = pspecXml ∧ o.skipSources = false
    · rw [if_pos hp]
      unfold addSpec specOf
      rw [hu, if_pos hp]
      cases hc : f.2.spec with
      | none => left; exact ⟨rfl, hp, rfl⟩
      | some m => right; simp [plus]
    · right
      rw [if_neg hp]
      unfold specOf
      rw [if_neg hp]
      exact ⟨fun h => absurd h hp, by simp [plus]⟩
  unfold addFile
  dsimp only
  rcases h1 with ⟨ha, hb, hc⟩ | ⟨ha, hb⟩
  · rw [hc]
    exact ⟨fun h => absurd ha (h.1 hb), fun _ => ⟨_, rfl⟩⟩
  · rw [hb]
    dsimp only
    rcases h2 (plus ix (pkgOf d f) [] []) with ⟨ha2, hb2, hc2⟩ | ⟨ha2, hb2⟩
    · rw [hc2]
      refine ⟨fun h => ?_, fun _ => ⟨_, rfl⟩⟩
      have := h.2.1 hb2
      rw [ha2] at this
      cases this
    · rw [hb2]
      dsimp only
      rcases h3 (plus (plus ix (pkgOf d f) [] []) [] (compOf f) []) with ⟨ha3, hb3, hc3⟩ | ⟨ha3, hb3⟩
      · rw [hc3]
        refine ⟨fun h => ?_, fun _ => ⟨_, rfl⟩⟩
        have := h.2.2.1 hb3
        rw [ha3] at this
        cases this
      · rw [hb3]
        dsimp only
        have hplus : plus (plus (plus ix (pkgOf d f) [] []) [] (compOf f) []) [] [] (specOf o d f) =
            plus ix (pkgOf d f) (compOf f) (specOf o d f) := by
          simp [plus]
        rw [hplus]
        by_cases hp : f.1 = distributionXml
        · rw [if_pos hp]
          unfold addDistro
          cases hdis : f.2.distro with
          | true => exact ⟨fun _ => rfl, fun h => absurd ⟨ha, ha2, ha3, fun _ => hdis⟩ h⟩
          | false =>
            refine ⟨fun h => ?_, fun _ => ⟨_, rfl⟩⟩
            have := h.2.2.2 hp
            rw [hdis] at this
            cases this
        · rw [if_neg hp]
          exact ⟨fun _ => rfl, fun h => absurd ⟨ha, ha2, ha3, fun e => absurd e hp⟩ h⟩

theorem addFiles_ok {o : Opts} (ho : o.realpath = none) {r : Str} {d : List Str} (hl : LocalPath r) (hr : r ≠ [])
    (hd : ∀ x ∈ d, Name x) : ∀ (fs : List (Str × Content α)), (∀ f ∈ fs, Name f.1) → ∀ ix : Index α,
    ((∀ f ∈ fs, FileOk o f) → forM' (addFile o r (rootOf r d)) fs ix =
      .ok (plus ix (fs.flatMap (pkgOf d)) (fs.flatMap compOf) (fs.flatMap (specOf o d)))) ∧
    ((¬ ∀ f ∈ fs, FileOk o f) → ∃ e, forM' (addFile o r (rootOf r d)) fs ix = .error e) := by
  intro fs
  induction fs with
  | nil => intro _ ix; exact ⟨fun _ => by simp [forM', plus], fun h => absurd (by simp) h⟩
  | cons f fs ih =>
    intro hn ix
    obtain ⟨h1, h2⟩ := addFile_ok ho hl hr hd (hn f (List.mem_cons_self ..)) ix
    by_cases hf : FileOk o f
    · obtain ⟨i1, i2⟩ := ih (fun g hg => hn g (List.mem_cons_of_mem _ hg)) (plus ix (pkgOf d f) (compOf f) (specOf o d f))
      unfold forM'
      rw [h1 hf]
      dsimp only
      refine ⟨fun h => ?_, fun h => ?_⟩
      · rw [i1 (fun g hg => h g (List.mem_cons_of_mem _ hg))]
        simp [plus]
      · apply i2
        intro h'
        apply h
        intro g hg
        rcases List.mem_cons.mp hg with rfl | hg
        · exact hf
        · exact h' g hg
    · obtain ⟨e, he⟩ := h2 hf
      unfold forM'
      rw [he]
      exact ⟨fun h => absurd (h f (List.mem_cons_self ..)) hf, fun _ => ⟨e, rfl⟩⟩

/-- The packages of a walk in order. -/
def pkgsOf (w : Walk α) : List (Meta α) := w.flatMap (fun x => x.2.flatMap (pkgOf x.1))

theorem addDirs_ok {o : Opts} (ho : o.realpath = none) {r : Str} (hl : LocalPath r) (hr : r ≠ []) :
    ∀ (w : Walk α), Proper w → ∀ ix : Index α,
    ((∀ x ∈ w, ∀ f ∈ x.2, FileOk o f) → addDirs o r w ix = .ok (plus ix (pkgsOf w)
      (w.flatMap (fun x => x.2.flatMap compOf)) (w.flatMap (fun x => x.2.flatMap (specOf o x.1))))) ∧
    ((¬ ∀ x ∈ w, ∀ f ∈ x.2, FileOk o f) → ∃ e, addDirs o r w ix = .error e) := by
  intro w
  induction w with
  | nil => intro _ ix; exact ⟨fun _ => by simp [addDirs, plus, pkgsOf], fun h => absurd (by simp) h⟩
  | cons x w ih =>
    intro hn ix
    obtain ⟨d, fs⟩ := x
    obtain ⟨hd, hfs⟩ := hn d fs (List.mem_cons_self ..)
    obtain ⟨h1, h2⟩ := addFiles_ok ho hl hr hd fs hfs ix
    unfold addDirs
    by_cases hf : ∀ f ∈ fs, FileOk o f
    · rw [h1 hf]
      dsimp only
      obtain ⟨i1, i2⟩ := ih (fun d' fs' h => hn d' fs' (List.mem_cons_of_mem _ h))
        (plus ix (fs.flatMap (pkgOf d)) (fs.flatMap compOf) (fs.flatMap (specOf o d)))
      refine ⟨fun h => ?_, fun h => ?_⟩
      · rw [i1 (fun g hg => h g (List.mem_cons_of_mem _ hg))]
        simp [plus, pkgsOf]
      · apply i2
        intro h'
        apply h
        intro g hg
        rcases List.mem_cons.mp hg with rfl | hg
        · exact hf
        · exact h' g hg
    · obtain ⟨e, he⟩ := h2 hf
      rw [he]
      exact ⟨fun h => absurd (h (d, fs) (List.mem_cons_self ..)) hf, fun _ => ⟨e, rfl⟩⟩

/-- The directories that are looked at. -/
def visited (o : Opts) (w : Walk α) : Walk α := if o.nonRecursive then w.take 1 else w

theorem visited_proper {o : Opts} {w : Walk α} (h : Proper w) : Proper (visited o w) := by
  intro d fs hd
  unfold visited at hd
  split at hd
  · exact h d fs (List.mem_of_mem_take hd)
  · exact h d fs hd

theorem isPkg_iff (d : List Str) (fn : Str) : isPkg fn = true ↔ CalledPkg (d ++ [fn]) := by
  unfold isPkg CalledPkg pkgSuffix
  rw [List.isSuffixOf_iff_suffix, List.getLast?_concat]
  constructor
  · rintro ⟨b, h⟩; exact ⟨b, by rw [h]⟩
  · rintro ⟨b, h⟩; exact ⟨b, by injection h with h; exact h.symm⟩

theorem called_iff (d : List Str) (fn n : Str) : fn = n ↔ Called (d ++ [fn]) n := by
  unfold Called
  rw [List.getLast?_concat, Option.some.injEq]

theorem readable_iff (o : Opts) (w : Walk α) : Readable o.skipSources w ↔ ∀ x ∈ w, ∀ f ∈ x.2, FileOk o f := by
  constructor
  · rintro h ⟨d, fs⟩ hx ⟨fn, c⟩ hf
    obtain ⟨h1, h2, h3, h4⟩ := h (d ++ [fn]) c ⟨d, fs, fn, hx, hf, rfl⟩
    exact ⟨fun e => h1 ((isPkg_iff d fn).mp e), fun e => h2 ((called_iff d fn _).mp e),
      fun e => h3 e.2 ((called_iff d fn _).mp e.1), fun e => h4 ((called_iff d fn _).mp e)⟩
  · rintro h rel c ⟨d, fs, fn, hx, hf, rfl⟩
    obtain ⟨h1, h2, h3, h4⟩ := h _ hx _ hf
    exact ⟨fun e => h1 ((isPkg_iff d fn).mpr e), fun e => h2 ((called_iff d fn _).mpr e),
      fun e1 e2 => h3 ⟨(called_iff d fn _).mpr e2, e1⟩, fun e => h4 ((called_iff d fn _).mpr e)⟩

theorem mem_pkgsOf (w : Walk α) (m : Meta α) :
    m ∈ pkgsOf w ↔ ∃ rel m', Package w rel m' ∧ m = { m' with uri := relPath rel } := by
  unfold pkgsOf
  simp only [List.mem_flatMap]
  constructor
  · rintro ⟨⟨d, fs⟩, hx, ⟨fn, c⟩, hf, hm⟩
    unfold pkgOf at hm
    dsimp only at hm hf
    by_cases hp : isPkg fn = true
    · rw [if_pos hp] at hm
      cases hc : c.pkg with
      | broken => rw [hc] at hm; cases hm
      | invalid => rw [hc] at hm; cases hm
      | good m' =>
        rw [hc] at hm
        exact ⟨d ++ [fn], m', ⟨c, ⟨d, fs, fn, hx, hf, rfl⟩, (isPkg_iff d fn).mp hp, hc⟩, List.mem_singleton.mp hm⟩
    · rw [if_neg hp] at hm; cases hm
  · rintro ⟨rel, m', ⟨c, ⟨d, fs, fn, hx, hf, rfl⟩, hp, hc⟩, rfl⟩
    refine ⟨(d, fs), hx, (fn, c), hf, ?_⟩
    unfold pkgOf
    dsimp only
    rw [if_pos ((isPkg_iff d fn).mpr hp), hc]
    exact List.mem_singleton.mpr rfl

/-- The property in full: if every file that is looked at can be read, the index is made and lists exactly the packages
without errors in their metadata, the components and the sources. -/
def IndexFull (α : Type) [DecidableEq α] : Prop :=
  ∀ (o : Opts) (r : Str) (w : Walk α), o.realpath = none → r ≠ [] → Proper w → Readable o.skipSources (visited o w) →
    ∃ ix, indexDir o r w {} = .ok ix ∧ Lists ix o.skipSources (visited o w)

theorem indexDir_eq {o : Opts} (ho : o.realpath = none) {r : Str} (hl : LocalPath r) (hr : r ≠ []) {w : Walk α}
    (hw : Proper w) : (∃ ix, indexDir o r w {} = .ok ix) ↔ Readable o.skipSources (visited o w) := by
  obtain ⟨h1, h2⟩ := addDirs_ok ho hl hr (visited o w) (visited_proper hw) ({} : Index α)
  rw [readable_iff]
  constructor
  · rintro ⟨ix, hix⟩
    apply Classical.byContradiction
    intro h
    obtain ⟨e, he⟩ := h2 h
    change indexDir o r w {} = _ at he
    rw [he] at hix
    cases hix
  · intro h
    exact ⟨_, h1 h⟩

/-- C131 (partial): the path of the directory has no colon before its first slash. -/
theorem index_partial (o : Opts) (r : Str) (w : Walk α) (ho : o.realpath = none) (hr : r ≠ []) (hl : LocalPath r)
    (hw : Proper w) (hok : Readable o.skipSources (visited o w)) :
    ∃ ix, indexDir o r w {} = .ok ix ∧ Lists ix o.skipSources (visited o w) := by
  obtain ⟨h1, _⟩ := addDirs_ok ho hl hr (visited o w) (visited_proper hw) ({} : Index α)
  refine ⟨_, h1 ((readable_iff o _).mp hok), ?_, ?_, ?_⟩
  · intro m
    show m ∈ [] ++ pkgsOf (visited o w) ↔ _
    rw [List.nil_append, mem_pkgsOf]
  · intro x
    show x ∈ [] ++ _ ↔ _
    rw [List.nil_append]
    simp only [List.mem_flatMap]
    constructor
    · rintro ⟨⟨d, fs⟩, hx, ⟨fn, c⟩, hf, hm⟩
      unfold compOf at hm
      dsimp only at hm
      by_cases hp : fn = componentXml
      · rw [if_pos hp, Option.mem_toList] at hm
        exact ⟨d ++ [fn], c, ⟨d, fs, fn, hx, hf, rfl⟩, (called_iff d fn _).mp hp, hm⟩
      · rw [if_neg hp] at hm; cases hm
    · rintro ⟨rel, c, ⟨d, fs, fn, hx, hf, rfl⟩, hp, hc⟩
      refine ⟨(d, fs), hx, (fn, c), hf, ?_⟩
      unfold compOf
      rw [if_pos (show fn = componentXml from (called_iff d fn _).mpr hp), Option.mem_toList]
      exact hc
  · intro s
    show s ∈ [] ++ _ ↔ _
    rw [List.nil_append]
    simp only [List.mem_flatMap]
    constructor
    · rintro ⟨⟨d, fs⟩, hx, ⟨fn, c⟩, hf, hm⟩
      unfold specOf at hm
      dsimp only at hm
      by_cases hp : fn = pspecXml ∧ o.skipSources = false
      · rw [if_pos hp] at hm
        obtain ⟨s', hs', rfl⟩ := List.mem_map.mp hm
        exact ⟨hp.2, d ++ [fn], c, s', ⟨d, fs, fn, hx, hf, rfl⟩, (called_iff d fn _).mp hp.1, Option.mem_toList.mp hs', rfl⟩
      · rw [if_neg hp] at hm; cases hm
    · rintro ⟨hs, rel, c, s', ⟨d, fs, fn, hx, hf, rfl⟩, hp, hc, rfl⟩
      refine ⟨(d, fs), hx, (fn, c), hf, ?_⟩
      unfold specOf
      rw [if_pos ⟨(called_iff d fn _).mpr hp, hs⟩]
      exact List.mem_map.mpr ⟨s', Option.mem_toList.mpr hc, rfl⟩

/-- C131: the index is made exactly if every file that is looked at can be read: one broken package in the directory, and
there is none. -/
theorem index_made_iff (o : Opts) (r : Str) (w : Walk α) (ho : o.realpath = none) (hr : r ≠ []) (hl : LocalPath r)
    (hw : Proper w) : (∃ ix, indexDir o r w {} = .ok ix) ↔ Readable o.skipSources (visited o w) :=
  indexDir_eq ho hl hr hw

/-- One package. -/
def onePkg : Meta Nat := { name := 1, info := { version := ['1'], release := ['1'] }, partOf := some 9 }

/-- C131 does not hold in full: a package in the directory `a:b` ends in an ImportError. -/
theorem index_refuted : ¬ IndexFull Nat := by
  intro h
  obtain ⟨ix, h1, _⟩ := h {} ['a', ':', 'b'] [([], [(['x', '.', 'p', 'i', 's', 'i'], { pkg := .good onePkg })])] rfl
    (by decide) (by
      intro d fs hd
      simp only [List.mem_singleton, Prod.mk.injEq] at hd
      obtain ⟨rfl, rfl⟩ := hd
      exact ⟨by simp, by simp [Name]⟩) (by
      rintro rel c ⟨d, fs, fn, hx, hf, rfl⟩
      simp only [visited, Bool.false_eq_true, if_false, List.mem_singleton, Prod.mk.injEq] at hx
      obtain ⟨rfl, rfl⟩ := hx
      simp only [List.mem_singleton, Prod.mk.injEq] at hf
      obtain ⟨rfl, rfl⟩ := hf
      simp [Called])
  have h2 : indexDir ({} : Opts) ['a', ':', 'b']
      [([], [(['x', '.', 'p', 'i', 's', 'i'], ({ pkg := .good onePkg } : Content Nat))])] {} = .error .import_ := by
    rfl
  rw [h2] at h1
  cases h1

/-! ### C132: a package is found where the index says -/

theorem relPath_cons (x : Str) (t : List Str) : ∃ s, relPath (x :: t) = x ++ s ∧ (s = [] ∨ s.head? = some '/') := by
  cases t with
  | nil => exact ⟨[], by simp [relPath, joinWith], Or.inl rfl⟩
  | cons y r => exact ⟨'/' :: joinWith ['/'] (y :: r), by simp [relPath, joinWith], Or.inr rfl⟩

theorem mem_relPath {c : Char} : ∀ {rel : List Str}, c ∈ relPath rel → c = '/' ∨ ∃ x ∈ rel, c ∈ x
  | [], h => by cases h
  | [x], h => Or.inr ⟨x, List.mem_cons_self .., h⟩
  | x :: y :: r, h => by
    unfold relPath joinWith at h
    rcases List.mem_append.mp h with h | h
    · rcases List.mem_append.mp h with h | h
      · exact Or.inr ⟨x, List.mem_cons_self .., h⟩
      · exact Or.inl (List.mem_singleton.mp h)
    · rcases mem_relPath (rel := y :: r) h with h | ⟨z, hz, h⟩
      · exact Or.inl h
      · exact Or.inr ⟨z, List.mem_cons_of_mem _ hz, h⟩

theorem takeWhile_id {p : Char → Bool} : ∀ {s : Str}, (∀ c ∈ s, p c = true) → s.takeWhile p = s
  | [], _ => rfl
  | a :: s, h => by
    rw [List.takeWhile_cons_of_pos (h a (List.mem_cons_self ..)), takeWhile_id (fun c hc => h c (List.mem_cons_of_mem _ hc))]

theorem local_relPath {x : Str} {t : List Str} (hx : ':' ∉ x) (hn : '/' ∉ x) : LocalPath (relPath (x :: t)) := by
  obtain ⟨s, hs, hh⟩ := relPath_cons x t
  unfold LocalPath
  rw [hs]
  rcases hh with rfl | hh
  · rw [List.append_nil, takeWhile_id (fun c hc => by simp; rintro rfl; exact hn hc)]
    exact hx
  · cases s with
    | nil => cases hh
    | cons a s =>
      injection hh with hh
      subst hh
      rw [takeWhile_append_slash, takeWhile_id (fun c hc => by simp; rintro rfl; exact hn hc)]
      exact hx

theorem uri_path_rel {rel : List Str} (hn : ∀ x ∈ rel, Name x) (h0 : rel ≠ []) (hp : Plain rel) :
    Uri.path (relPath rel) = relPath rel := by
  cases rel with
  | nil => exact absurd rfl h0
  | cons x t =>
    have hx := hn x (List.mem_cons_self ..)
    have hl := local_relPath (t := t) (hp.2 x rfl) hx.2
    unfold Uri.path
    rw [splitScheme_local hl]
    dsimp only
    have h2 : (relPath (x :: t)).take 2 ≠ ['/', '/'] := by
      obtain ⟨s, hs, _⟩ := relPath_cons x t
      rw [hs]
      obtain ⟨hx1, hx2⟩ := hx
      cases x with
      | nil => exact absurd rfl hx1
      | cons a x =>
        intro e
        simp only [List.cons_append, List.take_succ_cons, List.cons.injEq] at e
        exact hx2 (by rw [e.1]; exact List.mem_cons_self ..)
    rw [if_neg h2]
    have hq : ∀ c, c = '#' ∨ c = '?' → c ∉ relPath (x :: t) := by
      intro c hc hm
      rcases mem_relPath hm with rfl | ⟨z, hz, hm⟩
      · rcases hc with hc | hc <;> exact absurd hc (by decide)
      · rcases hc with rfl | rfl
        · exact (hp.1 z hz).1 hm
        · exact (hp.1 z hz).2 hm
    rw [takeWhile_id (p := (· ≠ '#')) (fun c hc => by simp; rintro rfl; exact hq _ (Or.inl rfl) hc),
      takeWhile_id (p := (· ≠ '?')) (fun c hc => by simp; rintro rfl; exact hq _ (Or.inr rfl) hc), if_neg (by decide)]

theorem splitOn_head {a : Char} {s : Str} (ha : a ≠ '/') : ∃ x t, splitOn '/' (a :: s) = (a :: x) :: t := by
  unfold splitOn
  rw [if_neg ha]
  cases hs : splitOn '/' s with
  | nil => exact absurd hs (splitOn_ne_nil _ _)
  | cons y t => exact ⟨y, t, rfl⟩

theorem absolutePath_rel {rel : List Str} (hn : ∀ x ∈ rel, Name x) (h0 : rel ≠ []) :
    Path.absolutePath (relPath rel) = .ok false := by
  cases rel with
  | nil => exact absurd rfl h0
  | cons x t =>
    obtain ⟨s, hs, _⟩ := relPath_cons x t
    obtain ⟨hx1, hx2⟩ := hn x (List.mem_cons_self ..)
    rw [hs]
    cases x with
    | nil => exact absurd rfl hx1
    | cons a x =>
      have ha : a ≠ '/' := fun e => hx2 (by rw [e]; exact List.mem_cons_self ..)
      obtain ⟨y, u, hy⟩ := splitOn_head (s := x ++ s) ha
      unfold Path.absolutePath Path.splitpath
      rw [List.cons_append, hy]
      dsimp only
      cases u with
      | nil => rw [if_neg (by simp)]; simp
      | cons z u =>
        by_cases h : ((a :: y) :: z :: u).getLast? = some []
        · rw [if_pos h]; simp
        · rw [if_neg h]; simp

theorem relPath_head {rel : List Str} (hn : ∀ x ∈ rel, Name x) : (relPath rel).head? ≠ some '/' := by
  cases rel with
  | nil => simp [relPath, joinWith]
  | cons x t =>
    obtain ⟨s, hs, _⟩ := relPath_cons x t
    obtain ⟨hx1, hx2⟩ := hn x (List.mem_cons_self ..)
    rw [hs]
    cases x with
    | nil => exact absurd rfl hx1
    | cons a x =>
      intro e
      injection e with e
      exact hx2 (by rw [e]; exact List.mem_cons_self ..)

theorem resolve_rel {U f : Str} (hU : U ≠ []) (hl : U.getLast? ≠ some '/') (hf : '/' ∉ f) {rel : List Str}
    (hn : ∀ x ∈ rel, Name x) (h0 : rel ≠ []) (hp : Plain rel) :
    resolve (.ok (U ++ '/' :: f)) (relPath rel) = .ok (U ++ '/' :: relPath rel) := by
  unfold resolve
  rw [uri_path_rel hn h0 hp, absolutePath_rel hn h0]
  dsimp only
  have : FS.dirname (U ++ '/' :: f) = U := Pisi.Fetch.dirname_join ⟨hU, hl⟩ hf
  rw [this]
  unfold Pack.osJoin
  rw [if_neg (relPath_head hn), if_neg (by simp [hU, hl])]

theorem dir_ne {U : Str} (h : Dir U) : U ≠ [] := by
  obtain ⟨⟨r, rfl⟩, _⟩ := h
  simp

theorem dir_local {U : Str} (h : Dir U) (s : Str) : LocalPath (U ++ s) := by
  obtain ⟨⟨r, rfl⟩, _⟩ := h
  unfold LocalPath
  simp

/-- The repository has been updated from the index of this directory, and offers the package. -/
structure Offers (o : Opts) (w : Walk α) (y' : System α Str) (n : Str) (l : List Str) (U f : Str) : Prop where
  indexed : ∃ r ix ops, r ≠ [] ∧ LocalPath r ∧ indexDir o r w {} = .ok ix ∧
    (SysOp.run ops).updateRepo n ix = some (.ok y')
  opts : o.realpath = none
  proper : Proper w
  list : y'.repos.list = .ok l
  name : n ≠ []
  uri : y'.repos.getRepo n = .ok (U ++ '/' :: f)
  file : '/' ∉ f

theorem indexDir_packages {o : Opts} (ho : o.realpath = none) {r : Str} (hl : LocalPath r) (hr : r ≠ []) {w : Walk α}
    (hw : Proper w) {ix : Index α} (h : indexDir o r w {} = .ok ix) : ix.packages = pkgsOf (visited o w) ∧
      ix.specs = (visited o w).flatMap (fun x => x.2.flatMap (specOf o x.1)) := by
  obtain ⟨h1, _⟩ := addDirs_ok ho hl hr (visited o w) (visited_proper hw) ({} : Index α)
  have hok := (readable_iff o _).mp ((indexDir_eq ho hl hr hw).mp ⟨ix, h⟩)
  have h2 : indexDir o r w {} = _ := h1 hok
  rw [h] at h2
  injection h2 with h2
  rw [h2]
  exact ⟨rfl, rfl⟩

theorem package_proper {w : Walk α} (hw : Proper w) {rel : List Str} {m : Meta α} (h : Package w rel m) :
    (∀ x ∈ rel, Name x) ∧ rel ≠ [] := by
  obtain ⟨c, ⟨d, fs, fn, hx, hf, rfl⟩, _, _⟩ := h
  obtain ⟨h1, h2⟩ := hw d fs hx
  refine ⟨fun x hx => ?_, by simp⟩
  rcases List.mem_append.mp hx with h | h
  · exact h1 x h
  · rw [List.mem_singleton.mp h]; exact h2 _ hf

theorem lastNamed_mem {β : Type} {name : β → α} {l : List β} {n : α} {x : β} (h : LastNamed name l n x) :
    x ∈ l ∧ name x = n := by
  obtain ⟨a, b, rfl, h, _⟩ := h
  exact ⟨by simp, h⟩

theorem whichRepo_getItem {ν : Type} {d : ItemDB α ν} {l : List Str} {p : α} {n : Str}
    (h : d.whichRepo l p = .ok (.repo n)) : ∃ v, d.cell p (.repo n) = some v ∧ d.getItem l p .repos = .ok v ∧
      d.getItemRepo l p .repos = .ok (v, .repo n) := by
  unfold ItemDB.whichRepo at h
  cases hg : d.getItemRepo l p .repos with
  | error e => rw [hg] at h; cases h
  | ok vr =>
    obtain ⟨v, r⟩ := vr
    rw [hg] at h
    injection h with h
    subst h
    refine ⟨v, ((getItemRepo_order d l p .repos (Or.inl rfl) v _).mp hg).1, ?_, rfl⟩
    unfold ItemDB.getItem
    rw [hg]

/-- What the database offers is the last package of that name in the walk. -/
theorem offers_last {o : Opts} {w : Walk α} {y' : System α Str} {n : Str} {l : List Str} {U f : Str}
    (h : Offers o w y' n l U f) {p : α} (hp : y'.stores.pkg.whichRepo l p = .ok (.repo n)) :
    ∃ m, LastNamed Meta.name (pkgsOf (visited o w)) p m ∧ y'.stores.pkg.getItem l p .repos = .ok m := by
  obtain ⟨⟨r, ix, ops, hr, hl, hi, hu⟩, ho, hw, hlist, hn, huri, hf⟩ := h
  obtain ⟨v, hv, hg, _⟩ := whichRepo_getItem hp
  refine ⟨v, ?_, hg⟩
  unfold System.updateRepo at hu
  split at hu
  · injection hu with hu
    cases hs : ix.updateDb (.repo n) (SysOp.run ops).stores with
    | error e => rw [hs] at hu; cases hu
    | ok s =>
      rw [hs] at hu
      injection hu with hu
      subst hu
      have hx := (update_db_exact ops ix (.repo n) s hs).1 p v
      rw [getItem_one] at hx
      rw [(indexDir_packages ho hl hr hw hi).1] at hx
      dsimp only at hv
      rw [hv] at hx
      exact hx.mp rfl
  · cases hu

/-- The property in full: a package offered by a repository on the local file system is taken from the file below the
directory of the index that the metadata offered was read from. -/
def FindFull (α : Type) [DecidableEq α] : Prop :=
  ∀ (o : Opts) (w : Walk α) (y' : System α Str) (n : Str) (l : List Str) (U f : Str) (p : α),
    Offers o w y' n l U f → Dir U → y'.stores.pkg.whichRepo l p = .ok (.repo n) →
    ∃ rel m, Package (visited o w) rel m ∧ m.name = p ∧
      y'.stores.pkg.getItem l p .repos = .ok { m with uri := relPath rel } ∧
      fromName y' p = .ok (U ++ '/' :: relPath rel)

theorem fromName_of {y' : System α Str} {n : Str} {l : List Str} {p : α} {I : Str} {m : Meta α} (hn : n ≠ [])
    (hl : y'.repos.list = .ok l) (hu : y'.repos.getRepo n = .ok I) (hp : y'.stores.pkg.whichRepo l p = .ok (.repo n))
    (hg : y'.stores.pkg.getItem l p .repos = .ok m) :
    fromName y' p = match resolve (.ok I) m.uri with
      | .error e => .error e
      | .ok q => openPackage q := by
  unfold fromName
  rw [hl]
  dsimp only
  rw [hp]
  cases n with
  | nil => exact absurd rfl hn
  | cons c n =>
    dsimp only
    rw [hu]
    dsimp only
    rw [hg]
    rfl

/-- C132 (partial): the names have no `#` and `?`, the first no colon. -/
theorem find_partial {o : Opts} {w : Walk α} {y' : System α Str} {n : Str} {l : List Str} {U f : Str}
    (h : Offers o w y' n l U f) (hU : Dir U) (hpl : ∀ rel c, FileAt w rel c → Plain rel) {p : α}
    (hp : y'.stores.pkg.whichRepo l p = .ok (.repo n)) :
    ∃ rel m, Package (visited o w) rel m ∧ m.name = p ∧
      y'.stores.pkg.getItem l p .repos = .ok { m with uri := relPath rel } ∧
      fromName y' p = .ok (U ++ '/' :: relPath rel) := by
  obtain ⟨v, hv, hg⟩ := offers_last h hp
  obtain ⟨hm, hname⟩ := lastNamed_mem hv
  obtain ⟨rel, m, hpk, rfl⟩ := (mem_pkgsOf _ _).mp hm
  refine ⟨rel, m, hpk, hname, hg, ?_⟩
  obtain ⟨h1, h2⟩ := package_proper (visited_proper h.proper) hpk
  have hpl' : Plain rel := by
    obtain ⟨c, ⟨d, fs, fn, hx, hf, rfl⟩, _⟩ := hpk
    refine hpl _ c ⟨d, fs, fn, ?_, hf, rfl⟩
    unfold visited at hx
    split at hx
    · exact List.mem_of_mem_take hx
    · exact hx
  rw [fromName_of h.name h.list h.uri hp hg]
  dsimp only
  rw [resolve_rel (dir_ne hU) hU.2 h.file h1 h2 hpl']
  dsimp only
  unfold openPackage
  rw [isRemote_local (dir_local hU _)]
  rfl

/-- C132: an absolute path in the index is opened as it is, wherever the index is. -/
theorem find_absolute {y' : System α Str} {n : Str} {l : List Str} {p : α} {I : Str} {m : Meta α} (hn : n ≠ [])
    (hl : y'.repos.list = .ok l) (hu : y'.repos.getRepo n = .ok I) (hp : y'.stores.pkg.whichRepo l p = .ok (.repo n))
    (hg : y'.stores.pkg.getItem l p .repos = .ok m) {c : Char} {s : Str} (hm : m.uri = '/' :: c :: s) (hc : c ≠ '/') :
    fromName y' p = .ok m.uri := by
  have hloc : LocalPath m.uri := by rw [hm]; simp [LocalPath]
  have hpath : ∃ r, Uri.path m.uri = '/' :: r := by
    refine ⟨((c :: s).takeWhile (· ≠ '#')).takeWhile (· ≠ '?'), ?_⟩
    unfold Uri.path
    rw [splitScheme_local hloc, hm]
    have e1 : Uri.file ∉ Uri.usesParams := by decide
    simp [e1, hc]
  have habs : Path.absolutePath (Uri.path m.uri) = .ok true := by
    obtain ⟨r, hr⟩ := hpath
    obtain ⟨b, hb, hi⟩ := (Path.absolute_path_iff (Uri.path m.uri)).2 (by rw [hr]; simp)
    rw [hb, hi.2 (by rw [hr]; simp [PathSpec.IsAbs])]
  rw [fromName_of hn hl hu hp hg]
  unfold resolve
  rw [habs]
  dsimp only
  unfold openPackage
  rw [isRemote_local hloc]
  rfl

/-- C132: no package of a repository at a URI with a scheme other than `file` can be installed by its name. -/
theorem find_remote {o : Opts} {w : Walk α} {y' : System α Str} {n : Str} {l : List Str} {U f : Str}
    (h : Offers o w y' n l U f) {s H : Str} (hU : U = s ++ ':' :: '/' :: '/' :: H) (hH : U.getLast? ≠ some '/')
    (hs : s ≠ []) (hsc : ∀ c ∈ s, Uri.schemeChar c = true) (hfile : s.map Char.toLower ≠ Uri.file)
    (hpl : ∀ rel c, FileAt w rel c → Plain rel) {p : α} (hp : y'.stores.pkg.whichRepo l p = .ok (.repo n)) :
    fromName y' p = .error .import_ := by
  obtain ⟨v, hv, hg⟩ := offers_last h hp
  obtain ⟨hm, hname⟩ := lastNamed_mem hv
  obtain ⟨rel, m, hpk, rfl⟩ := (mem_pkgsOf _ _).mp hm
  obtain ⟨h1, h2⟩ := package_proper (visited_proper h.proper) hpk
  have hpl' : Plain rel := by
    obtain ⟨c, ⟨d, fs, fn, hx, hf, rfl⟩, _⟩ := hpk
    refine hpl _ c ⟨d, fs, fn, ?_, hf, rfl⟩
    unfold visited at hx
    split at hx
    · exact List.mem_of_mem_take hx
    · exact hx
  rw [fromName_of h.name h.list h.uri hp hg]
  dsimp only
  rw [resolve_rel (by rw [hU]; simp) hH h.file h1 h2 hpl']
  dsimp only
  have hcolon : ∀ c ∈ s, (decide (c ≠ ':')) = true := by
    intro c hc
    simp only [ne_eq, decide_eq_true_eq]
    rintro rfl
    exact absurd (hsc _ hc) (by decide)
  have e1 : (U ++ '/' :: relPath rel).takeWhile (· ≠ ':') = s := by
    rw [hU, List.append_assoc, List.takeWhile_append_of_pos hcolon]
    simp
  have e2 : (U ++ '/' :: relPath rel).dropWhile (· ≠ ':') = ':' :: ('/' :: '/' :: H ++ '/' :: relPath rel) := by
    rw [hU, List.append_assoc, List.dropWhile_append_of_pos hcolon]
    simp
  have hrem : Uri.isRemote (U ++ '/' :: relPath rel) = true := by
    have e3 : (Uri.splitScheme (U ++ '/' :: relPath rel)).1 = s.map Char.toLower := by
      unfold Uri.splitScheme
      rw [e1, e2]
      dsimp only
      rw [if_pos ⟨hs, by rw [List.all_eq_true]; exact hsc, Or.inr (Or.inr (by simp))⟩]
    unfold Uri.isRemote Uri.scheme
    simp only [e3, ne_eq, hfile, not_false_eq_true, decide_true]
  unfold openPackage
  rw [hrem]
  rfl

/-- C132: the same for a source: `pisi build name` takes the specification from where the index says. -/
theorem find_source_partial {o : Opts} {w : Walk α} {y' : System α Str} {n : Str} {l : List Str} {U f : Str}
    (h : Offers o w y' n l U f) (hU : U ≠ [] ∧ U.getLast? ≠ some '/') (hpl : ∀ rel c, FileAt w rel c → Plain rel) {p : α}
    (hp : y'.stores.src.whichRepo l p = .ok (.repo n)) :
    ∃ rel c s, FileAt (visited o w) rel c ∧ c.spec = some s ∧ s.name = p ∧
      y'.stores.src.getItem l p .repos = .ok { s with uri := relPath rel } ∧
      sourceFromName y' p = .ok (U ++ '/' :: relPath rel) := by
  obtain ⟨⟨r, ix, ops, hr, hl, hi, hu⟩, ho, hw, hlist, hn, huri, hf⟩ := h
  obtain ⟨v, hv, hg, hgr⟩ := whichRepo_getItem hp
  have hv' : LastNamed SrcSpec.name ix.specs p v := by
    unfold System.updateRepo at hu
    split at hu
    · injection hu with hu
      cases hs : ix.updateDb (.repo n) (SysOp.run ops).stores with
      | error e => rw [hs] at hu; cases hu
      | ok s =>
        rw [hs] at hu
        injection hu with hu
        subst hu
        have hx := (update_db_exact ops ix (.repo n) s hs).2.2.1 p v
        rw [getItem_one] at hx
        dsimp only at hv
        rw [hv] at hx
        exact hx.mp rfl
    · cases hu
  obtain ⟨hm, hname⟩ := lastNamed_mem hv'
  rw [(indexDir_packages ho hl hr hw hi).2] at hm
  simp only [List.mem_flatMap] at hm
  obtain ⟨⟨d, fs⟩, hx, ⟨fn, c⟩, hfn, hm⟩ := hm
  unfold specOf at hm
  dsimp only at hm
  by_cases hq : fn = pspecXml ∧ o.skipSources = false
  · rw [if_pos hq] at hm
    obtain ⟨s', hs', rfl⟩ := List.mem_map.mp hm
    have hrel : (∀ x ∈ d ++ [fn], Name x) ∧ d ++ [fn] ≠ [] := by
      obtain ⟨h1, h2⟩ := (visited_proper hw) d fs hx
      refine ⟨fun x hx => ?_, by simp⟩
      rcases List.mem_append.mp hx with h | h
      · exact h1 x h
      · rw [List.mem_singleton.mp h]; exact h2 _ hfn
    have hplain : Plain (d ++ [fn]) := by
      refine hpl _ c ⟨d, fs, fn, ?_, hfn, rfl⟩
      unfold visited at hx
      split at hx
      · exact List.mem_of_mem_take hx
      · exact hx
    refine ⟨d ++ [fn], c, s', ⟨d, fs, fn, hx, hfn, rfl⟩, Option.mem_toList.mp hs', hname, hg, ?_⟩
    unfold sourceFromName
    rw [hlist]
    dsimp only
    rw [hgr]
    dsimp only
    rw [huri]
    exact resolve_rel hU.1 hU.2 hf hrel.1 hrel.2 hplain
  · rw [if_neg hq] at hm; cases hm

/-- A directory with one package in `a#.pisi`. -/
def hashWalk : Walk Nat := [([], [(['a', '#', '.', 'p', 'i', 's', 'i'], { pkg := .good onePkg })])]

/-- Its index. -/
def hashIx : Index Nat := { packages := [{ onePkg with uri := ['a', '#', '.', 'p', 'i', 's', 'i'] }] }

/-- A system with the repository `r` at `/d/i`. -/
def oneRepo : List (SysOp Nat Str) := [.addRepo ['r'] ['/', 'd', '/', 'i'] none]

/-- The system after the update. -/
def hashSys : System Nat Str := SysOp.run (oneRepo ++ [.updateRepo ['r'] hashIx])

theorem hash_offers : Offers {} hashWalk hashSys ['r'] [['r']] ['/', 'd'] ['i'] where
  indexed := ⟨['x'], hashIx, oneRepo, by decide, by simp [LocalPath], rfl, rfl⟩
  opts := rfl
  proper := by
    intro d fs hd
    simp only [hashWalk, List.mem_singleton, Prod.mk.injEq] at hd
    obtain ⟨rfl, rfl⟩ := hd
    exact ⟨by simp, by simp [Name]⟩
  list := rfl
  name := by decide
  uri := rfl
  file := by decide

/-- A repository of packages elsewhere. -/
def absSys : System Nat Str :=
  SysOp.run (oneRepo ++ [.updateRepo ['r'] { packages := [{ onePkg with uri := ['/', 'e', '/', 'a'] }] }])

example : fromName absSys 1 = .ok ['/', 'e', '/', 'a'] :=
  find_absolute (n := ['r']) (l := [['r']]) (I := ['/', 'd', '/', 'i']) (m := { onePkg with uri := ['/', 'e', '/', 'a'] })
    (by decide) rfl rfl rfl rfl rfl (by decide)

/-- C132 does not hold in full: what follows `#` is cut off. -/
theorem find_refuted : ¬ FindFull Nat := by
  intro h
  obtain ⟨rel, m, ⟨c, ⟨d, fs, fn, hx, hf, rfl⟩, _⟩, _, _, h2⟩ :=
    h {} hashWalk hashSys ['r'] [['r']] ['/', 'd'] ['i'] 1 hash_offers ⟨⟨_, rfl⟩, by decide⟩ rfl
  simp only [visited, Bool.false_eq_true, if_false, hashWalk, List.mem_singleton, Prod.mk.injEq] at hx
  obtain ⟨rfl, rfl⟩ := hx
  simp only [List.mem_singleton, Prod.mk.injEq] at hf
  obtain ⟨rfl, rfl⟩ := hf
  have : fromName hashSys 1 = .ok ['/', 'd', '/', 'a'] := rfl
  rw [this] at h2
  injection h2 with h2
  exact absurd h2 (by decide)

/-- A directory with two versions of one package: the older one comes last. -/
def twoWalk : Walk Nat :=
  [([], [(['b', '.', 'p', 'i', 's', 'i'],
      { pkg := .good { onePkg with info := { version := ['2'], release := ['2'] } } }),
    (['a', '.', 'p', 'i', 's', 'i'], { pkg := .good onePkg })])]

/-- Its index. -/
def twoIx : Index Nat :=
  { packages := [{ onePkg with info := { version := ['2'], release := ['2'] }, uri := ['b', '.', 'p', 'i', 's', 'i'] },
      { onePkg with uri := ['a', '.', 'p', 'i', 's', 'i'] }] }

/-- The system after the update. -/
def twoSys : System Nat Str := SysOp.run (oneRepo ++ [.updateRepo ['r'] twoIx])

theorem two_offers : Offers {} twoWalk twoSys ['r'] [['r']] ['/', 'd'] ['i'] where
  indexed := ⟨['x'], twoIx, oneRepo, by decide, by simp [LocalPath], rfl, rfl⟩
  opts := rfl
  proper := by
    intro d fs hd
    simp only [twoWalk, List.mem_singleton, Prod.mk.injEq] at hd
    obtain ⟨rfl, rfl⟩ := hd
    exact ⟨by simp, by simp [Name]⟩
  list := rfl
  name := by decide
  uri := rfl
  file := by decide

theorem two_plain : ∀ rel c, FileAt twoWalk rel c → Plain rel := by
  rintro rel c ⟨d, fs, fn, hx, hf, rfl⟩
  simp only [twoWalk, List.mem_singleton, Prod.mk.injEq] at hx
  obtain ⟨rfl, rfl⟩ := hx
  simp only [List.mem_cons, List.not_mem_nil, or_false, Prod.mk.injEq] at hf
  rcases hf with ⟨rfl, _⟩ | ⟨rfl, _⟩ <;> simp [Plain]

/-- The hypotheses of `find_partial` can be met. -/
example : fromName twoSys 1 = .ok ['/', 'd', '/', 'a', '.', 'p', 'i', 's', 'i'] := by
  obtain ⟨rel, m, _, _, _, h⟩ := find_partial two_offers ⟨⟨_, rfl⟩, by decide⟩ two_plain (p := 1) rfl
  rfl

/-! ### C133: the newest package of the directory is offered -/

/-- The property in full: no package of this name in the directory is newer than the one that is offered. -/
def NewestFull (α : Type) [DecidableEq α] : Prop :=
  ∀ (o : Opts) (w : Walk α) (y' : System α Str) (n : Str) (l : List Str) (U f : Str) (p : α) (v : Meta α),
    Offers o w y' n l U f → y'.stores.pkg.whichRepo l p = .ok (.repo n) → y'.stores.pkg.getItem l p .repos = .ok v →
    ∀ rel m, Package (visited o w) rel m → m.name = p → Rebuild.NotNewer m.info.version v.info.version

/-- C133: what is offered is the last package of that name in the order of `os.walk`. -/
theorem offered_is_last {o : Opts} {w : Walk α} {y' : System α Str} {n : Str} {l : List Str} {U f : Str}
    (h : Offers o w y' n l U f) {p : α} (hp : y'.stores.pkg.whichRepo l p = .ok (.repo n)) {v : Meta α}
    (hv : y'.stores.pkg.getItem l p .repos = .ok v) : LastNamed Meta.name (pkgsOf (visited o w)) p v := by
  obtain ⟨m, h1, h2⟩ := offers_last h hp
  rw [hv] at h2
  injection h2 with h2
  rw [h2]
  exact h1

/-- C133 does not hold in full: the last one is offered, which may be the older one. -/
theorem newest_refuted : ¬ NewestFull Nat := by
  intro h
  have h1 := h {} twoWalk twoSys ['r'] [['r']] ['/', 'd'] ['i'] 1 { onePkg with uri := ['a', '.', 'p', 'i', 's', 'i'] }
    two_offers rfl rfl [['b', '.', 'p', 'i', 's', 'i']] { onePkg with info := { version := ['2'], release := ['2'] } }
    ⟨_, ⟨[], _, _, List.mem_singleton.mpr rfl, List.mem_cons_self .., rfl⟩, ⟨['b'], rfl⟩, rfl⟩ rfl
  have p1 : parse ['1'] = some [⟨.nokey, .num 1⟩] := by decide +kernel
  have p2 : parse ['2'] = some [⟨.nokey, .num 2⟩] := by decide +kernel
  refine h1 _ _ ((version_grammar _ _).mp p2) ((version_grammar _ _).mp p1) ?_
  rw [← (version_operators _ _).1]
  decide +kernel

/-- C133 (partial): if the packages of one name come in an order in which no later one is older, the newest is offered. -/
theorem newest_partial {o : Opts} {w : Walk α} {y' : System α Str} {n : Str} {l : List Str} {U f : Str} {p : α} {v : Meta α}
    (h : Offers o w y' n l U f) (hp : y'.stores.pkg.whichRepo l p = .ok (.repo n))
    (hv : y'.stores.pkg.getItem l p .repos = .ok v)
    (hord : (pkgsOf (visited o w)).Pairwise
      (fun a b => a.name = b.name → Rebuild.NotNewer a.info.version b.info.version))
    {rel : List Str} {m : Meta α} (hm : Package (visited o w) rel m) (hn : m.name = p) :
    m.info.version = v.info.version ∨ Rebuild.NotNewer m.info.version v.info.version := by
  obtain ⟨a, b, he, hvn, hb⟩ := offered_is_last h hp hv
  have hmem : { m with uri := relPath rel } ∈ pkgsOf (visited o w) := (mem_pkgsOf _ _).mpr ⟨rel, m, hm, rfl⟩
  rw [he] at hmem hord
  rcases List.mem_append.mp hmem with hin | hin
  · right
    exact (List.pairwise_append.mp hord).2.2 _ hin v (List.mem_cons_self ..) (by rw [hvn]; exact hn)
  · rcases List.mem_cons.mp hin with hin | hin
    · left; rw [← hin]
    · exact absurd hn (hb { m with uri := relPath rel } hin)

/-! ### C134: the source of a package -/

theorem addSpecs_p2s (r : RepoId) (ms : List (SrcSpec α)) : ∀ s : Stores α, s.WF → ∀ s', forM' (DB.addSpec r) ms s = .ok s' →
    (∀ n x, LastNamed (fun e : SrcSpec α => decide (n ∈ e.packages)) ms true x → s'.p2s.cell n r = some x.name) ∧
    (∀ n, (∀ m ∈ ms, n ∉ m.packages) → s'.p2s.cell n r = s.p2s.cell n r) := by
  induction ms with
  | nil =>
    intro s h s' hs
    cases hs
    exact ⟨fun n x ⟨a, b, e, _⟩ => by simp at e, fun _ _ => rfl⟩
  | cons m ms ih =>
    intro s h s' hs
    obtain ⟨_, i2⟩ := addSpec_spec h r m
    unfold forM' at hs
    cases hp : DB.addSpec r s m with
    | error e => rw [hp] at hs; cases hs
    | ok s1 =>
      rw [hp] at hs
      obtain ⟨w1, _, _, _, _, c1⟩ := i2 s1 hp
      obtain ⟨j1, j2⟩ := ih s1 w1 s' hs
      refine ⟨fun n x hx => ?_, fun n hn => ?_⟩
      · rcases (lastNamed_cons_iff _ _ _ _ _).mp hx with hx | ⟨rfl, hn, hno⟩
        · exact j1 n x hx
        · rw [j2 n (fun y hy => by simpa using hno y hy), c1, if_pos (by simpa using hn)]
      · rw [j2 n (fun x hx => hn x (List.mem_cons_of_mem _ hx)), c1, if_neg (hn m (List.mem_cons_self ..))]

theorem updateDb_p2s {s : Stores α} (h : s.WF) (ix : Index α) (r : RepoId) {s' : Stores α} (hs : ix.updateDb r s = .ok s') :
    (∀ n x, LastNamed (fun e : SrcSpec α => decide (n ∈ e.packages)) ix.specs true x → s'.p2s.cell n r = some x.name) ∧
    (∀ n, (∀ m ∈ ix.specs, n ∉ m.packages) → s'.p2s.cell n r = none) := by
  obtain ⟨s1, e1, w1, o1, p1, v1, sr1, ps1, _⟩ := compRemoveRepo_spec h r
  obtain ⟨c, ec, wc, oc⟩ := updateComponents_spec r ix.components s1.comp w1.comp
  have w1' : Stores.WF { s1 with comp := c } := ⟨w1.pkg, w1.rev, w1.src, w1.p2s, wc⟩
  obtain ⟨s2, e2, w2, o2, _, _, _, n2, m2⟩ := pkgRemoveRepo_spec w1' r
  obtain ⟨k1, k2⟩ := addPackages_spec' r ix.packages s2 w2
  unfold Index.updateDb at hs
  simp only [e1, ec, e2] at hs
  cases h3 : forM' (DB.addPackage r) ix.packages s2 with
  | error e => rw [h3] at hs; cases hs
  | ok s3 =>
    rw [h3] at hs
    obtain ⟨w3, _⟩ := k2 s3 h3
    obtain ⟨s4, e4, w4, _, _, _, _, _, n4⟩ := srcRemoveRepo_spec w3 r
    simp only [e4] at hs
    obtain ⟨a, b⟩ := addSpecs_p2s r ix.specs s4 w4 s' hs
    exact ⟨a, fun n hn => by rw [b n hn, n4]⟩

/-- `pkgtosrc(name)`, pisi/db/source.py:69-70. -/
def pkgtosrc (y : System α Str) (l : List Str) (p : α) : Except IErr α := y.stores.p2s.getItem l p .repos

/-- The source that a package is built from: its specification lists the package. -/
def Builds (y : System α Str) (l : List Str) (s p : α) : Prop :=
  ∃ sp, y.stores.src.getItem l s .repos = .ok sp ∧ p ∈ sp.packages

/-- The property in full: in every reachable state a package has a source if the specification of some source lists it, and
the specification of that source lists the package. -/
def SourceFull (α : Type) [DecidableEq α] : Prop :=
  ∀ (ops : List (SysOp α Str)) (l : List Str) (p : α), (SysOp.run ops).repos.list = .ok l →
    (∀ s, pkgtosrc (SysOp.run ops) l p = .ok s → Builds (SysOp.run ops) l s p) ∧
    ((∃ s, Builds (SysOp.run ops) l s p) → ∃ s, pkgtosrc (SysOp.run ops) l p = .ok s)

theorem removePackage_p2s {r : RepoId} {s s' : Stores α} {name : α} (h : removePackage r s name = .ok s') :
    s'.p2s = s.p2s ∧ s'.src = s.src := by
  unfold removePackage at h
  split at h
  · cases h
  · split at h
    · cases h
    · split at h
      · cases h
      · split at h
        · cases h
        · split at h
          · cases h
          · split at h
            · cases h
            · injection h with h
              subst h
              exact ⟨rfl, rfl⟩

theorem removeTracking_p2s {s s' : Stores α} {name : α} (h : removeTracking s name = .ok s') :
    s'.p2s = s.p2s ∧ s'.src = s.src := by
  unfold removeTracking at h
  dsimp only at h
  have one : ∀ (r : RepoId) (a b : Stores α),
      (if a.pkg.hasKey name (.one r) = true then removePackage r a name else .ok a) = .ok b →
      b.p2s = a.p2s ∧ b.src = a.src := by
    intro r a b hab
    split at hab
    · exact removePackage_p2s hab
    · injection hab with hab; subst hab; exact ⟨rfl, rfl⟩
  split at h
  · cases h
  · rename_i s1 h1
    obtain ⟨a, b⟩ := one _ _ _ h1
    obtain ⟨c, d⟩ := one _ _ _ h
    exact ⟨c.trans a, d.trans b⟩

/-- The specifications of an index have distinct names. -/
def SysOp.distinct : SysOp α Str → Prop
  | .updateRepo _ ix => ix.specs.Pairwise (fun a b => a.name ≠ b.name)
  | _ => True

/-- What is kept of the sources and packages of a repository. -/
structure Sourced (y : System α Str) (l : List Str) : Prop where
  ok : SysOK y l
  p2s : OnlyListed l y.stores.p2s
  back : ∀ n s sp p, y.stores.src.cell s (.repo n) = some sp → p ∈ sp.packages → (y.stores.p2s.cell p (.repo n)).isSome

/-- The specification kept for the source of a package lists the package. -/
def Forth (y : System α Str) : Prop :=
  ∀ n s p, y.stores.p2s.cell p (.repo n) = some s → ∃ sp, y.stores.src.cell s (.repo n) = some sp ∧ p ∈ sp.packages

theorem lastNamed_distinct {ms : List (SrcSpec α)} (h : ms.Pairwise (fun a b => a.name ≠ b.name)) {x : SrcSpec α}
    (hx : x ∈ ms) : LastNamed SrcSpec.name ms x.name x := by
  obtain ⟨a, b, rfl⟩ := List.append_of_mem hx
  refine ⟨a, b, rfl, rfl, fun y hy => ?_⟩
  have := (List.pairwise_append.mp h).2.1
  exact fun e => (List.pairwise_cons.mp this).1 y hy e.symm

theorem sourced_step {y : System α Str} {l : List Str} (h : Sourced y l) (op : SysOp α Str) :
    ∃ l', Sourced (SysOp.step y op) l' ∧ (Indexing.SysOp.distinct op → Forth y → Forth (SysOp.step y op)) := by
  obtain ⟨l', hok⟩ := sys_step h.ok op
  have hlist : ∀ {y' : System α Str} {l1}, SysOK y' l1 → y'.repos.list = .ok l1 := fun h => by
    simp [RepoDB.list, h.repos.order]
  cases op with
  | addRepo n x pos =>
    simp only [SysOp.step] at hok ⊢
    cases ha : y.repos.addRepo n x pos with
    | error e => exact ⟨l, h, fun _ hf => hf⟩
    | ok d =>
      rw [ha] at hok
      dsimp only at hok ⊢
      refine ⟨l', ⟨hok, ?_, h.back⟩, fun _ hf => hf⟩
      intro k z hz
      have hzl := h.p2s k z hz
      rw [hok.repos.mem]
      rw [h.ok.repos.mem] at hzl
      obtain ⟨_, he, _⟩ := addRepo_ok h.ok.repos ha
      unfold Dict.has at hzl ⊢
      dsimp only
      rw [he, Dict.get_put]
      split
      · rfl
      · exact hzl
  | removeRepo n =>
    simp only [SysOp.step] at hok ⊢
    cases hr : y.removeRepo n with
    | error e => exact ⟨l, h, fun _ hf => hf⟩
    | ok y' =>
      dsimp only
      have hmem : ∀ x, x ≠ n → x ∈ l → x ∈ l.erase n := fun x hx hl => (List.mem_erase_of_ne hx).mpr hl
      obtain ⟨l1, hl1⟩ : ∃ l1, SysOK y' (l.erase n) ∧ y.stores.SameOff (.repo n) y'.stores ∧ l1 = l := by
        rcases removeRepo_sys h.ok n with ⟨e, _⟩ | ⟨_, y2, e, hs, ho, _⟩
        · rw [hr] at e; cases e
        · rw [hr] at e; cases e; exact ⟨l, hs, ho, rfl⟩
      obtain ⟨hs, ho, _⟩ := hl1
      have hn : (∀ k, y'.stores.p2s.cell k (.repo n) = none) ∧ ∀ k, y'.stores.src.cell k (.repo n) = none := by
        unfold System.removeRepo at hr
        cases hd : y.repos.dropRepo n with
        | error e => rw [hd] at hr; cases hr
        | ok d' =>
          obtain ⟨s1, e1, w1, o1, src1, p2s1, comp1, n1, _⟩ := pkgRemoveRepo_spec h.ok.wf (.repo n)
          obtain ⟨s2, e2, w2, o2, pkg2, _, comp2, n2, m2⟩ := srcRemoveRepo_spec w1 (.repo n)
          obtain ⟨s3, e3, w3, o3, pkg3, _, src3, p3, n3⟩ := compRemoveRepo_spec w2 (.repo n)
          rw [hd] at hr
          simp only [e1, e2, e3] at hr
          injection hr with hr
          subst hr
          exact ⟨fun k => by rw [p3]; exact m2 k, fun k => by rw [src3]; exact n2 k⟩
      refine ⟨l.erase n, ⟨hs, ?_, ?_⟩, ?_⟩
      · intro k z hz
        by_cases hzn : z = n
        · subst hzn; rw [hn.1] at hz; cases hz
        · rw [ho.p2s k _ (by simpa using hzn)] at hz
          exact hmem z hzn (h.p2s k z hz)
      · intro z s sp p hsp hp
        by_cases hzn : z = n
        · subst hzn; rw [hn.2] at hsp; cases hsp
        · rw [ho.src s _ (by simpa using hzn)] at hsp
          rw [ho.p2s p _ (by simpa using hzn)]
          exact h.back z s sp p hsp hp
      · intro _ hf z s p hp
        by_cases hzn : z = n
        · subst hzn; rw [hn.1] at hp; cases hp
        · rw [ho.p2s p _ (by simpa using hzn)] at hp
          rw [ho.src s _ (by simpa using hzn)]
          exact hf z s p hp
  | updateRepo n ix =>
    simp only [SysOp.step, System.updateRepo] at hok ⊢
    by_cases hh : y.repos.hasRepo n = true
    · simp only [hh, if_true] at hok ⊢
      cases hu : ix.updateDb (.repo n) y.stores with
      | error e => exact ⟨l, h, fun _ hf => hf⟩
      | ok s =>
        rw [hu] at hok
        dsimp only at hok ⊢
        obtain ⟨w, o, _, _, c3, c4, _⟩ := (updateDb_spec h.ok.wf ix (.repo n)).2 s hu
        obtain ⟨d1, d2⟩ := updateDb_p2s h.ok.wf ix (.repo n) hu
        have hl' : l' = l := by
          have h1 := hlist hok
          have h2 := hlist h.ok
          dsimp only at h1
          rw [h2] at h1
          injection h1 with h1
          exact h1.symm
        subst hl'
        refine ⟨l', ⟨hok, ?_, ?_⟩, ?_⟩
        · intro k z hz
          by_cases hzn : z = n
          · subst hzn; exact (h.ok.repos.mem z).mpr hh
          · rw [o.p2s k _ (by simpa using hzn)] at hz
            exact h.p2s k z hz
        · intro z sn sp p hsp hp
          by_cases hzn : z = n
          · subst hzn
            dsimp only at hsp ⊢
            rcases last_named_exists SrcSpec.name ix.specs sn with hno | ⟨m, hm⟩
            · rw [c4 sn hno] at hsp; cases hsp
            · rw [c3 sn m hm] at hsp
              injection hsp with hsp
              subst hsp
              rcases last_named_exists (fun e : SrcSpec α => decide (p ∈ e.packages)) ix.specs true with hno | ⟨x, hx⟩
              · exact absurd (by simpa using hp) (hno m (lastNamed_mem hm).1)
              · rw [d1 p x hx]; rfl
          · rw [o.src sn _ (by simpa using hzn)] at hsp
            rw [o.p2s p _ (by simpa using hzn)]
            exact h.back z sn sp p hsp hp
        · intro hd hf z sn p hp
          by_cases hzn : z = n
          · subst hzn
            dsimp only at hp ⊢
            rcases last_named_exists (fun e : SrcSpec α => decide (p ∈ e.packages)) ix.specs true with hno | ⟨x, hx⟩
            · rw [d2 p (fun m hm => by simpa using hno m hm)] at hp; cases hp
            · rw [d1 p x hx] at hp
              injection hp with hp
              subst hp
              obtain ⟨hx1, hx2⟩ := lastNamed_mem hx
              exact ⟨x, c3 _ x (lastNamed_distinct hd hx1), by simpa using hx2⟩
          · rw [o.p2s p _ (by simpa using hzn)] at hp
            rw [o.src sn _ (by simpa using hzn)]
            exact hf z sn p hp
    · simp only [hh]; exact ⟨l, h, fun _ hf => hf⟩
  | track r m =>
    have key : ∀ r' s, DB.addPackage r' y.stores m = .ok s → s.p2s = y.stores.p2s ∧ s.src = y.stores.src := fun r' s hs => by
      obtain ⟨_, _, a, b, _⟩ := (addPackage_spec h.ok.wf r' m).2 s hs
      exact ⟨b, a⟩
    have fin : ∀ r' : RepoId, ∀ l1, SysOK (match DB.addPackage r' y.stores m with
          | .ok s => { y with stores := s }
          | .error _ => y) l1 →
        ∃ l', Sourced (match DB.addPackage r' y.stores m with
          | .ok s => { y with stores := s }
          | .error _ => y) l' ∧ (Indexing.SysOp.distinct (SysOp.track r m : SysOp α Str) → Forth y → Forth (match DB.addPackage r' y.stores m with
          | .ok s => { y with stores := s }
          | .error _ => y)) := by
      intro r' l1 hl1
      cases ha : DB.addPackage r' y.stores m with
      | error e => exact ⟨l, h, fun _ hf => hf⟩
      | ok s =>
        rw [ha] at hl1
        dsimp only at hl1 ⊢
        obtain ⟨a, b⟩ := key r' s ha
        have e1 := hlist hl1
        have e2 := hlist h.ok
        dsimp only at e1
        rw [e2] at e1
        injection e1 with e1
        subst e1
        refine ⟨l, ⟨hl1, ?_, ?_⟩, ?_⟩
        · intro k z hz; dsimp only at hz; rw [a] at hz; exact h.p2s k z hz
        · intro z sn sp p hsp hp; dsimp only at hsp ⊢; rw [b] at hsp; rw [a]; exact h.back z sn sp p hsp hp
        · intro _ hf z sn p hp; dsimp only at hp ⊢; rw [a] at hp; rw [b]; exact hf z sn p hp
    cases r with
    | repo n => exact ⟨l, h, fun _ hf => hf⟩
    | thirdparty => simp only [SysOp.step] at hok ⊢; exact fin _ l' hok
    | installed => simp only [SysOp.step] at hok ⊢; exact fin _ l' hok
  | untrack name =>
    simp only [SysOp.step] at hok ⊢
    cases ha : removeTracking y.stores name with
    | error e => exact ⟨l, h, fun _ hf => hf⟩
    | ok s =>
      rw [ha] at hok
      dsimp only at hok ⊢
      obtain ⟨a, b⟩ := removeTracking_p2s ha
      have e1 := hlist hok
      have e2 := hlist h.ok
      dsimp only at e1
      rw [e2] at e1
      injection e1 with e1
      subst e1
      refine ⟨l, ⟨hok, ?_, ?_⟩, ?_⟩
      · intro k z hz; dsimp only at hz; rw [a] at hz; exact h.p2s k z hz
      · intro z sn sp p hsp hp; dsimp only at hsp ⊢; rw [b] at hsp; rw [a]; exact h.back z sn sp p hsp hp
      · intro _ hf z sn p hp; dsimp only at hp ⊢; rw [a] at hp; rw [b]; exact hf z sn p hp

theorem sourced_run (ops : List (SysOp α Str)) : ∃ l, Sourced (SysOp.run ops) l ∧
    ((∀ op ∈ ops, Indexing.SysOp.distinct op) → Forth (SysOp.run ops)) := by
  induction ops using snoc_induction with
  | h0 =>
    obtain ⟨l, hl⟩ := sys_run ([] : List (SysOp α Str))
    refine ⟨l, ⟨hl, ?_, ?_⟩, fun _ => ?_⟩
    · intro n x hx; simp [SysOp.run, cell_nil] at hx
    · intro n s sp p hx; simp [SysOp.run, cell_nil] at hx
    · intro n s p hx; simp [SysOp.run, cell_nil] at hx
  | hs l a ih =>
    obtain ⟨l', h, hf⟩ := ih
    have : SysOp.run (l ++ [a]) = SysOp.step (SysOp.run l) a := by simp [SysOp.run]
    rw [this]
    obtain ⟨l2, h2, hf2⟩ := sourced_step h a
    exact ⟨l2, h2, fun hd => hf2 (hd a (by simp)) (hf (fun op ho => hd op (by simp [ho])))⟩

/-- C134: a package listed by the specification of a source has a source. -/
theorem source_exists (ops : List (SysOp α Str)) (l : List Str) (p : α) (hl : (SysOp.run ops).repos.list = .ok l)
    (h : ∃ s, Builds (SysOp.run ops) l s p) : ∃ s, pkgtosrc (SysOp.run ops) l p = .ok s := by
  obtain ⟨l0, hs, _⟩ := sourced_run ops
  have : l0 = l := by
    have := hs.ok.repos.order
    simp [RepoDB.list, this] at hl; exact hl
  subst this
  obtain ⟨s, sp, h1, h2⟩ := h
  unfold ItemDB.getItem at h1
  cases hg : (SysOp.run ops).stores.src.getItemRepo l0 s .repos with
  | error e => rw [hg] at h1; cases h1
  | ok vr =>
    obtain ⟨v, r⟩ := vr
    rw [hg] at h1
    injection h1 with h1
    subst h1
    obtain ⟨h3, h4⟩ := (getItemRepo_order _ l0 s .repos (Or.inl rfl) v r).mp hg
    obtain ⟨x, rfl, _⟩ := (firstWith_map _ _ _ _).mp h4
    have hx := hs.back x s v p h3 h2
    have hw := whichRepo_spec (SysOp.run ops).stores.p2s l0 p
    cases hfi : l0.find? (fun x => ((SysOp.run ops).stores.p2s.cell p (.repo x)).isSome) with
    | none =>
      have := List.find?_eq_none.mp hfi x (hs.p2s p x hx)
      simp [hx] at this
    | some z =>
      simp only [hfi] at hw
      obtain ⟨v, _, hv, _⟩ := whichRepo_getItem hw
      exact ⟨v, hv⟩

/-- C134 (partial): if the specifications of every index have distinct names and no source is in two repositories, the
specification of the source of a package lists it. -/
theorem source_partial (ops : List (SysOp α Str)) (l : List Str) (p : α) (hl : (SysOp.run ops).repos.list = .ok l)
    (hd : ∀ op ∈ ops, Indexing.SysOp.distinct op)
    (hone : ∀ s x z, s ∈ (SysOp.run ops).stores.src.list (.one (.repo x)) →
      s ∈ (SysOp.run ops).stores.src.list (.one (.repo z)) → x = z) :
    ∀ s, pkgtosrc (SysOp.run ops) l p = .ok s → Builds (SysOp.run ops) l s p := by
  obtain ⟨l0, hs, hf⟩ := sourced_run ops
  have : l0 = l := by
    have := hs.ok.repos.order
    simp [RepoDB.list, this] at hl; exact hl
  subst this
  intro s hp
  unfold pkgtosrc ItemDB.getItem at hp
  cases hg : (SysOp.run ops).stores.p2s.getItemRepo l0 p .repos with
  | error e => rw [hg] at hp; cases hp
  | ok vr =>
    obtain ⟨v, r⟩ := vr
    rw [hg] at hp
    injection hp with hp
    subst hp
    obtain ⟨h3, h4⟩ := (getItemRepo_order _ l0 p .repos (Or.inl rfl) v r).mp hg
    obtain ⟨x, rfl, _⟩ := (firstWith_map _ _ _ _).mp h4
    obtain ⟨sp, h5, h6⟩ := hf hd x v p h3
    refine ⟨sp, ?_, h6⟩
    have hw := whichRepo_spec (SysOp.run ops).stores.src l0 v
    cases hfi : l0.find? (fun x => ((SysOp.run ops).stores.src.cell v (.repo x)).isSome) with
    | none =>
      have := List.find?_eq_none.mp hfi x (hs.ok.src v x (by rw [h5]; rfl))
      simp [h5] at this
    | some z =>
      simp only [hfi] at hw
      obtain ⟨sp', hc, hv, _⟩ := whichRepo_getItem hw
      have hz : x = z := hone v x z ((mem_list_iff hs.ok.wf.src v _).mpr (by rw [h5]; rfl))
        ((mem_list_iff hs.ok.wf.src v _).mpr (by rw [hc]; rfl))
      subst hz
      rw [h5] at hc
      injection hc with hc
      rw [hc]
      exact hv

/-- Two repositories with different specifications of the source 7: package 1 is only built by the one in the second. -/
def sevenOps : List (SysOp Nat Str) :=
  [.addRepo ['a'] [] none, .addRepo ['b'] [] none,
    .updateRepo ['a'] { specs := [{ name := 7, packages := [2], partOf := some 9, valid := true }] },
    .updateRepo ['b'] { specs := [{ name := 7, packages := [1], partOf := some 9, valid := true }] }]

/-- C134 does not hold in full: the source of package 1 is 7, but the specification of 7 does not list it. -/
theorem source_refuted : ¬ SourceFull Nat := by
  intro h
  obtain ⟨sp, h1, h2⟩ := (h sevenOps [['a'], ['b']] 1 rfl).1 7 rfl
  have h3 : (SysOp.run sevenOps).stores.src.getItem [['a'], ['b']] 7 .repos =
    .ok { name := 7, packages := [2], partOf := some 9, valid := true } := rfl
  rw [h3] at h1
  injection h1 with h1
  subst h1
  exact absurd h2 (by decide)

/-- The hypotheses of `source_partial` can be met. -/
example : Builds (SysOp.run (sevenOps.take 3)) [['a'], ['b']] 7 2 := by
  refine source_partial (sevenOps.take 3) [['a'], ['b']] 2 rfl ?_ ?_ 7 rfl
  · intro op ho
    simp only [sevenOps, List.take_succ_cons, List.take_zero, List.mem_cons, List.not_mem_nil, or_false] at ho
    rcases ho with rfl | rfl | rfl <;> simp [SysOp.distinct]
  · intro s x z hx hz
    have e : (SysOp.run (sevenOps.take 3)).stores.src =
      [(7, [(.repo ['a'], { name := 7, packages := [2], partOf := some 9, valid := true })])] := rfl
    rw [e] at hx hz
    simp only [ItemDB.list, List.filter_cons, List.filter_nil, Dict.has, Dict.get] at hx hz
    by_cases h1 : x = ['a']
    · by_cases h2 : z = ['a']
      · rw [h1, h2]
      · have : ¬ ['a'] = z := fun e => h2 e.symm
        simp [this] at hz
    · have : ¬ ['a'] = x := fun e => h1 e.symm
      simp [this] at hx

/-- C131: with several directories the index lists what is in each of them, in the order in which they are given. -/
theorem index_dirs (o : Opts) (ho : o.realpath = none) (ds : List (Str × Walk α))
    (h : ∀ x ∈ ds, x.1 ≠ [] ∧ LocalPath x.1 ∧ Proper x.2 ∧ Readable o.skipSources (visited o x.2)) (ix : Index α) :
    ∃ ix', indexDirs o ds ix = .ok ix' ∧ ix'.packages = ix.packages ++ ds.flatMap (fun x => pkgsOf (visited o x.2)) ∧
      ∀ m, m ∈ ix'.packages ↔ m ∈ ix.packages ∨
        ∃ x ∈ ds, ∃ rel m', Package (visited o x.2) rel m' ∧ m = { m' with uri := relPath rel } := by
  have hmain : ∃ ix', indexDirs o ds ix = .ok ix' ∧
      ix'.packages = ix.packages ++ ds.flatMap (fun x => pkgsOf (visited o x.2)) := by
    induction ds generalizing ix with
    | nil => exact ⟨ix, rfl, by simp⟩
    | cons x ds ih =>
      obtain ⟨r, w⟩ := x
      obtain ⟨hr, hl, hw, hok⟩ := h (r, w) List.mem_cons_self
      obtain ⟨h1, _⟩ := addDirs_ok ho hl hr (visited o w) (visited_proper hw) ix
      have h2 : indexDir o r w ix = _ := h1 ((readable_iff o _).mp hok)
      obtain ⟨ix', h3, h4⟩ := ih (fun y hy => h y (List.mem_cons_of_mem _ hy)) (plus ix (pkgsOf (visited o w))
        ((visited o w).flatMap (fun x => x.2.flatMap compOf)) ((visited o w).flatMap (fun x => x.2.flatMap (specOf o x.1))))
      refine ⟨ix', ?_, ?_⟩
      · unfold indexDirs
        rw [h2]
        exact h3
      · rw [h4]
        simp [plus]
  obtain ⟨ix', h1, h2⟩ := hmain
  refine ⟨ix', h1, h2, ?_⟩
  intro m
  rw [h2, List.mem_append, List.mem_flatMap]
  simp only [mem_pkgsOf]

/-- Two directories with a package each. -/
example : ∃ ix, indexDirs {} [(['/', 'a'], [([], [(['x', '.', 'p', 'i', 's', 'i'], { pkg := .good onePkg })])]),
    (['/', 'b'], [([], [(['y', '.', 'p', 'i', 's', 'i'], { pkg := .good { onePkg with name := 2 } })])])] {} = .ok ix ∧
    ix.packages.map Meta.name = [1, 2] := ⟨_, rfl, rfl⟩

end Pisi.Indexing
