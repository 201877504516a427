import Verif.Spec.SpecFile
import Verif.Lemmas.InstallPlan
import Verif.Lemmas.Packaging

/-!
# Properties of specifications and the metadata made of them
-/
namespace Pisi.Pspec
open Pisi.PlanSpec

theorem falsy_iff (s : Option Str) : falsy s = true ↔ Missing s := by
  cases s with
  | none => simp [falsy, Missing]
  | some t => cases t <;> simp [falsy, Missing]

theorem mergeTags_ok {s s' : SpecFile} (h : mergeTags s = .ok s') :
    ∃ v r, s' = { s with
      source := { s.source with history := s.history, version := v, release := r },
      packages := s.packages.map fun p => { p with isA := p.isA ++ s.source.isA, history := s.history } } ∧
      (falsy s.source.version = false → v = s.source.version) ∧ (falsy s.source.release = false → r = s.source.release) ∧
      (falsy s.source.version = true → ∃ u t, s.history = u :: t ∧ v = some u.version) ∧
      (falsy s.source.release = true → ∃ u t, s.history = u :: t ∧ r = some u.release) := by
  unfold mergeTags at h
  cases hv : falsy s.source.version <;> cases hr : falsy s.source.release <;> cases hh : s.history <;>
    simp only [hv, hr, hh, lastVersion, lastRelease, bind, Except.bind, if_true, if_false, Bool.false_eq_true] at h <;>
    first
    | cases h; exact ⟨_, _, rfl, fun _ => rfl, fun _ => rfl, nofun, nofun⟩
    | cases h; exact ⟨_, _, rfl, fun _ => rfl, nofun, nofun, fun _ => ⟨_, _, rfl, rfl⟩⟩
    | cases h; exact ⟨_, _, rfl, nofun, fun _ => rfl, fun _ => ⟨_, _, rfl, rfl⟩, nofun⟩
    | cases h; exact ⟨_, _, rfl, nofun, nofun, fun _ => ⟨_, _, rfl, rfl⟩, fun _ => ⟨_, _, rfl, rfl⟩⟩
    | cases h

theorem override_eq (src : Source) (p : Package) : overridePkg src p = { p with
    summary := if p.summary.isEmpty then src.summary else p.summary,
    description := if p.description.isEmpty then src.description else p.description,
    partOf := if falsy p.partOf then src.partOf else p.partOf,
    license := if p.license.isEmpty then src.license else p.license,
    icon := if falsy p.icon then src.icon else p.icon } := by
  unfold overridePkg
  cases h1 : p.summary.isEmpty <;> cases h2 : p.description.isEmpty <;> cases h3 : falsy p.partOf <;>
    cases h4 : p.license.isEmpty <;> cases h5 : falsy p.icon <;> simp [h2, h3, h4, h5]

theorem ownOr_list {β : Type} (a b : List β) : OwnOr (· = []) a b (if a.isEmpty then b else a) := by
  cases a <;> simp [OwnOr]

theorem ownOr_str (a b : Option Str) : OwnOr Missing a b (if falsy a then b else a) := by
  constructor
  · intro h; rw [if_neg]; rw [falsy_iff]; exact h
  · intro h; rw [if_pos]; rw [falsy_iff]; exact h

/-- Overriding again with the component filled in is overriding once with it. -/
theorem override_twice (src : Source) (c : Option Str) (hc : falsy src.partOf = true) (p : Package) :
    overridePkg { src with partOf := c } (overridePkg src p) = overridePkg { src with partOf := c } p := by
  have e : ∀ (a b : List (Str × Str)), (if (if a.isEmpty then b else a).isEmpty then b else if a.isEmpty then b else a) =
      if a.isEmpty then b else a := by intro a b; cases a <;> cases b <;> rfl
  have e' : ∀ (a b : List Str), (if (if a.isEmpty then b else a).isEmpty then b else if a.isEmpty then b else a) =
      if a.isEmpty then b else a := by intro a b; cases a <;> cases b <;> rfl
  have e'' : ∀ (a b : Option Str), (if falsy (if falsy a then b else a) then b else if falsy a then b else a) =
      if falsy a then b else a := by
    intro a b
    cases ha : falsy a
    · simp [ha]
    · simp
  have e3 : (if falsy (if falsy p.partOf then src.partOf else p.partOf) then c else if falsy p.partOf then src.partOf else p.partOf) =
      if falsy p.partOf then c else p.partOf := by
    cases ha : falsy p.partOf
    · simp [ha]
    · simp [hc]
  simp only [override_eq, e, e', e'', e3]

/-- What `read_hook` and `fetch_component` make of a specification: the same as if the source had named its component. -/
theorem read_fetch {comp : Option Str} {s s1 s2 : SpecFile} (h1 : readHook s = .ok s1) (h2 : fetchComponent comp s1 = .ok s2) :
    ∃ v r c, SourceComponent comp s.source c ∧ (Missing s.source.partOf → c ≠ none) ∧
      s2.source = { s.source with history := s.history, version := v, release := r, partOf := c } ∧
      s2.packages = s.packages.map (fun p => overridePkg { s.source with partOf := c }
        { p with isA := p.isA ++ s.source.isA, history := s.history }) ∧
      (falsy s.source.version = false → v = s.source.version) ∧ (falsy s.source.release = false → r = s.source.release) ∧
      (falsy s.source.version = true → ∃ u t, s.history = u :: t ∧ v = some u.version) ∧
      (falsy s.source.release = true → ∃ u t, s.history = u :: t ∧ r = some u.release) := by
  unfold readHook at h1
  cases hm : mergeTags s with
  | error e => rw [hm] at h1; cases h1
  | ok sm =>
    rw [hm] at h1
    cases h1
    obtain ⟨v, r, rfl, h⟩ := mergeTags_ok hm
    unfold fetchComponent at h2
    cases hf : falsy s.source.partOf
    · have hf' : falsy (overrideTags { s with
          source := { s.source with history := s.history, version := v, release := r },
          packages := s.packages.map fun p => { p with isA := p.isA ++ s.source.isA, history := s.history } }).source.partOf = false := hf
      rw [if_neg (by simp [hf'])] at h2
      cases h2
      refine ⟨v, r, s.source.partOf, ⟨fun _ => rfl, fun hx => ?_⟩, fun hx => ?_, rfl, ?_, h⟩
      · exact absurd ((falsy_iff _).mpr hx) (by simp [hf])
      · exact absurd ((falsy_iff _).mpr hx) (by simp [hf])
      · simp only [overrideTags, List.map_map]
        apply List.map_congr_left
        intro p _
        simp only [Function.comp_apply, override_eq]
    · have hf' : falsy (overrideTags { s with
          source := { s.source with history := s.history, version := v, release := r },
          packages := s.packages.map fun p => { p with isA := p.isA ++ s.source.isA, history := s.history } }).source.partOf = true := hf
      rw [if_pos hf'] at h2
      cases comp with
      | none => cases h2
      | some c =>
        cases h2
        refine ⟨v, r, some c, ⟨fun hx => ?_, fun _ => rfl⟩, fun _ => nofun, rfl, ?_, h⟩
        · exact absurd ((falsy_iff _).mp hf) hx
        · simp only [overrideTags, List.map_map]
          apply List.map_congr_left
          intro p _
          simp only [Function.comp_apply]
          have := override_twice { s.source with history := s.history, version := v, release := r } (some c) hf
            { p with isA := p.isA ++ s.source.isA, history := s.history }
          rw [this]
          simp only [override_eq]

section
variable {c : Settings} {comp : Option Str} {s : SpecFile} {i size : Nat} {b : Option Nat} {fn : Str} {m : MetaData}

theorem built_ok (h : builtPackage c comp s i size b = .ok (fn, m)) :
    ∃ s1 s2 p v r u t, readHook s = .ok s1 ∧ fetchComponent comp s1 = .ok s2 ∧ s2.packages[i]? = some p ∧
      s2.source.version = some v ∧ s2.source.release = some r ∧ fn = PkgName.packageName p.name v r b ∧
      s2.source.history = u :: t ∧
      m = { genMetadata c s2.source p size b with package := { (genMetadata c s2.source p size b).package with
        version := some u.version, release := some u.release } } := by
  unfold builtPackage at h
  cases h1 : readHook s with
  | error e => rw [h1] at h; cases h
  | ok s1 =>
    rw [h1] at h
    cases h2 : fetchComponent comp s1 with
    | error e => simp only [bind, Except.bind, h2] at h; cases h
    | ok s2 =>
      simp only [bind, Except.bind, h2] at h
      cases h3 : s2.packages[i]? with
      | none => rw [h3] at h; cases h
      | some p =>
        rw [h3] at h
        simp only [fileName, readBack, genMetadata] at h
        cases h4 : s2.source.version with
        | none => simp only [h4] at h; cases h
        | some v =>
          cases h5 : s2.source.release with
          | none => simp only [h4, h5] at h; cases h
          | some r =>
            cases h6 : s2.source.history with
            | nil => simp only [h4, h5, h6, lastVersion, bind, Except.bind] at h; cases h
            | cons u t =>
              simp only [h4, h5, h6, lastVersion, lastRelease, bind, Except.bind] at h
              cases h
              refine ⟨s1, s2, p, v, r, u, t, rfl, h2, h3, h4, h5, rfl, h6, ?_⟩
              simp only [genMetadata, h6, h4, h5]

/-- **C96.** The metadata of a built package say what the specification says of it: its own texts, or else those of the source. -/
theorem built_describes (h : builtPackage c comp s i size b = .ok (fn, m)) :
    ∃ p, s.packages[i]? = some p ∧ Describes comp s p m.package := by
  obtain ⟨s1, s2, p', v, r, u, t, h1, h2, h3, h4, h5, h6, h7, rfl⟩ := built_ok h
  obtain ⟨v', r', cc, hc, hcn, hs, hp, _⟩ := read_fetch h1 h2
  rw [hp, List.getElem?_map] at h3
  cases hpi : s.packages[i]? with
  | none => rw [hpi] at h3; cases h3
  | some p =>
    rw [hpi] at h3
    simp only [Option.map_some, Option.some.injEq] at h3
    refine ⟨p, rfl, ?_⟩
    subst h3
    rw [override_eq]
    constructor
    case summary => exact ownOr_list _ _
    case description => exact ownOr_list _ _
    case license => exact ownOr_list _ _
    case icon => exact ownOr_str _ _
    case partOf => exact ⟨cc, hc, ownOr_str _ _⟩
    case history => simp [genMetadata, hs]
    all_goals rfl

/-- **C96.** The source, the size, the build number and the distribution are as given. -/
theorem built_settings (h : builtPackage c comp s i size b = .ok (fn, m)) :
    m.source = ⟨s.source.name, s.source.homepage, s.source.packager⟩ ∧ m.package.installedSize = size ∧ m.package.build = b ∧
    m.package.distribution = c.distribution ∧ m.package.distributionRelease = c.distributionRelease ∧
    m.package.packageFormat = c.packageFormat := by
  obtain ⟨s1, s2, p', v, r, u, t, h1, h2, h3, h4, h5, h6, h7, rfl⟩ := built_ok h
  obtain ⟨v', r', cc, hc, hcn, hs, hp, _⟩ := read_fetch h1 h2
  simp [genMetadata, hs]

/-- **C96.** Every built package names its component, if component files do. -/
theorem built_component (h : builtPackage c comp s i size b = .ok (fn, m)) (hn : comp ≠ some []) : ¬ Missing m.package.partOf := by
  obtain ⟨s1, s2, p', v, r, u, t, h1, h2, h3, h4, h5, h6, h7, rfl⟩ := built_ok h
  obtain ⟨v', r', cc, hc, hcn, hs, hp, _⟩ := read_fetch h1 h2
  rw [hp, List.getElem?_map] at h3
  cases hpi : s.packages[i]? with
  | none => rw [hpi] at h3; cases h3
  | some p =>
    rw [hpi] at h3
    simp only [Option.map_some, Option.some.injEq] at h3
    subst h3
    have hcc : ¬ Missing cc := by
      by_cases hm : Missing s.source.partOf
      · rw [hc.2 hm] at hcn ⊢
        rintro (e | e)
        · exact hcn hm e
        · exact hn e
      · rw [hc.1 hm]; exact hm
    simp only [genMetadata, override_eq]
    cases hf : falsy p.partOf
    · simp only [Bool.false_eq_true, if_false]
      intro hm; exact absurd ((falsy_iff _).mpr hm) (by simp [hf])
    · simpa using hcc

/-- **C96.** Building fails only if there is no history or no component. -/
theorem built_succeeds (hi : i < s.packages.length) (hh : s.history ≠ []) (hc : Missing s.source.partOf → comp ≠ none) :
    ∃ r, builtPackage c comp s i size b = .ok r := by
  obtain ⟨u, t, hu⟩ := List.exists_cons_of_ne_nil hh
  have hm : ∃ sm, mergeTags s = .ok sm := by
    unfold mergeTags
    cases hv : falsy s.source.version <;> cases hr : falsy s.source.release <;>
      simp [hv, hr, hu, lastVersion, lastRelease, bind, Except.bind]
  obtain ⟨sm, hm⟩ := hm
  have h1 : readHook s = .ok (overrideTags sm) := by simp [readHook, hm, bind, Except.bind]
  have h2 : ∃ s2, fetchComponent comp (overrideTags sm) = .ok s2 := by
    obtain ⟨v, r, rfl, _⟩ := mergeTags_ok hm
    unfold fetchComponent
    split
    next hf =>
      cases comp with
      | none => exact absurd rfl (hc ((falsy_iff _).mp hf))
      | some _ => exact ⟨_, rfl⟩
    next => exact ⟨_, rfl⟩
  obtain ⟨s2, h2⟩ := h2
  obtain ⟨v, r, cc, _, _, hs, hp, hv1, hr1, hv2, hr2⟩ := read_fetch h1 h2
  have hv : ∃ x, v = some x := by
    cases hf : falsy s.source.version
    · rw [hv1 hf]
      cases hx : s.source.version with
      | none => rw [hx] at hf; cases hf
      | some x => exact ⟨x, rfl⟩
    · obtain ⟨u, _, _, h⟩ := hv2 hf; exact ⟨_, h⟩
  have hr : ∃ x, r = some x := by
    cases hf : falsy s.source.release
    · rw [hr1 hf]
      cases hx : s.source.release with
      | none => rw [hx] at hf; cases hf
      | some x => exact ⟨x, rfl⟩
    · obtain ⟨u, _, _, h⟩ := hr2 hf; exact ⟨_, h⟩
  obtain ⟨v, rfl⟩ := hv
  obtain ⟨r, rfl⟩ := hr
  unfold builtPackage
  have hlen : i < s2.packages.length := by rw [hp]; simpa using hi
  rw [h1]
  simp [bind, Except.bind, h2, List.getElem?_eq_getElem hlen, fileName, readBack, genMetadata, hs, hu, lastVersion, lastRelease]

/-- **C97.** The recorded version and release are those of the latest update. -/
theorem built_latest (h : builtPackage c comp s i size b = .ok (fn, m)) : Latest s.history m.package.version m.package.release := by
  obtain ⟨s1, s2, p', v, r, u, t, h1, h2, h3, h4, h5, h6, h7, rfl⟩ := built_ok h
  obtain ⟨v', r', cc, hc, hcn, hs, hp, _⟩ := read_fetch h1 h2
  rw [hs] at h7
  exact ⟨u, t, h7, rfl, rfl⟩

/-- C97, full statement: the name of the package file has the version and release that are recorded in the file. -/
def NameVersion : Prop := ∀ (c : Settings) (comp : Option Str) (s : SpecFile) (i size : Nat) (b : Option Nat) (fn : Str) (m : MetaData),
  builtPackage c comp s i size b = .ok (fn, m) →
  ∃ v r, m.package.version = some v ∧ m.package.release = some r ∧ fn = PkgName.packageName m.package.name v r m.package.build

/-- **C97** if the source does not name a version and a release of its own, or names those of the latest update. -/
theorem name_version_partial (h : builtPackage c comp s i size b = .ok (fn, m))
    (hv : Missing s.source.version ∨ ∃ u t, s.history = u :: t ∧ s.source.version = some u.version)
    (hr : Missing s.source.release ∨ ∃ u t, s.history = u :: t ∧ s.source.release = some u.release) :
    ∃ v r, m.package.version = some v ∧ m.package.release = some r ∧ fn = PkgName.packageName m.package.name v r m.package.build := by
  obtain ⟨s1, s2, p', v, r, u, t, h1, h2, h3, h4, h5, h6, h7, rfl⟩ := built_ok h
  obtain ⟨v', r', cc, hc, hcn, hs, hp, hv1, hr1, hv2, hr2⟩ := read_fetch h1 h2
  rw [hs] at h4 h5 h7
  refine ⟨u.version, u.release, rfl, rfl, ?_⟩
  simp only at h4 h5 h7
  have ev : v = u.version := by
    cases hf : falsy s.source.version
    · rcases hv with hv | ⟨u', t', hu, he⟩
      · exact absurd ((falsy_iff _).mpr hv) (by simp [hf])
      · rw [hv1 hf, he] at h4; rw [h7] at hu; cases hu; cases h4; rfl
    · obtain ⟨u', t', hu, he⟩ := hv2 hf
      rw [he] at h4; rw [h7] at hu; cases hu; cases h4; rfl
  have er : r = u.release := by
    cases hf : falsy s.source.release
    · rcases hr with hr | ⟨u', t', hu, he⟩
      · exact absurd ((falsy_iff _).mpr hr) (by simp [hf])
      · rw [hr1 hf, he] at h5; rw [h7] at hu; cases hu; cases h5; rfl
    · obtain ⟨u', t', hu, he⟩ := hr2 hf
      rw [he] at h5; rw [h7] at hu; cases hu; cases h5; rfl
  rw [h6, ev, er]
  rfl
end

def exUpd : Update := ⟨['2'], ['1', '.', '1'], [], none⟩
def exOld : Update := ⟨['1'], ['1', '.', '0'], [], none⟩
def exSrc : Source :=
  { name := ['s'], summary := [(['e', 'n'], ['S'])], description := [(['e', 'n'], ['D'])], isA := [['l']],
    license := [['G']] }
def exPk : Package := { name := ['p'], isA := [['a']], summary := [(['t', 'r'], ['P'])] }
def exSet : Settings := ⟨['d'], ['1'], none⟩

/-- The package has its own summary and the description, license and component from outside. -/
example : (builtPackage exSet (some ['c']) ⟨exSrc, [exPk], [exUpd, exOld]⟩ 0 7 (some 3)).toOption.map (fun x =>
    (x.1, x.2.package.summary, x.2.package.description, x.2.package.license, x.2.package.partOf, x.2.package.isA)) =
    some ("p-1.1-2-3.pisi".toList, [(['t', 'r'], ['P'])], [(['e', 'n'], ['D'])], [['G']], some ['c'], [['a'], ['l']]) := rfl

/-- The version tag of the source gives the name of the file, the history what is recorded. -/
theorem name_version_refuted : ¬ NameVersion := by
  intro h
  obtain ⟨v, r, h1, h2, h3⟩ := h exSet (some ['c']) ⟨{ exSrc with version := some ['9'] }, [exPk], [exUpd]⟩ 0 7 (some 3) _ _ rfl
  cases h1
  cases h2
  exact absurd h3 (by decide)

/-! ## Static and debug packages -/

/-- C100, full statement: if there are static libraries, a package for them is made. -/
def StaticMade : Prop := ∀ (walk : List Pack.Triple) (isAr : Str → Except SErr Bool),
  (∀ f, ∃ b, isAr f = .ok b) → (∃ t ∈ walk, ∃ f ∈ t.2.2, Pack.arSuffix <:+ f ∧ isAr (Path.joinPath t.1 [f]) = .ok true) →
  ∃ p, staticPackage walk isAr = .ok (some p)

theorem arFiles_ok {isAr : Str → Except SErr Bool} (h : ∀ f, ∃ b, isAr f = .ok b) (l : List Str) :
    arFiles isAr l = .ok (l.filter fun f => isAr f = .ok true) := by
  induction l with
  | nil => rfl
  | cons x xs ih =>
    obtain ⟨b, hb⟩ := h x
    unfold arFiles
    rw [hb, ih]
    cases b <;> simp [hb]

/-- **C100**, exactly: no package is ever made; the build fails as soon as there is a library. -/
theorem static_exact {walk : List Pack.Triple} {isAr : Str → Except SErr Bool} (h : ∀ f, ∃ b, isAr f = .ok b) :
    ((∃ t ∈ walk, ∃ f ∈ t.2.2, Pack.arSuffix <:+ f ∧ isAr (Path.joinPath t.1 [f]) = .ok true) →
      staticPackage walk isAr = .error .attribute) ∧
    ((∀ t ∈ walk, ∀ f ∈ t.2.2, Pack.arSuffix <:+ f → isAr (Path.joinPath t.1 [f]) = .ok false) → staticPackage walk isAr = .ok none) := by
  unfold staticPackage
  dsimp only
  rw [arFiles_ok h]
  simp only [bind, Except.bind]
  have hmem : ∀ x, x ∈ (walk.flatMap fun t => (t.2.2.filter fun f => Pack.endsWith f Pack.arSuffix).map fun f => Path.joinPath t.1 [f]) ↔
      ∃ t ∈ walk, ∃ f ∈ t.2.2, Pack.arSuffix <:+ f ∧ Path.joinPath t.1 [f] = x := by
    intro x
    simp only [List.mem_flatMap, List.mem_map, List.mem_filter, Pack.endsWith, Path.suffix_iff, and_assoc]
  constructor
  · rintro ⟨t, ht, f, hf, hs, ha⟩
    rw [if_neg]
    intro he
    have := (List.filter_eq_nil_iff.mp he) (Path.joinPath t.1 [f]) ((hmem _).mpr ⟨t, ht, f, hf, hs, rfl⟩)
    simp [ha] at this
  · intro hall
    rw [if_pos]
    rw [List.filter_eq_nil_iff]
    intro x hx
    obtain ⟨t, ht, f, hf, hs, rfl⟩ := (hmem x).mp hx
    simp [hall t ht f hf hs]

/-- **C100** without static libraries: no package is made, and the build goes on. -/
theorem static_partial {walk : List Pack.Triple} {isAr : Str → Except SErr Bool} (h : ∀ f, ∃ b, isAr f = .ok b)
    (hno : ∀ t ∈ walk, ∀ f ∈ t.2.2, Pack.arSuffix <:+ f → isAr (Path.joinPath t.1 [f]) = .ok false) :
    staticPackage walk isAr = .ok none := (static_exact h).2 hno

theorem static_refuted : ¬ StaticMade := by
  intro h
  obtain ⟨p, hp⟩ := h [("/i".toList, [], ["x.a".toList])] (fun _ => .ok true) (fun _ => ⟨true, rfl⟩)
    ⟨_, List.mem_singleton.mpr rfl, _, List.mem_singleton.mpr rfl, by decide, rfl⟩
  cases hp

/-- Debug packages fail in the same way. -/
theorem debug_exact (walk : List Pack.Triple) :
    ((∃ t ∈ walk, ∃ f ∈ t.2.2, Pack.debugSuffix <:+ f) → debugPackage walk = .error .attribute) ∧
    ((∀ t ∈ walk, ∀ f ∈ t.2.2, ¬ Pack.debugSuffix <:+ f) → debugPackage walk = .ok none) := by
  unfold debugPackage
  have hmem : ∀ x, x ∈ (walk.flatMap fun t => (t.2.2.filter fun f => Pack.endsWith f Pack.debugSuffix).map fun f => Path.joinPath t.1 [f]) ↔
      ∃ t ∈ walk, ∃ f ∈ t.2.2, Pack.debugSuffix <:+ f ∧ Path.joinPath t.1 [f] = x := by
    intro x
    simp only [List.mem_flatMap, List.mem_map, List.mem_filter, Pack.endsWith, Path.suffix_iff, and_assoc]
  constructor
  · rintro ⟨t, ht, f, hf, hs⟩
    simp only
    rw [if_neg]
    intro he
    have := (hmem (Path.joinPath t.1 [f])).mpr ⟨t, ht, f, hf, hs, rfl⟩
    rw [he] at this
    cases this
  · intro hall
    simp only
    rw [if_pos]
    apply List.eq_nil_iff_forall_not_mem.mpr
    intro x hx
    obtain ⟨t, ht, f, hf, hs, _⟩ := (hmem x).mp hx
    exact hall t ht f hf hs

/-! ## Build dependencies -/

section
variable {w : World Str} {o : BuildOpts} {devel : Option (List Str)} {deps : List (Dep Str)}

theorem unsatisfied_ok {ds us : List (Dep Str)} (h : unsatisfied w ds = .ok us) (d : Dep Str) :
    d ∈ us ↔ d ∈ ds ∧ ¬ Satisfied w d := by
  induction ds generalizing us with
  | nil => cases h; simp
  | cons x xs ih =>
    unfold unsatisfied at h
    cases hx : w.installedSatisfies x with
    | error e => rw [hx] at h; cases h
    | ok b =>
      rw [hx] at h
      cases hr : unsatisfied w xs with
      | error e => rw [hr] at h; cases h
      | ok r =>
        rw [hr] at h
        cases h
        have hb : b = true ↔ Satisfied w x := by rw [← Plan.installedSatisfies_true, hx]; simp
        cases b with
        | true =>
          have hs := hb.mp rfl
          simp only [if_true, ih hr, List.mem_cons]
          constructor
          · rintro ⟨h1, h2⟩; exact ⟨.inr h1, h2⟩
          · rintro ⟨rfl | h1, h2⟩
            · exact absurd hs h2
            · exact ⟨h1, h2⟩
        | false =>
          have hs : ¬ Satisfied w x := fun h => Bool.noConfusion (hb.mpr h)
          simp only [Bool.false_eq_true, if_false, List.mem_cons, ih hr]
          constructor
          · rintro (rfl | ⟨h1, h2⟩)
            · exact ⟨.inl rfl, hs⟩
            · exact ⟨.inr h1, h2⟩
          · rintro ⟨rfl | h1, h2⟩
            · exact .inl rfl
            · exact .inr ⟨h1, h2⟩

theorem unsatisfied_total {ds : List (Dep Str)} (h : ∀ d ∈ ds, TestableInstalled w d) : ∃ us, unsatisfied w ds = .ok us := by
  induction ds with
  | nil => exact ⟨[], rfl⟩
  | cons x xs ih =>
    obtain ⟨b, hb⟩ := (Plan.installedSatisfies_ok w x).mpr (h x (by simp))
    obtain ⟨us, hu⟩ := ih fun d hd => h d (by simp [hd])
    exact ⟨_, by unfold unsatisfied; rw [hb, hu]⟩

theorem repoHasAll_ok {us : List (Dep Str)} : repoHasAll w us = .ok () ↔ ∀ d ∈ us, Offered w d := by
  induction us with
  | nil => simp [repoHasAll]
  | cons x xs ih =>
    unfold repoHasAll
    cases hx : w.repoSatisfies x with
    | error e => simp only [List.mem_cons, forall_eq_or_imp, ← Plan.repoSatisfies_true, hx]; simp
    | ok b => cases b <;> simp [ih, ← Plan.repoSatisfies_true, hx]

/-- The packages of system.devel that are neither build dependencies nor installed. -/
def DevelMissing (w : World Str) (o : BuildOpts) (devel : Option (List Str)) (deps : List (Dep Str)) (x : Str) : Prop :=
  o.bypassSafety = false ∧ (∃ l, devel = some l ∧ x ∈ l) ∧ (∀ d ∈ deps, d.package ≠ x) ∧ ∀ i, w.inst.get x ≠ some i

theorem mem_develDeps (d : Dep Str) : d ∈ develDeps w o devel deps ↔ ∃ x, d = { package := x } ∧ DevelMissing w o devel deps x := by
  unfold develDeps DevelMissing
  cases o.bypassSafety with
  | true => simp
  | false =>
    cases devel with
    | none => simp
    | some l =>
      have hi : ∀ x, w.isInstalled x = false ↔ ∀ i, w.inst.get x ≠ some i := by
        intro x
        unfold World.isInstalled Dict.has
        cases w.inst.get x <;> simp
      simp only [Bool.false_eq_true, if_false, List.mem_map, List.mem_filter, Bool.and_eq_true, Bool.not_eq_true', hi,
        true_and, Option.some.injEq, exists_eq_left']
      have hc : ∀ x, (deps.map Dep.package).contains x = false ↔ ∀ d ∈ deps, d.package ≠ x := by
        intro x
        rw [← Bool.not_eq_true, List.contains_iff_mem, List.mem_map]
        constructor
        · intro h d hd e; exact h ⟨d, hd, e⟩
        · rintro h ⟨d, hd, e⟩; exact h d hd e
      constructor
      · rintro ⟨x, ⟨hx, h1, h2⟩, rfl⟩; exact ⟨x, rfl, hx, (hc x).mp h1, h2⟩
      · rintro ⟨x, rfl, hx, h1, h2⟩; exact ⟨x, ⟨hx, (hc x).mpr h1, h2⟩, rfl⟩

/-- **C98.** A build goes on only if all build dependencies are satisfied and, unless the safety switch is bypassed, all packages of
system.devel are installed; unless dependencies are ignored. -/
theorem build_deps_sound (h : checkBuildDeps w o devel deps = .ok ()) (ho : o.ignoreDependency = false) :
    (∀ d ∈ deps, Satisfied w d) ∧
    (o.bypassSafety = false → ∀ l, devel = some l → ∀ x ∈ l, ∃ i, w.inst.get x = some i) := by
  unfold checkBuildDeps at h
  cases hu : unsatisfied w (deps ++ develDeps w o devel deps) with
  | error e => rw [hu] at h; cases h
  | ok us =>
    rw [hu] at h
    simp only [bind, Except.bind] at h
    by_cases hus : us = []
    · subst hus
      have hall : ∀ d ∈ deps ++ develDeps w o devel deps, Satisfied w d := by
        intro d hd
        apply Classical.byContradiction
        intro hn
        have := (unsatisfied_ok hu d).mpr ⟨hd, hn⟩
        cases this
      refine ⟨fun d hd => hall d (List.mem_append_left _ hd), ?_⟩
      intro hb l hl x hx
      apply Classical.byContradiction
      intro hni
      by_cases hd : ∃ d ∈ deps, d.package = x
      · obtain ⟨d, hd, rfl⟩ := hd
        exact hni (hall d (List.mem_append_left _ hd)).1
      · have hm : ({ package := x } : Dep Str) ∈ develDeps w o devel deps :=
          (mem_develDeps _).mpr ⟨x, rfl, hb, ⟨l, hl, hx⟩, fun d hd' e => hd ⟨d, hd', e⟩, fun i hi => hni ⟨i, hi⟩⟩
        exact hni (hall _ (List.mem_append_right _ hm)).1
    · rw [if_neg hus] at h
      cases hn : o.noInstall
      · simp only [hn, ho, Bool.false_eq_true, if_false] at h
        cases hr : repoHasAll w us with
        | error e => rw [hr] at h; cases h
        | ok _ => rw [hr] at h; simp only at h; split at h <;> cases h
      · simp only [hn, if_true] at h; cases h

/-- **C98.** A build whose dependencies are satisfied is not held up. -/
theorem build_deps_complete (h1 : ∀ d ∈ deps, Satisfied w d) (h2 : ∀ d ∈ deps, TestableInstalled w d)
    (h3 : o.bypassSafety = true ∨ ∀ l, devel = some l → ∀ x ∈ l, ∃ i, w.inst.get x = some i) :
    checkBuildDeps w o devel deps = .ok () := by
  have hd : develDeps w o devel deps = [] := by
    apply List.eq_nil_iff_forall_not_mem.mpr
    intro d hd
    obtain ⟨x, rfl, hb, ⟨l, hl, hx⟩, _, hi⟩ := (mem_develDeps d).mp hd
    rcases h3 with h3 | h3
    · rw [hb] at h3; cases h3
    · obtain ⟨i, hi'⟩ := h3 l hl x hx; exact hi i hi'
  unfold checkBuildDeps
  rw [hd, List.append_nil]
  obtain ⟨us, hu⟩ := unsatisfied_total h2
  have : us = [] := by
    apply List.eq_nil_iff_forall_not_mem.mpr
    intro d hd
    obtain ⟨h, hn⟩ := (unsatisfied_ok hu d).mp hd
    exact hn (h1 d h)
  rw [hu, this]
  rfl

/-- C99, full statement: build dependencies that a repository offers are installed if the user agrees, and the build goes on. -/
def BuildDepsInstalled : Prop := ∀ (w : World Str) (o : BuildOpts) (devel : Option (List Str)) (deps : List (Dep Str)),
  o.noInstall = false → o.confirm = true → (∀ d ∈ deps ++ develDeps w o devel deps, TestableInstalled w d) →
  (∀ d ∈ deps ++ develDeps w o devel deps, Satisfied w d ∨ Offered w d) → checkBuildDeps w o devel deps = .ok ()

/-- **C99** exactly: if a dependency is missing, the build ends with a `NameError`. -/
theorem build_deps_fail (hn : o.noInstall = false) (hc : o.confirm = true) (hi : o.ignoreDependency = false)
    (ht : ∀ d ∈ deps ++ develDeps w o devel deps, TestableInstalled w d)
    (ho : ∀ d ∈ deps ++ develDeps w o devel deps, Satisfied w d ∨ Offered w d)
    (hm : ∃ d ∈ deps ++ develDeps w o devel deps, ¬ Satisfied w d) :
    checkBuildDeps w o devel deps = .error .name := by
  obtain ⟨us, hu⟩ := unsatisfied_total ht
  unfold checkBuildDeps
  rw [hu]
  simp only [bind, Except.bind]
  obtain ⟨d, hd, hns⟩ := hm
  have hne : us ≠ [] := by
    rintro rfl
    have := (unsatisfied_ok hu d).mpr ⟨hd, hns⟩
    cases this
  have hr : repoHasAll w us = .ok () := repoHasAll_ok.mpr fun d hd => by
    obtain ⟨h1, h2⟩ := (unsatisfied_ok hu d).mp hd
    exact (ho d h1).resolve_left h2
  simp [hne, hn, hi, hr, hc]

/-- **C99** if nothing is missing. -/
theorem build_deps_installed_partial (ht : ∀ d ∈ deps ++ develDeps w o devel deps, TestableInstalled w d)
    (ho : ∀ d ∈ deps ++ develDeps w o devel deps, Satisfied w d) : checkBuildDeps w o devel deps = .ok () := by
  obtain ⟨us, hu⟩ := unsatisfied_total ht
  have : us = [] := by
    apply List.eq_nil_iff_forall_not_mem.mpr
    intro d hd
    obtain ⟨h, hn⟩ := (unsatisfied_ok hu d).mp hd
    exact hn (ho d h)
  unfold checkBuildDeps
  rw [hu, this]
  rfl
end

def exInfo : PkgInfo Str := { version := ['1'], release := ['1'] }
def exWorld : World Str := { repo := [(['g'], exInfo)], inst := [], track := [] }
def exDep : Dep Str := { package := ['g'] }

theorem exOffered : Offered exWorld exDep := (Plan.repoSatisfies_true _ _).mp rfl
theorem exTestable : TestableInstalled exWorld exDep := (Plan.installedSatisfies_ok _ _).mp ⟨false, rfl⟩

theorem build_deps_installed_refuted : ¬ BuildDepsInstalled := by
  intro h
  have := h exWorld {} none [exDep] rfl rfl
    (by intro d hd; simp only [develDeps, List.append_nil, List.mem_singleton, Bool.false_eq_true, if_false] at hd; subst hd; exact exTestable)
    (by intro d hd; simp only [develDeps, List.append_nil, List.mem_singleton, Bool.false_eq_true, if_false] at hd; subst hd; exact .inr exOffered)
  cases this

/-- An installed build dependency and system.devel. -/
example : checkBuildDeps { repo := [], inst := [(['g'], ⟨['1'], ['1'], none⟩)], track := [(['g'], exInfo)] } {} (some [['g']]) [exDep] =
    .ok () := rfl

/-- A missing package of system.devel holds the build up, if it is not offered. -/
example : checkBuildDeps exWorld {} (some [['m']]) [] = .error .unsatisfied ∧
    checkBuildDeps exWorld { bypassSafety := true } (some [['m']]) [] = .ok () := ⟨rfl, rfl⟩

end Pisi.Pspec
