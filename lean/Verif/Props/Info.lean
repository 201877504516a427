import Mathlib.Data.List.Perm.Subperm
import Mathlib.Data.List.Forall2
import Verif.Spec.Info

/-!
# The commands info and search: C194, C196
-/
namespace Pisi.Info
variable {κ ρ φ : Type}

/-- **C194, full statement.**  Without errors, info tells something about every known argument. -/
def InfoFull : Prop := ∀ (κ ρ φ : Type) (sort : List φ → List φ) (o : Opts) (w : View κ ρ φ) (args : List Str), args ≠ [] →
  (∀ a ∈ args, Known w a) → (run sort o w args).ok = true ∧ (run sort o w args).out ≠ []

theorem arg_xml {sort : List φ → List φ} {o : Opts} {w : View κ ρ φ} (hx : o.xml = true) (a : Str) :
    infoArg sort o w a = ⟨[], false⟩ := by
  unfold infoArg
  cases w.comp a <;> simp [hx]

theorem suffix_iff (a : Str) : PkgName.packageSuffix.isSuffixOf a = true ↔ PkgName.packageSuffix <:+ a := List.isSuffixOf_iff_suffix

theorem printPkg_ok {sort : List φ → List φ} {o : Opts} {f : PkgFile ρ φ} :
    (printPkg (κ := κ) sort o f).ok = true ↔ o.short = true ∨ f.compDeps = [] := by
  unfold printPkg packageText filesText Res.andThen
  cases o.short <;> by_cases h : f.compDeps = [] <;> cases o.files <;> cases o.filesPath <;> simp [h]

theorem printPkg_out {sort : List φ → List φ} {o : Opts} {f : PkgFile ρ φ} (h : o.short = true ∨ f.compDeps = []) :
    (printPkg (κ := κ) sort o f).out = [if o.short = true then .pkgShort f.pkg else .pkg f.pkg] ++
        (if o.files = true then .filesHead :: (sort f.list).map .fileInfo
         else if o.filesPath = true then .filesHead :: (sort f.list).map .filePath else []) ++
        (if o.short = true then [] else [.blank]) := by
  unfold printPkg packageText filesText Res.andThen
  cases hs : o.short <;> cases hf : o.files <;> cases hp : o.filesPath <;> simp [hs] at h ⊢ <;> simp [h]

/-- An argument goes well exactly if it is a component or a file that can be shown, or unknown. -/
theorem arg_ok {sort : List φ → List φ} {o : Opts} {w : View κ ρ φ} (a : Str) : (infoArg sort o w a).ok = true ↔
    o.xml = false ∧ ((∃ c, IsComp o w a c) ∨ (∃ f, IsFile o w a f) ∨ IsUnknown w a) := by
  cases hx : o.xml with
  | true => rw [arg_xml hx]; simp
  | false =>
    simp only [true_and]
    unfold infoArg IsComp IsFile IsUnknown
    cases hc : w.comp a with
    | some c =>
      simp only [hx]
      cases hs : o.short <;> cases hw : w.shown c <;> simp [hw]
    | none =>
      simp only [hx]
      unfold infoPackage
      by_cases hsuf : PkgName.packageSuffix <:+ a
      · cases hf : w.file a with
        | none => simp [(suffix_iff a).2 hsuf, hsuf]
        | some f =>
          have e : ((Res.andThen ⟨[.packageFile a], true⟩ (printPkg (κ := κ) sort o f)).ok = true) ↔ o.short = true ∨ f.compDeps = [] := by
            rw [← printPkg_ok (κ := κ) (sort := sort)]
            simp [Res.andThen]
          simp [(suffix_iff a).2 hsuf, hsuf, e]
      · have h1 : PkgName.packageSuffix.isSuffixOf a = false := by
          rw [Bool.eq_false_iff]; exact fun h => hsuf ((suffix_iff a).1 h)
        cases hi : w.installed a <;> cases hr : w.inRepos a <;> simp [h1, hsuf]

/-- What an argument that goes well prints. -/
theorem arg_told {sort : List φ → List φ} (hs : ∀ l, (sort l).Perm l) {o : Opts} {w : View κ ρ φ} (a : Str)
    (h : (infoArg sort o w a).ok = true) : Told o w a (infoArg sort o w a).out := by
  obtain ⟨hx, h⟩ := (arg_ok a).1 h
  rcases h with ⟨c, hc⟩ | ⟨f, hf⟩ | hu
  · have e : (infoArg sort o w a).out = [if o.short = true then .compShort c else .comp c] := by
      unfold infoArg
      rw [hc.1]
      cases hso : o.short with
      | true => simp [hx]
      | false =>
        have := hc.2
        rw [hso] at this
        simp [hx, this.resolve_left (by simp)]
    rw [e]
    exact .comp a c hc
  · have e : (infoArg sort o w a).out = .packageFile a :: (printPkg (κ := κ) sort o f).out := by
      unfold infoArg infoPackage
      rw [hf.1, hf.2.2.1]
      simp [hx, (suffix_iff a).2 hf.2.1, Res.andThen]
    rw [e, printPkg_out hf.2.2.2]
    exact .file a f (sort f.list) hf (hs f.list)
  · have e : (infoArg sort o w a).out = [] := by
      unfold infoArg infoPackage
      have h1 : PkgName.packageSuffix.isSuffixOf a = false := by
        rw [Bool.eq_false_iff]; exact fun h => hu.2.1 ((suffix_iff a).1 h)
      rw [hu.1]
      simp [hx, h1, hu.2.2.1, hu.2.2.2]
    rw [e]
    exact .unknown a hu

theorem loop_ok {sort : List φ → List φ} {o : Opts} {w : View κ ρ φ} : ∀ (args : List Str),
    (infoLoop sort o w args).ok = true ↔ ∀ a ∈ args, (infoArg sort o w a).ok = true
  | [] => by simp [infoLoop]
  | a :: as => by
    unfold infoLoop Res.andThen
    by_cases h : (infoArg sort o w a).ok = true
    · simp [h, loop_ok as]
    · simp [h]

theorem loop_out {sort : List φ → List φ} {o : Opts} {w : View κ ρ φ} : ∀ (as bs : List Str),
    (∀ a ∈ as, (infoArg sort o w a).ok = true) → (infoLoop sort o w (as ++ bs)).out =
      as.flatMap (fun a => (infoArg sort o w a).out) ++ (infoLoop sort o w bs).out
  | [], bs, _ => by simp
  | a :: as, bs, h => by
    have e : (infoLoop sort o w (a :: (as ++ bs))).out = (infoArg sort o w a).out ++ (infoLoop sort o w (as ++ bs)).out := by
      rw [infoLoop, Res.andThen, if_pos (h a List.mem_cons_self)]
    rw [List.cons_append, e, loop_out as bs (fun x hx => h x (List.mem_cons_of_mem _ hx))]
    simp

/-- **C194, partial.**  The command comes to its end exactly if XML is not asked for and every argument is a component or package file
that can be shown, or unknown; it then prints in order what is to be told of each. -/
theorem info_partial (sort : List φ → List φ) (hs : ∀ l, (sort l).Perm l) (o : Opts) (w : View κ ρ φ) (args : List Str)
    (ha : args ≠ []) :
    ((run sort o w args).ok = true ↔
      o.xml = false ∧ ∀ a ∈ args, (∃ c, IsComp o w a c) ∨ (∃ f, IsFile o w a f) ∨ IsUnknown w a) ∧
    ((run sort o w args).ok = true → ∃ outs : List (List (Out κ ρ φ)), List.Forall₂ (Told o w) args outs ∧
      (run sort o w args).out = outs.flatten) := by
  have hr : run sort o w args = infoLoop sort o w args := by unfold run; rw [if_neg ha]
  rw [hr]
  constructor
  · rw [loop_ok]
    simp only [arg_ok]
    constructor
    · intro h
      obtain ⟨a, ha'⟩ := List.exists_mem_of_ne_nil args ha
      exact ⟨(h a ha').1, fun a ha => (h a ha).2⟩
    · exact fun ⟨h1, h2⟩ a ha => ⟨h1, h2 a ha⟩
  · intro h
    have hok := (loop_ok args).1 h
    refine ⟨args.map (fun a => (infoArg sort o w a).out), ?_, ?_⟩
    · rw [List.forall₂_map_right_iff]
      have : ∀ l : List Str, (∀ a ∈ l, (infoArg sort o w a).ok = true) →
          List.Forall₂ (fun a c => Told o w a (infoArg sort o w c).out) l l := by
        intro l
        induction l with
        | nil => exact fun _ => .nil
        | cons a l ih =>
          exact fun h => .cons (arg_told hs a (h a List.mem_cons_self)) (ih fun x hx => h x (List.mem_cons_of_mem _ hx))
      exact this args hok
    · have e := loop_out (sort := sort) (o := o) (w := w) args [] hok
      rw [List.append_nil] at e
      rw [e]
      simp [infoLoop, List.flatMap_def]

/-- The name of a package that is installed or in a repository always is an error, after what was printed for the arguments before. -/
theorem package_fails (sort : List φ → List φ) (o : Opts) (w : View κ ρ φ) (as bs : List Str) (a : Str)
    (hok : ∀ x ∈ as, (infoArg sort o w x).ok = true) (hc : w.comp a = none) (hn : ¬ PkgName.packageSuffix <:+ a)
    (hk : w.installed a = true ∨ w.inRepos a = true) :
    run sort o w (as ++ a :: bs) = ⟨as.flatMap (fun x => (infoArg sort o w x).out), false⟩ := by
  have h1 : PkgName.packageSuffix.isSuffixOf a = false := by
    rw [Bool.eq_false_iff]; exact fun h => hn ((suffix_iff a).1 h)
  have e : infoArg sort o w a = ⟨[], false⟩ := by
    unfold infoArg infoPackage
    rw [hc]
    rcases hk with h | h
    · simp [h1, h]
    · cases w.installed a <;> simp [h1, h]
  have hl : infoLoop sort o w (a :: bs) = ⟨[], false⟩ := by
    unfold infoLoop
    rw [e]
    rfl
  have hr : run sort o w (as ++ a :: bs) = infoLoop sort o w (as ++ a :: bs) := by unfold run; rw [if_neg (by simp)]
  rw [hr]
  have hout := loop_out (sort := sort) (o := o) (w := w) as (a :: bs) hok
  have hk2 : (infoLoop sort o w (as ++ a :: bs)).ok = false := by
    rw [Bool.eq_false_iff]
    intro h
    have := (loop_ok _).1 h a (by simp)
    rw [e] at this
    cases this
  rw [hl, List.append_nil] at hout
  cases hres : infoLoop sort o w (as ++ a :: bs) with
  | mk out ok =>
    rw [hres] at hout hk2
    simp only at hout hk2
    rw [hout, hk2]

/-- With `--xml` every run with arguments fails, and prints nothing. -/
theorem xml_fails (sort : List φ → List φ) (o : Opts) (w : View κ ρ φ) (args : List Str) (ha : args ≠ []) (hx : o.xml = true) :
    run sort o w args = ⟨[], false⟩ := by
  cases args with
  | nil => exact absurd rfl ha
  | cons a as =>
    unfold run infoLoop
    rw [if_neg (by simp), arg_xml hx]
    rfl

/-! ## Search -/

/-- **C196, full statement.**  search tells about every package it found. -/
def SearchFull : Prop := ∀ (κ ρ φ : Type) (sort : List φ → List φ) (o : Opts) (long : Bool) (w : View κ ρ φ) (found : List Str),
  (∀ a ∈ found, w.installed a = true ∨ w.inRepos a = true) → (search sort o long w found).ok = true ∧
    (found ≠ [] → [.found found.length] ≠ (search sort o long w found).out)

theorem package_known {sort : List φ → List φ} {o : Opts} {w : View κ ρ φ} {a : Str} (hn : ¬ PkgName.packageSuffix <:+ a)
    (hk : w.installed a = true ∨ w.inRepos a = true) : infoPackage sort o w a = ⟨[], false⟩ := by
  have h1 : PkgName.packageSuffix.isSuffixOf a = false := by
    rw [Bool.eq_false_iff]; exact fun h => hn ((suffix_iff a).1 h)
  unfold infoPackage
  rcases hk with h | h
  · simp [h1, h]
  · cases w.installed a <;> simp [h1, h]

theorem package_unknown {sort : List φ → List φ} {o : Opts} {w : View κ ρ φ} {a : Str} (hn : ¬ PkgName.packageSuffix <:+ a)
    (h2 : w.installed a = false) (h3 : w.inRepos a = false) : infoPackage sort o w a = ⟨[], true⟩ := by
  have h1 : PkgName.packageSuffix.isSuffixOf a = false := by
    rw [Bool.eq_false_iff]; exact fun h => hn ((suffix_iff a).1 h)
  unfold infoPackage
  simp [h1, h2, h3]

/-- **C196, partial.**  It prints the number of packages, and nothing about any of them; it ends without error exactly if none of them
is in the databases any more. -/
theorem search_partial (sort : List φ → List φ) (o : Opts) (long : Bool) (w : View κ ρ φ) (found : List Str)
    (hn : ∀ a ∈ found, ¬ PkgName.packageSuffix <:+ a) :
    (search sort o long w found).out = [.found found.length] ∧
    ((search sort o long w found).ok = true ↔ ∀ a ∈ found, w.installed a = false ∧ w.inRepos a = false) := by
  have key : ∀ l : List Str, (∀ a ∈ l, ¬ PkgName.packageSuffix <:+ a) →
      (searchLoop sort { o with short := !long } w l).out = [] ∧
      ((searchLoop sort { o with short := !long } w l).ok = true ↔ ∀ a ∈ l, w.installed a = false ∧ w.inRepos a = false) := by
    intro l
    induction l with
    | nil => intro _; simp [searchLoop]
    | cons a l ih =>
      intro h
      have iha := ih (fun x hx => h x (List.mem_cons_of_mem _ hx))
      have ha := h a List.mem_cons_self
      rw [searchLoop]
      by_cases hk : w.installed a = true ∨ w.inRepos a = true
      · rw [package_known ha hk]
        refine ⟨rfl, ⟨fun h => (by cases h), fun h => ?_⟩⟩
        obtain ⟨h1, h2⟩ := h a List.mem_cons_self
        rcases hk with hk | hk
        · rw [h1] at hk; cases hk
        · rw [h2] at hk; cases hk
      · have h2 : w.installed a = false := by rw [Bool.eq_false_iff]; exact fun h => hk (.inl h)
        have h3 : w.inRepos a = false := by rw [Bool.eq_false_iff]; exact fun h => hk (.inr h)
        rw [package_unknown ha h2 h3]
        unfold Res.andThen
        simp only [if_true, List.nil_append, List.forall_mem_cons, h2, h3, and_self, true_and]
        exact iha
  have k := key found hn
  unfold search Res.andThen
  simp only [if_true, List.cons_append, List.nil_append]
  exact ⟨by rw [k.1], k.2⟩

/-- A component, an installed package "b", and a package file "c.pisi" with two files. -/
def sampleView : View Nat Nat Nat where
  comp a := if a = "a".toList then some 1 else none
  shown _ := true
  installed a := a = "b".toList
  inRepos _ := false
  file a := if a = "c.pisi".toList then some ⟨7, [], [4, 3]⟩ else none

/-- An installed package. -/
theorem info_refuted : ¬ InfoFull := by
  intro h
  have e := (h Nat Nat Nat id {} sampleView ["b".toList] (by simp)
    (by intro a ha; rw [List.mem_singleton] at ha; subst ha; exact .inr (.inr (.inl rfl)))).1
  revert e
  decide +kernel

/-- The first package that is found. -/
theorem search_refuted : ¬ SearchFull := by
  intro h
  have e := (h Nat Nat Nat id {} false sampleView ["b".toList]
    (by intro a ha; rw [List.mem_singleton] at ha; subst ha; exact .inl rfl)).1
  revert e
  decide +kernel

/-- Nothing is found; and something that is gone. -/
example : (search id {} true sampleView []).ok = true ∧ (search id {} true sampleView ["d".toList]).ok = true ∧
    (search id {} true sampleView ["d".toList, "b".toList]).ok = false := by decide +kernel

/-- The hypotheses are met: a component, a file and an unknown name go well. -/
example : (run List.reverse { files := true } sampleView ["a".toList, "c.pisi".toList, "d".toList]).ok = true ∧
    (run List.reverse { files := true } sampleView ["a".toList, "c.pisi".toList, "d".toList]).out =
      [.comp 1, .packageFile "c.pisi".toList, .pkg 7, .filesHead, .fileInfo 3, .fileInfo 4, .blank] := ⟨by decide +kernel, rfl⟩

end Pisi.Info
