import Verif.Spec.Dependency
import Verif.Props.Version

/-! # C05: dependency satisfaction -/
namespace Pisi
open Pisi.Version Pisi.Version.Spec Pisi.DepSpec

theorem clause_true {rel : List Item → List Item → Bool} {R : List Item → List Item → Prop}
    (h : ∀ v w, rel v w = true ↔ R v w) (v : List Item) (o : Option Str) :
    clause rel v o = some true ↔ Holds R v o := by
  match o with
  | none => simp [clause, Holds, Given]
  | some [] => simp [clause, Holds, Given]
  | some (c :: s) =>
    simp only [clause, Holds, Given, Option.map_eq_some_iff, Option.some.injEq]
    constructor
    · rintro ⟨w, hw, hr⟩ b ⟨rfl, _⟩
      exact ⟨w, (version_grammar _ _).mp hw, (h v w).mp hr⟩
    · intro hb
      obtain ⟨w, hw, hr⟩ := hb (c :: s) ⟨rfl, by simp⟩
      exact ⟨w, (version_grammar _ _).mpr hw, (h v w).mpr hr⟩

theorem clause_none (rel : List Item → List Item → Bool) (v : List Item) (o : Option Str) :
    clause rel v o = none ↔ ¬ ∀ b, Given o b → ∃ w, VersionG b w := by
  match o with
  | none => simp [clause, Given]
  | some [] => simp [clause, Given]
  | some (c :: s) =>
    simp only [clause, Given, Option.map_eq_none_iff, version_rejects]
    constructor
    · intro h h'; exact h (h' (c :: s) ⟨rfl, by simp⟩)
    · intro h h'; apply h; rintro b ⟨hb, _⟩; simp only [Option.some.injEq] at hb; exact hb ▸ h'

variable {α : Type}

theorem satisfies_cases (d : Dep α) (ver rel : Str) (v r : List Item)
    (hv : parse ver = some v) (hr : parse rel = some r) :
    d.satisfies ver rel =
      (clause veq v d.version).bind fun a => (clause vge v d.versionFrom).bind fun b =>
      (clause vle v d.versionTo).bind fun c => (clause veq r d.release).bind fun x =>
      (clause vge r d.releaseFrom).bind fun y => (clause vle r d.releaseTo).map fun z =>
      a && b && c && x && y && z := by
  simp only [Dep.satisfies, hv, hr, Option.bind_eq_bind, Option.bind_some]
  generalize clause veq v d.version = a
  generalize clause vge v d.versionFrom = b
  generalize clause vle v d.versionTo = c
  generalize clause veq r d.release = x
  generalize clause vge r d.releaseFrom = y
  generalize clause vle r d.releaseTo = z
  cases a <;> cases b <;> cases c <;> cases x <;> cases y <;> cases z <;> rfl

/-- **C05.** `satisfies` answers true exactly when version and release are well-formed and every stated
bound is a well-formed version standing in the stated relation. -/
theorem satisfies_iff (d : Dep α) (ver rel : Str) :
    d.satisfies ver rel = some true ↔ ∃ v r, VersionG ver v ∧ VersionG rel r ∧ Sat d v r := by
  constructor
  · intro h
    cases hv : parse ver with
    | none => simp [Dep.satisfies, hv] at h
    | some v =>
      cases hr : parse rel with
      | none =>
        exfalso
        simp only [Dep.satisfies, hv, hr] at h
        revert h
        cases clause veq v d.version <;> cases clause vge v d.versionFrom <;>
          cases clause vle v d.versionTo <;> simp
      | some r =>
        rw [satisfies_cases d ver rel v r hv hr] at h
        simp only [Option.bind_eq_some_iff, Option.map_eq_some_iff, Bool.and_eq_true] at h
        obtain ⟨a, ha, b, hb, c, hc, x, hx, y, hy, z, hz, ⟨⟨⟨⟨rfl, rfl⟩, rfl⟩, rfl⟩, rfl⟩, rfl⟩ := h
        exact ⟨v, r, (version_grammar _ _).mp hv, (version_grammar _ _).mp hr,
          (clause_true (fun v w => (version_operators v w).2.2.1) _ _).mp ha,
          (clause_true (fun v w => (version_operators v w).2.2.2.2) _ _).mp hb,
          (clause_true (fun v w => (version_operators v w).2.2.2.1) _ _).mp hc,
          (clause_true (fun v w => (version_operators v w).2.2.1) _ _).mp hx,
          (clause_true (fun v w => (version_operators v w).2.2.2.2) _ _).mp hy,
          (clause_true (fun v w => (version_operators v w).2.2.2.1) _ _).mp hz⟩
  · rintro ⟨v, r, hv, hr, hs⟩
    rw [satisfies_cases d ver rel v r ((version_grammar _ _).mpr hv) ((version_grammar _ _).mpr hr)]
    simp only [(clause_true (fun v w => (version_operators v w).2.2.1) v d.version).mpr hs.version,
      (clause_true (fun v w => (version_operators v w).2.2.2.2) _ _).mpr hs.versionFrom,
      (clause_true (fun v w => (version_operators v w).2.2.2.1) _ _).mpr hs.versionTo,
      (clause_true (fun v w => (version_operators v w).2.2.1) r d.release).mpr hs.release,
      (clause_true (fun v w => (version_operators v w).2.2.2.2) _ _).mpr hs.releaseFrom,
      (clause_true (fun v w => (version_operators v w).2.2.2.1) _ _).mpr hs.releaseTo]
    rfl

/-- **C05 (errors).** `satisfies` raises ValueError exactly when the version, the release or a stated bound
is malformed — whatever the other bounds say. -/
theorem satisfies_error_iff (d : Dep α) (ver rel : Str) :
    d.satisfies ver rel = none ↔
      ¬ ((∃ v, VersionG ver v) ∧ (∃ r, VersionG rel r) ∧ WellFormed d) := by
  cases hv : parse ver with
  | none =>
    have := (version_rejects ver).mp hv
    simp [Dep.satisfies, hv, this]
  | some v =>
    have hv' : ∃ v, VersionG ver v := ⟨v, (version_grammar _ _).mp hv⟩
    cases hr : parse rel with
    | none =>
      have := (version_rejects rel).mp hr
      simp only [this, false_and, and_false, not_false_iff, iff_true]
      simp only [Dep.satisfies, hv, hr]
      cases clause veq v d.version <;> cases clause vge v d.versionFrom <;>
          cases clause vle v d.versionTo <;> simp
    | some r =>
      have hr' : ∃ v, VersionG rel v := ⟨r, (version_grammar _ _).mp hr⟩
      rw [satisfies_cases d ver rel v r hv hr]
      simp only [hv', hr', true_and, WellFormed, List.mem_cons, List.not_mem_nil, or_false,
        forall_eq_or_imp, forall_eq]
      have e1 := clause_none veq v d.version
      have e2 := clause_none vge v d.versionFrom
      have e3 := clause_none vle v d.versionTo
      have e4 := clause_none veq r d.release
      have e5 := clause_none vge r d.releaseFrom
      have e6 := clause_none vle r d.releaseTo
      have nn : ∀ {a b : Prop}, (a ↔ ¬ b) → (b ↔ ¬ a) := fun h => by
        rw [h]; exact (Classical.not_not).symm
      rw [nn e1, nn e2, nn e3, nn e4, nn e5, nn e6]
      generalize clause veq v d.version = a
      generalize clause vge v d.versionFrom = b
      generalize clause vle v d.versionTo = c
      generalize clause veq r d.release = x
      generalize clause vge r d.releaseFrom = y
      generalize clause vle r d.releaseTo = z
      cases a <;> cases b <;> cases c <;> cases x <;> cases y <;> cases z <;> simp

theorem atLeast_iff (v w : List Item) : AtLeast v w ↔ vge v w = true := (version_operators v w).2.2.2.2.symm
theorem atMost_iff (v w : List Item) : AtMost v w ↔ vle v w = true := (version_operators v w).2.2.2.1.symm

theorem atLeast_trans {a b c : List Item} (h1 : AtLeast a b) (h2 : AtLeast b c) : AtLeast a c := by
  have e : ∀ v w, AtLeast v w ↔ AtMost w v := by
    intro v w; simp only [AtLeast, AtMost, Same]
    exact or_congr Iff.rfl ⟨fun h n => (h n).symm, fun h n => (h n).symm⟩
  rw [e] at *
  simp only [AtMost, older_iff, same_iff] at *
  rcases h1 with h1 | h1 <;> rcases h2 with h2 | h2
  · exact Or.inl (h2.trans h1)
  · exact Or.inl (SeqLt_of_eq_left h2.symm h1)
  · exact Or.inl (SeqLt_of_eq_right h1 h2)
  · exact Or.inr (h2.trans h1)

theorem atMost_trans {a b c : List Item} (h1 : AtMost a b) (h2 : AtMost b c) : AtMost a c := by
  simp only [AtMost, older_iff, same_iff] at *
  rcases h1 with h1 | h1 <;> rcases h2 with h2 | h2
  · exact Or.inl (h1.trans h2)
  · exact Or.inl (SeqLt_of_eq_right h2 h1)
  · exact Or.inl (SeqLt_of_eq_left h1.symm h2)
  · exact Or.inr (h1.trans h2)

/-- **C05 (monotone).** Tightening bounds never makes an unsatisfied dependency satisfied: whatever satisfies
the tighter dependency satisfies the original (if its bounds are well-formed). -/
theorem satisfies_antitone (d d' : Dep α) (hw : WellFormed d) (ht : Tighter d d') (ver rel : Str)
    (h : d'.satisfies ver rel = some true) : d.satisfies ver rel = some true := by
  rw [satisfies_iff] at h ⊢
  obtain ⟨v, r, hv, hr, hs⟩ := h
  have key : ∀ {R : List Item → List Item → Prop} {x : List Item} {o o' : Option Str},
      (∀ b, Given o b → ∃ w, VersionG b w) →
      (∀ {a b c}, R a b → R b c → R a c) →
      (∀ b w, Given o b → VersionG b w → ∃ b' w', Given o' b' ∧ VersionG b' w' ∧ R w' w) →
      Holds R x o' → Holds R x o := by
    intro R x o o' hwf htr htt hh b hb
    obtain ⟨w, hbw⟩ := hwf b hb
    obtain ⟨b', w', hb', hw', hR⟩ := htt b w hb hbw
    obtain ⟨w'', hw'', hR'⟩ := hh b' hb'
    rw [version_grammar_unique _ _ _ hw'' hw'] at hR'
    exact ⟨w, hbw, htr hR' hR⟩
  have same_trans : ∀ {a b c : List Item}, Same a b → Same b c → Same a c :=
    fun h1 h2 n => (h1 n).trans (h2 n)
  exact ⟨v, r, hv, hr,
    key (hw _ (by simp)) same_trans ht.version hs.version,
    key (hw _ (by simp)) atLeast_trans ht.versionFrom hs.versionFrom,
    key (hw _ (by simp)) atMost_trans ht.versionTo hs.versionTo,
    key (hw _ (by simp)) same_trans ht.release hs.release,
    key (hw _ (by simp)) atLeast_trans ht.releaseFrom hs.releaseFrom,
    key (hw _ (by simp)) atMost_trans ht.releaseTo hs.releaseTo⟩

/-- **C05 (lookup by name).** Against a dictionary of packages the dependency holds exactly when its package
is present and the version and release found there satisfy it. -/
theorem dict_satisfies_iff (dict : α → Option (Str × Str)) (d : Dep α) :
    dictSatisfiesDep dict d = some true ↔
      ∃ ver rel v r, dict d.package = some (ver, rel) ∧ VersionG ver v ∧ VersionG rel r ∧ Sat d v r := by
  unfold dictSatisfiesDep
  cases h : dict d.package with
  | none => simp
  | some p =>
    obtain ⟨ver, rel⟩ := p
    simp only [satisfies_iff, Option.some.injEq, Prod.mk.injEq]
    constructor
    · rintro ⟨v, r, h1⟩; exact ⟨ver, rel, v, r, ⟨rfl, rfl⟩, h1⟩
    · rintro ⟨_, _, v, r, ⟨rfl, rfl⟩, h1⟩; exact ⟨v, r, h1⟩

/-- **C05 (lists).** A package's dependencies are satisfied exactly when each of them is, provided none of
the tests raises. -/
theorem satisfies_dependencies_iff (sat : Dep α → Option Bool) (ds : List (Dep α)) :
    satisfiesDependencies sat ds = some true ↔ ∀ d ∈ ds, sat d = some true := by
  induction ds with
  | nil => simp [satisfiesDependencies]
  | cons d ds ih =>
    simp only [satisfiesDependencies, List.mem_cons, forall_eq_or_imp]
    cases h : sat d with
    | none => simp
    | some b => cases b <;> simp [ih]

/-! ### Non-vacuity -/

def exampleDep : Dep String :=
  { package := "libfoo", versionFrom := some "1.2".toList, versionTo := some "2.0".toList,
    releaseFrom := some "3".toList }

example : exampleDep.satisfies "1.10".toList "4".toList = some true := by decide
example : exampleDep.satisfies "1.1".toList "4".toList = some false := by decide
example : exampleDep.satisfies "1.10".toList "x-".toList = none := by decide
example : WellFormed exampleDep := by
  apply Classical.byContradiction
  intro h
  have := (satisfies_error_iff exampleDep "1.10".toList "4".toList).mpr (fun h' => h h'.2.2)
  exact absurd this (by decide)

end Pisi
