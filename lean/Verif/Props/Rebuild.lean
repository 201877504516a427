import Verif.Model.Rebuild
import Verif.Spec.Rebuild
import Verif.Props.Version
import Verif.Props.PkgName
import Verif.Props.Path

/-!
# Theorems about rebuild-db and pisi clean
-/
namespace Pisi.Rebuild
open Pisi.Version Pisi.PkgName Pisi.Version.Spec

/-! ## Names of directories -/

theorem nameParts_spec : ∀ (l acc ps : List Str), nameParts acc l = .ok ps →
    ∃ a b, l = a ++ b ∧ ps = acc ++ a ∧ (acc = [] → l ≠ [] → a ≠ []) ∧ (b = [] ∨ ∃ c r b', b = (c :: r) :: b') := by
  intro l
  induction l with
  | nil => intro acc ps h; simp only [nameParts, Except.ok.injEq] at h; exact ⟨[], [], rfl, by simp [h], by simp, Or.inl rfl⟩
  | cons x l ih =>
    intro acc ps h
    by_cases ha : acc = []
    · simp only [nameParts, if_pos ha] at h
      obtain ⟨a, b, h1, h2, _, h4⟩ := ih _ _ h
      exact ⟨x :: a, b, by rw [h1]; rfl, by rw [h2]; simp, by simp, h4⟩
    · simp only [nameParts, if_neg ha] at h
      match x, h with
      | c :: r, h =>
        by_cases hc : c.isDigit = true
        · simp only [hc, if_true, Except.ok.injEq] at h
          exact ⟨[], (c :: r) :: l, rfl, by simp [h], fun e => absurd e ha, Or.inr ⟨c, r, l, rfl⟩⟩
        · simp only [hc] at h
          obtain ⟨a, b, h1, h2, _, h4⟩ := ih _ _ h
          exact ⟨(c :: r) :: a, b, by rw [h1]; rfl, by rw [h2]; simp, by simp, h4⟩

theorem joinWith_append2 {a b : List Str} (ha : a ≠ []) (hb : b ≠ []) : joinWith ['-'] (a ++ b) = joinWith ['-'] a ++ '-' :: joinWith ['-'] b := by
  induction a with
  | nil => exact absurd rfl ha
  | cons x a ih =>
    cases a with
    | nil =>
      cases b with
      | nil => exact absurd rfl hb
      | cons y b => simp [joinWith]
    | cons y a =>
      have := ih (by simp)
      simp only [List.cons_append] at this ⊢
      simp [joinWith, this]

theorem dirOf_of {d n v : Str} (h : parsePackageName d = .ok (n, v)) : DirOf d n v := by
  refine ⟨h, ?_⟩
  simp only [parsePackageName] at h
  cases hp : nameParts [] (splitOn '-' d) with
  | error e => rw [hp] at h; cases h
  | ok ps =>
    rw [hp] at h
    simp only [Except.ok.injEq, Prod.mk.injEq] at h
    obtain ⟨h1, h2⟩ := h
    obtain ⟨a, b, e1, e2, e3, e4⟩ := nameParts_spec _ _ _ hp
    have ea : a ≠ [] := e3 rfl (splitOn_ne_nil _ _)
    simp only [List.nil_append] at e2
    subst e2
    have hj := joinWith_append' '-' d _ (splitOn_splits '-' d)
    rw [e1] at hj
    rcases e4 with rfl | ⟨c, r, b', rfl⟩
    · left
      rw [List.append_nil, h1] at hj
      refine ⟨?_, hj.symm⟩
      rw [← h2, ← hj, h1]
      exact List.drop_eq_nil_of_le (by omega)
    · right
      rw [joinWith_append2 ea (by simp), h1] at hj
      rw [h1, ← hj] at h2
      have : (n ++ '-' :: joinWith ['-'] ((c :: r) :: b')).drop (n.length + 1) = joinWith ['-'] ((c :: r) :: b') := by
        rw [← List.drop_drop]; simp
      rw [this] at h2
      refine ⟨?_, by rw [← h2]; exact hj.symm⟩
      rw [← h2]
      cases b' with
      | nil => simp [joinWith]
      | cons y b' => simp [joinWith]

theorem dirOf_unique {d n v n' v' : Str} (h : DirOf d n v) (h' : DirOf d n' v') : n = n' ∧ v = v' := by
  have := h.1.symm.trans h'.1
  simpa using this

theorem dirOf_join {d n v : Str} (h : DirOf d n v) (hv : v ≠ []) : d = n ++ '-' :: v := by
  rcases h.2 with h | h
  · exact absurd h.1 hv
  · exact h.2

theorem parse_nil : parse [] = none := by decide

theorem parse_ne_nil {v : Str} {a : List Item} (h : parse v = some a) : v ≠ [] := by
  rintro rfl; rw [parse_nil] at h; cases h

/-! ## C108 -/

/-- What the first loop knows after the directories `P`. -/
structure Scanned (P : List Str) (iv : Dict Str Str) (rep : List Str) : Prop where
  parsed : ∀ d ∈ P, ∃ n v, DirOf d n v
  seen : ∀ d ∈ P, ∀ n v, DirOf d n v → iv.get n ≠ none
  from_ : ∀ n w, iv.get n = some w → ∃ d ∈ P, DirOf d n w
  best : ∀ d ∈ P, ∀ n v w, DirOf d n v → iv.get n = some w → v = w ∨ (∃ a b, parse v = some a ∧ parse w = some b ∧ vle a b = true) ∧ d ∈ rep
  rep : ∀ r ∈ rep, ∃ d ∈ P, ∃ n v, DirOf d n v ∧ v ≠ [] ∧ r = n ++ '-' :: v ∧ iv.get n ≠ some v

theorem vle_refl (a : List Item) : vle a a = true := by rw [vle_iff]; right; exact fun _ => rfl

theorem vle_trans {a b c : List Item} (h1 : vle a b = true) (h2 : vle b c = true) : vle a c = true := by
  rw [vle_iff] at *
  rcases h1 with h1 | h1 <;> rcases h2 with h2 | h2
  · exact Or.inl (h1.trans h2)
  · exact Or.inl (SeqLt_of_eq_right h2 h1)
  · exact Or.inl (SeqLt_of_eq_left h1.symm h2)
  · exact Or.inr (h1.trans h2)

theorem vle_of_vgt {a b : List Item} (h : vgt a b = true) : vle b a = true := by
  rw [vgt_iff] at h; rw [vle_iff]; exact Or.inl h

theorem vle_of_not_vgt {a b : List Item} (h : ¬ vgt a b = true) : vle a b = true := by
  rcases compare_range a b with e | e | e <;> simp [vgt, vle, e] at h ⊢

theorem scan_spec : ∀ (l P : List Str) (iv : Dict Str Str) (rep : List Str), (P ++ l).Nodup → Scanned P iv rep → ∀ iv' rep',
    scan l iv rep = .ok (iv', rep') → Scanned (P ++ l) iv' rep' := by
  intro l
  induction l with
  | nil =>
    intro P iv rep _ h iv' rep' he
    simp only [scan, Except.ok.injEq, Prod.mk.injEq] at he
    obtain ⟨rfl, rfl⟩ := he
    rw [List.append_nil]; exact h
  | cons d l ih =>
    intro P iv rep hn h iv' rep' he
    have hnd : d ∉ P := by
      rw [List.nodup_append] at hn
      exact fun hp => hn.2.2 d hp d List.mem_cons_self rfl
    have e : P ++ d :: l = (P ++ [d]) ++ l := by simp
    rw [e] at hn ⊢
    simp only [scan] at he
    cases hp : parsePackageName d with
    | error x => rw [hp] at he; cases he
    | ok nv =>
      obtain ⟨n, v⟩ := nv
      have hd := dirOf_of hp
      rw [hp] at he
      dsimp only at he
      cases hg : iv.get n with
      | none =>
        rw [hg] at he
        refine ih _ _ _ hn ?_ _ _ he
        refine ⟨?_, ?_, ?_, ?_, ?_⟩
        · intro x hx
          rcases List.mem_append.mp hx with hx | hx
          · exact h.parsed x hx
          · rw [List.mem_singleton.mp hx]; exact ⟨n, v, hd⟩
        · intro x hx m w hm
          rw [Dict.get_put]
          by_cases hnm : n = m
          · simp [hnm]
          · rw [if_neg hnm]
            rcases List.mem_append.mp hx with hx | hx
            · exact h.seen x hx m w hm
            · rw [List.mem_singleton.mp hx] at hm
              exact absurd (dirOf_unique hd hm).1 hnm
        · intro m w hm
          rw [Dict.get_put] at hm
          by_cases hnm : n = m
          · subst hnm
            rw [if_pos rfl, Option.some.injEq] at hm
            subst hm
            exact ⟨d, by simp, hd⟩
          · rw [if_neg hnm] at hm
            obtain ⟨x, hx, hx'⟩ := h.from_ m w hm
            exact ⟨x, by simp [hx], hx'⟩
        · intro x hx m u w hm hw
          rw [Dict.get_put] at hw
          rcases List.mem_append.mp hx with hx | hx
          · by_cases hnm : n = m
            · subst hnm; exact absurd hg (h.seen x hx n u hm)
            · rw [if_neg hnm] at hw; exact h.best x hx m u w hm hw
          · rw [List.mem_singleton.mp hx] at hm
            obtain ⟨rfl, rfl⟩ := dirOf_unique hd hm
            rw [if_pos rfl, Option.some.injEq] at hw
            exact Or.inl hw
        · intro r hr
          obtain ⟨x, hx, m, u, h1, h2, h3, h4⟩ := h.rep r hr
          refine ⟨x, by simp [hx], m, u, h1, h2, h3, ?_⟩
          rw [Dict.get_put]
          by_cases hnm : n = m
          · subst hnm; exact absurd hg (h.seen x hx n u h1)
          · rw [if_neg hnm]; exact h4
      | some old =>
        rw [hg] at he
        dsimp only at he
        obtain ⟨d0, hd0, hd0'⟩ := h.from_ n old hg
        cases hpv : parse v with
        | none => rw [hpv] at he; cases he
        | some a =>
          cases hpo : parse old with
          | none => rw [hpv, hpo] at he; cases he
          | some b =>
            rw [hpv, hpo] at he
            dsimp only at he
            have hvn := parse_ne_nil hpv
            have hon := parse_ne_nil hpo
            have hdj := dirOf_join hd hvn
            have hd0j := dirOf_join hd0' hon
            have hne : v ≠ old := by
              rintro rfl
              rw [← hdj] at hd0j
              exact hnd (hd0j ▸ hd0)
            by_cases hgt : vgt a b = true
            · rw [if_pos hgt] at he
              refine ih _ _ _ hn ?_ _ _ he
              refine ⟨?_, ?_, ?_, ?_, ?_⟩
              · intro x hx
                rcases List.mem_append.mp hx with hx | hx
                · exact h.parsed x hx
                · rw [List.mem_singleton.mp hx]; exact ⟨n, v, hd⟩
              · intro x hx m w hm
                rw [Dict.get_put]
                by_cases hnm : n = m
                · simp [hnm]
                · rw [if_neg hnm]
                  rcases List.mem_append.mp hx with hx | hx
                  · exact h.seen x hx m w hm
                  · rw [List.mem_singleton.mp hx] at hm
                    exact absurd (dirOf_unique hd hm).1 hnm
              · intro m w hm
                rw [Dict.get_put] at hm
                by_cases hnm : n = m
                · subst hnm
                  rw [if_pos rfl, Option.some.injEq] at hm
                  subst hm
                  exact ⟨d, by simp, hd⟩
                · rw [if_neg hnm] at hm
                  obtain ⟨x, hx, hx'⟩ := h.from_ m w hm
                  exact ⟨x, by simp [hx], hx'⟩
              · intro x hx m u w hm hw
                rw [Dict.get_put] at hw
                rcases List.mem_append.mp hx with hx | hx
                · by_cases hnm : n = m
                  · subst hnm
                    rw [if_pos rfl, Option.some.injEq] at hw
                    subst hw
                    right
                    rcases h.best x hx n u old hm hg with rfl | ⟨⟨a', b', e1, e2, e3⟩, hr⟩
                    · refine ⟨⟨b, a, hpo, hpv, vle_of_vgt hgt⟩, ?_⟩
                      rw [dirOf_join hm hon]
                      simp
                    · rw [hpo, Option.some.injEq] at e2
                      subst e2
                      exact ⟨⟨a', a, e1, hpv, vle_trans e3 (vle_of_vgt hgt)⟩, by simp [hr]⟩
                  · rw [if_neg hnm] at hw
                    rcases h.best x hx m u w hm hw with h1 | ⟨h1, h2⟩
                    · exact Or.inl h1
                    · exact Or.inr ⟨h1, by simp [h2]⟩
                · rw [List.mem_singleton.mp hx] at hm
                  obtain ⟨rfl, rfl⟩ := dirOf_unique hd hm
                  rw [if_pos rfl, Option.some.injEq] at hw
                  exact Or.inl hw
              · intro r hr
                rcases List.mem_append.mp hr with hr | hr
                · obtain ⟨x, hx, m, u, h1, h2, h3, h4⟩ := h.rep r hr
                  refine ⟨x, by simp [hx], m, u, h1, h2, h3, ?_⟩
                  rw [Dict.get_put]
                  by_cases hnm : n = m
                  · subst hnm
                    rw [if_pos rfl]
                    intro hc
                    rw [Option.some.injEq] at hc
                    subst hc
                    have := dirOf_join h1 h2
                    rw [← hdj] at this
                    exact hnd (this ▸ hx)
                  · rw [if_neg hnm]; exact h4
                · rw [List.mem_singleton] at hr
                  refine ⟨d0, by simp [hd0], n, old, hd0', hon, hr, ?_⟩
                  rw [Dict.get_put, if_pos rfl]
                  intro hc
                  exact hne (Option.some.inj hc)
            · rw [if_neg hgt] at he
              refine ih _ _ _ hn ?_ _ _ he
              refine ⟨?_, ?_, ?_, ?_, ?_⟩
              · intro x hx
                rcases List.mem_append.mp hx with hx | hx
                · exact h.parsed x hx
                · rw [List.mem_singleton.mp hx]; exact ⟨n, v, hd⟩
              · intro x hx m w hm
                rcases List.mem_append.mp hx with hx | hx
                · exact h.seen x hx m w hm
                · rw [List.mem_singleton.mp hx] at hm
                  rw [← (dirOf_unique hd hm).1, hg]
                  simp
              · intro m w hm
                obtain ⟨x, hx, hx'⟩ := h.from_ m w hm
                exact ⟨x, by simp [hx], hx'⟩
              · intro x hx m u w hm hw
                rcases List.mem_append.mp hx with hx | hx
                · rcases h.best x hx m u w hm hw with h1 | ⟨h1, h2⟩
                  · exact Or.inl h1
                  · exact Or.inr ⟨h1, by simp [h2]⟩
                · rw [List.mem_singleton.mp hx] at hm ⊢
                  obtain ⟨rfl, rfl⟩ := dirOf_unique hd hm
                  rw [hg, Option.some.injEq] at hw
                  subst hw
                  exact Or.inr ⟨⟨a, b, hpv, hpo, vle_of_not_vgt hgt⟩, by rw [hdj]; simp⟩
              · intro r hr
                rcases List.mem_append.mp hr with hr | hr
                · obtain ⟨x, hx, m, u, h1, h2, h3, h4⟩ := h.rep r hr
                  exact ⟨x, by simp [hx], m, u, h1, h2, h3, h4⟩
                · rw [List.mem_singleton] at hr
                  refine ⟨d, by simp, n, v, hd, hvn, hr, ?_⟩
                  rw [hg]
                  intro hc
                  exact hne (Option.some.inj hc).symm

theorem scanned_nil : Scanned [] [] [] := ⟨by simp, by simp, by simp [Dict.get], by simp, by simp⟩

/-- If `clean_duplicates` succeeds: of every package exactly one directory remains, none of whose versions is newer. -/
theorem clean_duplicates_newest {dirs rest : List Str} (hn : dirs.Nodup) (h : cleanDuplicates dirs = .ok rest) :
    (∀ d ∈ rest, d ∈ dirs) ∧
    ∀ d ∈ dirs, ∃ n v, DirOf d n v ∧ ∃ k w, k ∈ rest ∧ DirOf k n w ∧ (∀ k' ∈ rest, ∀ w', DirOf k' n w' → k' = k) ∧
      (v = w ∨ NotNewer v w) := by
  simp only [cleanDuplicates] at h
  cases hs : scan dirs [] [] with
  | error e => rw [hs] at h; cases h
  | ok r =>
    obtain ⟨iv, rep⟩ := r
    rw [hs] at h
    simp only [Except.ok.injEq] at h
    subst h
    have sc := scan_spec dirs [] [] [] (by simpa using hn) scanned_nil iv rep hs
    rw [List.nil_append] at sc
    refine ⟨fun d hd => (List.mem_filter.mp hd).1, fun d hd => ?_⟩
    obtain ⟨n, v, hdo⟩ := sc.parsed d hd
    refine ⟨n, v, hdo, ?_⟩
    cases hg : iv.get n with
    | none => exact absurd hg (sc.seen d hd n v hdo)
    | some w =>
      obtain ⟨k, hk, hko⟩ := sc.from_ n w hg
      refine ⟨k, w, ?_, hko, ?_, ?_⟩
      · refine List.mem_filter.mpr ⟨hk, ?_⟩
        simp only [decide_not, Bool.not_eq_true', decide_eq_false_iff_not]
        intro hr
        obtain ⟨x, hx, m, u, h1, h2, h3, h4⟩ := sc.rep k hr
        rw [← dirOf_join h1 h2] at h3
        subst h3
        obtain ⟨rfl, rfl⟩ := dirOf_unique hko h1
        exact h4 hg
      · intro k' hk' w' hko'
        obtain ⟨hk1, hk2⟩ := List.mem_filter.mp hk'
        simp only [decide_not, Bool.not_eq_true', decide_eq_false_iff_not] at hk2
        rcases sc.best k' hk1 n w' w hko' hg with rfl | ⟨_, h⟩
        · rcases hko.2 with ⟨e, h1⟩ | ⟨e, h1⟩
          · rcases hko'.2 with ⟨_, h2⟩ | ⟨e', _⟩
            · rw [h1, h2]
            · exact absurd e e'
          · rw [h1, dirOf_join hko' e]
        · exact absurd h hk2
      · rcases sc.best d hd n v w hdo hg with h | ⟨⟨a, b, h1, h2, h3⟩, _⟩
        · exact Or.inl h
        · right
          intro a' b' ha hb
          rw [← version_grammar, h1, Option.some.injEq] at ha
          rw [← version_grammar, h2, Option.some.injEq] at hb
          subst ha; subst hb
          intro ho
          have := (version_operators b a).1.mpr ho
          have h4 := vle_iff a b |>.mp h3
          rw [vlt_iff] at this
          have e1 := (compare_gt_iff a b).mpr this
          simp only [vle, decide_eq_true_eq] at h3
          omega

/-- It succeeds if all names have a version that can be read. -/
theorem clean_duplicates_succeeds {dirs : List Str} (h : ∀ d ∈ dirs, ∃ n v, parsePackageName d = .ok (n, v) ∧ ∃ a, VersionG v a) :
    ∃ rest, cleanDuplicates dirs = .ok rest := by
  have : ∀ (l : List Str) (iv : Dict Str Str) (rep : List Str), (∀ d ∈ l, ∃ n v, parsePackageName d = .ok (n, v) ∧ ∃ a, VersionG v a) →
      (∀ n w, iv.get n = some w → ∃ a, parse w = some a) → ∃ r, scan l iv rep = .ok r := by
    intro l
    induction l with
    | nil => intro iv rep _ _; exact ⟨_, rfl⟩
    | cons d l ih =>
      intro iv rep hl hiv
      obtain ⟨n, v, hp, a, ha⟩ := hl d List.mem_cons_self
      rw [← version_grammar] at ha
      have hl' : ∀ d ∈ l, ∃ n v, parsePackageName d = .ok (n, v) ∧ ∃ a, VersionG v a := fun x hx => hl x (List.mem_cons_of_mem _ hx)
      have hput : ∀ m w, (iv.put n v).get m = some w → ∃ a, parse w = some a := by
        intro m w hm
        rw [Dict.get_put] at hm
        by_cases hnm : n = m
        · rw [if_pos hnm, Option.some.injEq] at hm; exact ⟨a, hm ▸ ha⟩
        · rw [if_neg hnm] at hm; exact hiv m w hm
      simp only [scan, hp]
      cases hg : iv.get n with
      | none => exact ih _ _ hl' hput
      | some old =>
        obtain ⟨b, hb⟩ := hiv n old hg
        simp only [ha, hb]
        by_cases hgt : vgt a b = true
        · rw [if_pos hgt]; exact ih _ _ hl' hput
        · rw [if_neg hgt]; exact ih _ _ hl' hiv
  obtain ⟨r, hr⟩ := this dirs [] [] h (by simp [Dict.get])
  exact ⟨_, by simp only [cleanDuplicates, hr]; rfl⟩

/-- Three directories of two packages. -/
example : cleanDuplicates ["a-1.2-1".toList, "b-c-3-1".toList, "a-1.10-1".toList] = .ok ["b-c-3-1".toList, "a-1.10-1".toList] := by rfl

/-- What is wanted: it succeeds whatever is in the directory. -/
def CleanDuplicatesFull : Prop := ∀ dirs : List Str, dirs.Nodup → ∃ rest, cleanDuplicates dirs = .ok rest

/-- An entry whose name has an empty part stops it. -/
theorem clean_duplicates_refuted : ¬ CleanDuplicatesFull := by
  intro h
  obtain ⟨r, hr⟩ := h ["a--1".toList] (by decide)
  have : cleanDuplicates ["a--1".toList] = .error .index := by rfl
  rw [this] at hr
  cases hr

/-! ## C107 -/

/-- What is wanted: afterwards all packages with a directory are recorded as installed, and all repositories known. -/
def ReconstructFull : Prop := ∀ dirs indices : List Str, dirs.Nodup → indices.Nodup →
  (∀ d ∈ dirs, ∃ n v, parsePackageName d = .ok (n, v) ∧ ∃ a, VersionG v a) →
  (reconstruct dirs indices).result = .ok () ∧ (∀ d ∈ dirs, ∃ n v k w, DirOf d n v ∧ k ∈ (reconstruct dirs indices).packages ∧ DirOf k n w) ∧
  ∀ r ∈ indices, r ∈ (reconstruct dirs indices).repos

theorem reloadPackages_spec (l db : List Str) : reloadPackages l db = (db, if ∀ d ∈ l, d = scripts then .ok () else .error .attribute) := by
  induction l with
  | nil => simp [reloadPackages]
  | cons d l ih =>
    by_cases hd : d = scripts
    · simp only [reloadPackages, ih, List.mem_cons, forall_eq_or_imp, hd, true_and, if_true]
    · simp only [reloadPackages, List.mem_cons, forall_eq_or_imp, hd, false_and, if_false]

/-- No package is ever recorded; with any directory of a package the command fails and no repository is known, and with any
repository it fails and at most the first is known. -/
theorem reconstruct_fails (dirs indices : List Str) (hn : dirs.Nodup) :
    (reconstruct dirs indices).packages = [] ∧
    ((∃ d ∈ dirs, d ≠ scripts) → (reconstruct dirs indices).result ≠ .ok () ∧ (reconstruct dirs indices).repos = []) ∧
    (indices ≠ [] → (reconstruct dirs indices).result ≠ .ok () ∧ (reconstruct dirs indices).repos.length ≤ 1) := by
  simp only [reconstruct]
  cases h : cleanDuplicates dirs with
  | error e => exact ⟨rfl, fun _ => ⟨(fun hc => by cases hc), rfl⟩, fun _ => ⟨(fun hc => by cases hc), by simp⟩⟩
  | ok rest =>
    dsimp only
    rw [reloadPackages_spec]
    by_cases hall : ∀ d ∈ rest, d = scripts
    case neg =>
      rw [if_neg hall]
      exact ⟨rfl, fun _ => ⟨(fun hc => by cases hc), rfl⟩, fun _ => ⟨(fun hc => by cases hc), by simp⟩⟩
    rw [if_pos hall]
    refine ⟨rfl, fun hx => absurd hall ?_, fun hi => ?_⟩
    case refine_2 =>
      cases indices with
      | nil => exact absurd rfl hi
      | cons r l => exact ⟨(fun hc => by cases hc), by simp [reloadIndices]⟩
    obtain ⟨d, hd, hne⟩ := hx
    obtain ⟨n, v, hdo, k, w, hk, hko, _, _⟩ := (clean_duplicates_newest hn h).2 d hd
    · intro hall
      have e := hall k hk
      subst e
      obtain ⟨h1, h2⟩ := dirOf_unique hko (dirOf_of (show parsePackageName scripts = .ok (scripts, []) by rfl))
      subst h1; subst h2
      rcases (clean_duplicates_newest hn h).2 d hd with ⟨n', v', g1, k', w', g2, g3, g4, g5⟩
      have e2 := hall k' g2
      subst e2
      obtain ⟨h3, h4⟩ := dirOf_unique g3 (dirOf_of (show parsePackageName scripts = .ok (scripts, []) by rfl))
      subst h3; subst h4
      rcases hdo.2 with ⟨_, h5⟩ | ⟨h5, h6⟩
      · exact hne h5
      · -- a second directory of that name: its version would have to be compared with the empty one
        simp only [cleanDuplicates] at h
        cases hs : scan dirs [] [] with
        | error e => rw [hs] at h; cases h
        | ok r =>
          obtain ⟨iv, rep⟩ := r
          have sc := scan_spec dirs [] [] [] (by simpa using hn) scanned_nil iv rep hs
          rw [List.nil_append] at sc
          have hkd : scripts ∈ dirs := by
            rw [hs] at h
            simp only [Except.ok.injEq] at h
            subst h
            exact (List.mem_filter.mp hk).1
          cases hg : iv.get scripts with
          | none => exact sc.seen d hd _ _ hdo hg
          | some u =>
            rcases sc.best d hd _ _ u hdo hg with e1 | ⟨⟨a, b, h7, h8, _⟩, _⟩
            · rcases sc.best scripts hkd _ _ u hko hg with e2 | ⟨⟨a, b, h7, _⟩, _⟩
              · exact h5 (e1.trans e2.symm)
              · rw [parse_nil] at h7; cases h7
            · rcases sc.best scripts hkd _ _ u hko hg with e2 | ⟨⟨a, b, h7, _⟩, _⟩
              · rw [← e2, parse_nil] at h8; cases h8
              · rw [parse_nil] at h7; cases h7

/-- Nothing is reconstructed. -/
theorem reconstruct_refuted : ¬ ReconstructFull := by
  intro h
  have := (h ["a-1-1".toList] [] (by decide) (by decide) (by
    intro d hd
    rw [List.mem_singleton.mp hd]
    exact ⟨"a".toList, "1-1".toList, by rfl, [⟨.nokey, .num 1⟩, ⟨.nokey, .num 1⟩], (version_grammar _ _).mp (by decide)⟩)).1
  have e : (reconstruct ["a-1-1".toList] []).result = .error .attribute := by rfl
  rw [e] at this
  cases this

/-- Without packages and repositories it succeeds. -/
theorem reconstruct_partial {dirs : List Str} (h : ∀ d ∈ dirs, d = scripts) (hn : dirs.Nodup) :
    (reconstruct dirs []).result = .ok () := by
  have : dirs = [] ∨ dirs = [scripts] := by
    match dirs, h, hn with
    | [], _, _ => exact Or.inl rfl
    | [x], h, _ => right; rw [h x (by simp)]
    | x :: y :: l, h, hn =>
      have h1 := h x (by simp)
      have h2 := h y (by simp)
      subst h1; subst h2
      simp at hn
  rcases this with rfl | rfl <;> rfl

/-- A system with a package and two repositories. -/
example : (reconstruct ["a-1-1".toList] ["r".toList, "s".toList]).repos = [] := by rfl
example : (reconstruct [scripts] ["r".toList, "s".toList]).repos = ["r".toList] := by rfl

/-! ## C106 -/

theorem get_filter_keys (P : Str → Bool) (fs : FS.FS) (p : Str) :
    Dict.get (fs.filter fun e => P e.1) p = if P p = true then fs.get p else none := by
  induction fs with
  | nil => simp [Dict.get]
  | cons e fs ih =>
    obtain ⟨k, v⟩ := e
    by_cases hP : P k = true
    · rw [List.filter_cons_of_pos (by exact hP)]
      simp only [Dict.get]
      by_cases hk : k = p
      · subst hk; simp [hP]
      · rw [if_neg hk, if_neg hk]; exact ih
    · rw [List.filter_cons_of_neg (by simpa using hP), ih]
      simp only [Dict.get]
      by_cases hk : k = p
      · subst hk; simp [hP]
      · rw [if_neg hk]

open Classical in
/-- Exactly what `pisi clean` deletes: files (and links) below the current directory whose name ends with `.lock`. -/
theorem clean_exact (fs : FS.FS) (cwd p : Str) : (clean fs cwd).get p =
    if FS.Below cwd p ∧ FS.isDir fs p = false ∧ IsLockName p then none else fs.get p := by
  have hs : Path.suffix lockSuffix p = true ↔ IsLockName p := by
    rw [Path.suffix_iff]
    constructor
    · rintro ⟨q, hq⟩; exact ⟨q, hq.symm⟩
    · rintro ⟨q, hq⟩; exact ⟨q, hq.symm⟩
  have := get_filter_keys (fun k => !(listedFile fs cwd k && Path.suffix lockSuffix k)) fs p
  rw [show clean fs cwd = fs.filter (fun e => !(listedFile fs cwd e.1 && Path.suffix lockSuffix e.1)) from rfl, this]
  by_cases h : FS.Below cwd p ∧ FS.isDir fs p = false ∧ IsLockName p
  · rw [if_pos h]
    cases hg : fs.get p with
    | none => simp
    | some x =>
      rw [if_neg]
      rw [← hs] at h
      simp [listedFile, h.1, h.2.1, h.2.2, hg]
  · rw [if_neg h]
    cases hg : fs.get p with
    | none => simp
    | some x =>
      rw [if_pos]
      rw [← hs] at h
      simp only [listedFile, hg, Option.isSome_some, Bool.and_true, Bool.not_eq_true', Bool.and_eq_false_iff, decide_eq_false_iff_not, Bool.not_eq_false']
      by_cases a : FS.Below cwd p
      · cases b : FS.isDir fs p with
        | true => exact Or.inl (Or.inr rfl)
        | false =>
          right
          cases c : Path.suffix lockSuffix p with
          | false => rfl
          | true => exact absurd ⟨a, b, c⟩ h
      · exact Or.inl (Or.inl a)

/-- What the command promises: only locks of the database directory are deleted. -/
def CleanFull : Prop := ∀ (fs : FS.FS) (cwd dbdir p : Str), (clean fs cwd).get p ≠ fs.get p → FS.Below dbdir p

/-- It is the current directory that is cleaned. -/
theorem clean_refuted : ¬ CleanFull := by
  intro h
  obtain ⟨r, hr⟩ := h [("/home/poetry.lock".toList, .file [])] "/home".toList "/var/db".toList "/home/poetry.lock".toList (by decide)
  have := congrArg (fun l : Str => l[1]?) hr
  exact absurd this (by simp)

/-- Called in the database directory it deletes only locks there. -/
theorem clean_partial (fs : FS.FS) (dbdir p : Str) (h : (clean fs dbdir).get p ≠ fs.get p) :
    FS.Below dbdir p ∧ IsLockName p ∧ (clean fs dbdir).get p = none := by
  rw [clean_exact] at h ⊢
  by_cases hc : FS.Below dbdir p ∧ FS.isDir fs p = false ∧ IsLockName p
  · exact ⟨hc.1, hc.2.2, if_pos hc⟩
  · rw [if_neg hc] at h; exact absurd rfl h

example : clean [("/db/files.bdb.lock".toList, .file []), ("/db/files.bdb".toList, .file [])] "/db".toList = [("/db/files.bdb".toList, .file [])] := by decide

end Pisi.Rebuild
