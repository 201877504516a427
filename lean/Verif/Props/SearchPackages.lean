import Verif.Props.Search

/-!
# C40, C64: searching for packages
-/
set_option linter.unusedSectionVars false

namespace Pisi.Search
open Pisi.DB Pisi.DBSpec

variable {α ρ : Type} [DecidableEq α]

/-- All indices are well-formed. -/
def IdxWF (x : Indices α) : Prop := ∀ f l, (x f l).WF

theorem idxWF_set {x : Indices α} (h : IdxWF x) (f : Field) (lang : Str) {i : InvIdx α} (hi : i.WF) :
    IdxWF (x.set f lang i) := by
  intro f' l'
  unfold Indices.set
  by_cases hc : f' = f ∧ l' = lang
  · rw [if_pos hc]; exact hi
  · rw [if_neg hc]; exact h f' l'

theorem docLoop_add (low : Char → Char) (f : Field) (doc : α) (r : RepoId) (l : Dict Str Str) : ∀ {x : Indices α}, IdxWF x →
    ∃ x', docLoop low addDoc f doc r l x = .ok x' ∧ IdxWF x' ∧ ∀ f' lang t r' d,
      At (x' f' lang) t r' d ↔ At (x f' lang) t r' d ∨
        (f' = f ∧ r' = r ∧ d = doc ∧ lang ∈ langs ∧ ∃ s, (lang, s) ∈ l ∧ t ∈ preprocess low lang s) := by
  induction l with
  | nil => intro x h; exact ⟨x, rfl, h, by simp⟩
  | cons e l ih =>
    intro x h
    obtain ⟨lg, s⟩ := e
    unfold docLoop
    by_cases hl : lg ∈ langs
    · rw [if_pos hl]
      obtain ⟨i, e1, w1, a1⟩ := addDoc_spec doc r (preprocess low lg s) (h f lg)
      rw [e1]
      obtain ⟨x', e2, w2, a2⟩ := ih (idxWF_set h f lg w1)
      refine ⟨x', e2, w2, fun f' lang t r' d => ?_⟩
      rw [a2]
      unfold Indices.set
      by_cases hc : f' = f ∧ lang = lg
      · obtain ⟨rfl, rfl⟩ := hc
        rw [if_pos ⟨rfl, rfl⟩, a1]
        constructor
        · rintro ((h | ⟨a, b, c⟩) | ⟨a, b, c, d, s', e, g⟩)
          · exact Or.inl h
          · exact Or.inr ⟨rfl, b, c, hl, s, by simp, a⟩
          · exact Or.inr ⟨rfl, b, c, hl, s', by simp [e], g⟩
        · rintro (h | ⟨_, b, c, _, s', e, g⟩)
          · exact Or.inl (Or.inl h)
          · rcases List.mem_cons.mp e with e | e
            · cases e; exact Or.inl (Or.inr ⟨g, b, c⟩)
            · exact Or.inr ⟨rfl, b, c, hl, s', e, g⟩
      · rw [if_neg hc]
        constructor
        · rintro (h | ⟨a, b, c, d, s', e, g⟩)
          · exact Or.inl h
          · exact Or.inr ⟨a, b, c, d, s', by simp [e], g⟩
        · rintro (h | ⟨a, b, c, d, s', e, g⟩)
          · exact Or.inl h
          · rcases List.mem_cons.mp e with e | e
            · cases e; exact absurd ⟨a, rfl⟩ hc
            · exact Or.inr ⟨a, b, c, d, s', e, g⟩
    · rw [if_neg hl]
      obtain ⟨x', e2, w2, a2⟩ := ih h
      refine ⟨x', e2, w2, fun f' lang t r' d => ?_⟩
      rw [a2]
      constructor
      · rintro (h | ⟨a, b, c, d, s', e, g⟩)
        · exact Or.inl h
        · exact Or.inr ⟨a, b, c, d, s', by simp [e], g⟩
      · rintro (h | ⟨a, b, c, d, s', e, g⟩)
        · exact Or.inl h
        · rcases List.mem_cons.mp e with e | e
          · cases e; exact absurd d hl
          · exact Or.inr ⟨a, b, c, d, s', e, g⟩

theorem docLoop_remove (low : Char → Char) (f : Field) (doc : α) (r : RepoId) (l : Dict Str Str) :
    ∀ {x : Indices α}, IdxWF x →
    ∃ x', docLoop low removeDoc f doc r l x = .ok x' ∧ IdxWF x' ∧ ∀ f' lang t r' d,
      At (x' f' lang) t r' d ↔ At (x f' lang) t r' d ∧
        ¬ (f' = f ∧ r' = r ∧ d = doc ∧ lang ∈ langs ∧ ∃ s, (lang, s) ∈ l ∧ t ∈ preprocess low lang s) := by
  induction l with
  | nil => intro x h; exact ⟨x, rfl, h, by simp⟩
  | cons e l ih =>
    intro x h
    obtain ⟨lg, s⟩ := e
    unfold docLoop
    by_cases hl : lg ∈ langs
    · rw [if_pos hl]
      obtain ⟨i, e1, w1, a1⟩ := removeDoc_spec doc r (preprocess low lg s) (h f lg)
      rw [e1]
      obtain ⟨x', e2, w2, a2⟩ := ih (idxWF_set h f lg w1)
      refine ⟨x', e2, w2, fun f' lang t r' d => ?_⟩
      rw [a2]
      unfold Indices.set
      by_cases hc : f' = f ∧ lang = lg
      · obtain ⟨rfl, rfl⟩ := hc
        rw [if_pos ⟨rfl, rfl⟩, a1]
        constructor
        · rintro ⟨⟨h, n⟩, n'⟩
          refine ⟨h, ?_⟩
          rintro ⟨_, b, c, _, s', e, g⟩
          rcases List.mem_cons.mp e with e | e
          · cases e; exact n ⟨g, b, c⟩
          · exact n' ⟨rfl, b, c, hl, s', e, g⟩
        · rintro ⟨h, n⟩
          exact ⟨⟨h, fun ⟨a, b, c⟩ => n ⟨rfl, b, c, hl, s, by simp, a⟩⟩,
            fun ⟨a, b, c, d, s', e, g⟩ => n ⟨a, b, c, d, s', by simp [e], g⟩⟩
      · rw [if_neg hc]
        constructor
        · rintro ⟨h, n⟩
          refine ⟨h, ?_⟩
          rintro ⟨a, b, c, d, s', e, g⟩
          rcases List.mem_cons.mp e with e | e
          · cases e; exact hc ⟨a, rfl⟩
          · exact n ⟨a, b, c, d, s', e, g⟩
        · rintro ⟨h, n⟩
          exact ⟨h, fun ⟨a, b, c, d, s', e, g⟩ => n ⟨a, b, c, d, s', by simp [e], g⟩⟩
    · rw [if_neg hl]
      obtain ⟨x', e2, w2, a2⟩ := ih h
      refine ⟨x', e2, w2, fun f' lang t r' d => ?_⟩
      rw [a2]
      constructor
      · rintro ⟨h, n⟩
        refine ⟨h, ?_⟩
        rintro ⟨a, b, c, d, s', e, g⟩
        rcases List.mem_cons.mp e with e | e
        · cases e; exact hl d
        · exact n ⟨a, b, c, d, s', e, g⟩
      · rintro ⟨h, n⟩
        exact ⟨h, fun ⟨a, b, c, d, s', e, g⟩ => n ⟨a, b, c, d, s', by simp [e], g⟩⟩

/-- The description `m` is indexed in store `r` as document `d` under term `t`. -/
def Names (low : Char → Char) (m : Meta α) (r : RepoId) (f : Field) (lang t : Str) (r' : RepoId) (d : α) : Prop :=
  r' = r ∧ d = m.name ∧ lang ∈ langs ∧ Contains low m f lang t

theorem docLoops_add (low : Char → Char) (m : Meta α) (r : RepoId) {x : Indices α} (h : IdxWF x) :
    ∃ x', docLoops low addDoc m r x = .ok x' ∧ IdxWF x' ∧ ∀ f lang t r' d,
      At (x' f lang) t r' d ↔ At (x f lang) t r' d ∨ Names low m r f lang t r' d := by
  obtain ⟨x1, e1, w1, a1⟩ := docLoop_add low .summary m.name r m.summary h
  obtain ⟨x2, e2, w2, a2⟩ := docLoop_add low .description m.name r m.description w1
  refine ⟨x2, by unfold docLoops; rw [e1]; exact e2, w2, fun f lang t r' d => ?_⟩
  rw [a2, a1]
  unfold Names
  simp only [contains_iff]
  cases f with
  | summary => simp [texts]
  | description => simp [texts]

theorem docLoops_remove (low : Char → Char) (m : Meta α) (r : RepoId) {x : Indices α} (h : IdxWF x) :
    ∃ x', docLoops low removeDoc m r x = .ok x' ∧ IdxWF x' ∧ ∀ f lang t r' d,
      At (x' f lang) t r' d ↔ At (x f lang) t r' d ∧ ¬ Names low m r f lang t r' d := by
  obtain ⟨x1, e1, w1, a1⟩ := docLoop_remove low .summary m.name r m.summary h
  obtain ⟨x2, e2, w2, a2⟩ := docLoop_remove low .description m.name r m.description w1
  refine ⟨x2, by unfold docLoops; rw [e1]; exact e2, w2, fun f lang t r' d => ?_⟩
  rw [a2, a1]
  unfold Names
  simp only [contains_iff]
  cases f with
  | summary => simp [texts]
  | description => simp [texts]

theorem addPackageF_spec (low : Char → Char) (r : RepoId) (s : Full α) (m : Meta α) (h : IdxWF s.idx) :
    (∀ e, addPackage r s.stores m = .error e → addPackageF low r s m = .error e) ∧
    ∀ st, addPackage r s.stores m = .ok st → ∃ x', addPackageF low r s m = .ok ⟨st, x'⟩ ∧ IdxWF x' ∧
      ∀ f lang t r' d, At (x' f lang) t r' d ↔ At (s.idx f lang) t r' d ∨ Names low m r f lang t r' d := by
  obtain ⟨x', e1, w, a⟩ := docLoops_add low m r h
  refine ⟨fun e he => by unfold addPackageF; rw [he], fun st hs => ⟨x', by unfold addPackageF; rw [hs]; simp only [e1], w, a⟩⟩

theorem removePackageF_spec (low : Char → Char) (r : RepoId) (s : Full α) (name : α) (h : IdxWF s.idx) :
    (∀ e, removePackage r s.stores name = .error e → removePackageF low r s name = .error e) ∧
    ∀ st, removePackage r s.stores name = .ok st → ∃ m x', s.stores.pkg.cell name r = some m ∧
      removePackageF low r s name = .ok ⟨st, x'⟩ ∧ IdxWF x' ∧
      ∀ f lang t r' d, At (x' f lang) t r' d ↔ At (s.idx f lang) t r' d ∧ ¬ Names low m r f lang t r' d := by
  unfold removePackageF
  rw [getItem_one]
  cases hc : s.stores.pkg.cell name r with
  | none =>
    have := removePackage_absent s.stores r name hc
    simp only [this]
    exact ⟨fun e he => (by cases he; rfl), fun st hs => (by cases hs)⟩
  | some m =>
    simp only []
    obtain ⟨x', e1, w, a⟩ := docLoops_remove low m r h
    refine ⟨fun e he => by rw [he], fun st hs => ⟨m, x', rfl, by rw [hs]; simp only [e1], w, a⟩⟩

theorem addPackagesF_spec (low : Char → Char) (r : RepoId) (ms : List (Meta α)) : ∀ s : Full α, IdxWF s.idx →
    (∀ e, forM' (addPackage r) ms s.stores = .error e → forM' (addPackageF low r) ms s = .error e) ∧
    ∀ st, forM' (addPackage r) ms s.stores = .ok st → ∃ x', forM' (addPackageF low r) ms s = .ok ⟨st, x'⟩ ∧ IdxWF x' ∧
      ∀ f lang t r' d, At (x' f lang) t r' d ↔ At (s.idx f lang) t r' d ∨ ∃ m ∈ ms, Names low m r f lang t r' d := by
  induction ms with
  | nil =>
    intro s h
    refine ⟨fun e he => (by cases he), fun st hs => ?_⟩
    cases hs
    exact ⟨s.idx, rfl, h, by simp⟩
  | cons m ms ih =>
    intro s h
    obtain ⟨a1, a2⟩ := addPackageF_spec low r s m h
    unfold forM'
    cases hp : addPackage r s.stores m with
    | error e =>
      rw [a1 e hp]
      exact ⟨fun e he => (by cases he; rfl), fun st hs => (by cases hs)⟩
    | ok st =>
      obtain ⟨x1, e1, w1, at1⟩ := a2 st hp
      rw [e1]
      obtain ⟨b1, b2⟩ := ih ⟨st, x1⟩ w1
      refine ⟨fun e he => b1 e he, fun st' hs => ?_⟩
      obtain ⟨x2, e2, w2, at2⟩ := b2 st' hs
      refine ⟨x2, e2, w2, fun f lang t r' d => ?_⟩
      rw [at2, at1]
      simp only [List.mem_cons, exists_eq_or_imp, or_assoc]

theorem updateDbF_spec (low : Char → Char) (ix : Index α) (r : RepoId) (s : Full α) (h : IdxWF s.idx) :
    (∀ e, ix.updateDb r s.stores = .error e → updateDbF low ix r s = .error e) ∧
    ∀ st, ix.updateDb r s.stores = .ok st → ∃ x', updateDbF low ix r s = .ok ⟨st, x'⟩ ∧ IdxWF x' ∧
      ∀ f lang t r' d, At (x' f lang) t r' d ↔ At (s.idx f lang) t r' d ∨
        ∃ m ∈ ix.packages, Names low m r f lang t r' d := by
  unfold Index.updateDb updateDbF
  cases h1 : compRemoveRepo s.stores r with
  | error e => exact ⟨fun e he => (by cases he; rfl), fun st hs => (by cases hs)⟩
  | ok s1 =>
    simp only []
    cases h2 : forM' (fun c (x : α × Comp α) => updateComponent c x.1 x.2 r) ix.components s1.comp with
    | error e => exact ⟨fun e he => (by cases he; rfl), fun st hs => (by cases hs)⟩
    | ok c =>
      simp only []
      cases h3 : pkgRemoveRepo { s1 with comp := c } r with
      | error e => exact ⟨fun e he => (by cases he; rfl), fun st hs => (by cases hs)⟩
      | ok s2 =>
        simp only []
        obtain ⟨a1, a2⟩ := addPackagesF_spec low r ix.packages ⟨s2, s.idx⟩ h
        cases h4 : forM' (addPackage r) ix.packages s2 with
        | error e => rw [a1 e h4]; exact ⟨fun e he => (by cases he; rfl), fun st hs => (by cases hs)⟩
        | ok s3 =>
          obtain ⟨x', e1, w1, at1⟩ := a2 s3 h4
          rw [e1]
          simp only []
          cases h5 : srcRemoveRepo s3 r with
          | error e => exact ⟨fun e he => (by cases he; rfl), fun st hs => (by cases hs)⟩
          | ok s4 =>
            simp only []
            cases h6 : forM' (addSpec r) ix.specs s4 with
            | error e => exact ⟨fun e he => (by cases he; rfl), fun st hs => (by cases hs)⟩
            | ok s5 =>
              refine ⟨fun e he => (by cases he), fun st hs => ?_⟩
              cases hs
              exact ⟨x', rfl, w1, at1⟩

/-! ## The invariants -/

/-- Every described package is found under its words. -/
def Complete (low : Char → Char) (s : Full α) : Prop := ∀ p r m, s.stores.pkg.cell p r = some m →
  ∀ f lang t, lang ∈ langs → Contains low m f lang t → At (s.idx f lang) t r p

/-- Descriptions are stored under their names. -/
def Named (s : Full α) : Prop := ∀ p r m, s.stores.pkg.cell p r = some m → m.name = p

/-- What the index has in store `r` belongs to the package described there. -/
def SoundIn (low : Char → Char) (s : Full α) (r : RepoId) : Prop := ∀ p f lang t, At (s.idx f lang) t r p →
  ∃ m, s.stores.pkg.cell p r = some m ∧ lang ∈ langs ∧ Contains low m f lang t

structure OK (low : Char → Char) (s : Full α) : Prop where
  wf : s.stores.WF
  idx : IdxWF s.idx
  named : Named s
  complete : Complete low s

theorem ok_add {low : Char → Char} {s : Full α} (h : OK low s) {r : RepoId} {m : Meta α} {st : Stores α}
    (hs : addPackage r s.stores m = .ok st) : ∃ x', addPackageF low r s m = .ok ⟨st, x'⟩ ∧ OK low ⟨st, x'⟩ ∧
      (∀ q, SoundIn low s q → (q = r → s.stores.pkg.cell m.name r = none) → SoundIn low ⟨st, x'⟩ q) ∧
      ∀ f lang t r' d, At (x' f lang) t r' d → At (s.idx f lang) t r' d ∨ Names low m r f lang t r' d := by
  obtain ⟨x', e, w, a⟩ := (addPackageF_spec low r s m h.idx).2 st hs
  obtain ⟨w1, o1, _, _, c1, _⟩ := (addPackage_spec h.wf r m).2 st hs
  refine ⟨x', e, ⟨w1, w, ?_, ?_⟩, ?_, fun f lang t r' d hx => (a f lang t r' d).mp hx⟩
  · intro p q m' hc
    by_cases hq : q = r
    · subst hq
      simp only [] at hc
      rw [c1] at hc
      by_cases hp : p = m.name
      · rw [if_pos hp] at hc; cases hc; exact hp.symm
      · rw [if_neg hp] at hc; exact h.named p q m' hc
    · simp only [] at hc
      rw [o1.pkg p q hq] at hc; exact h.named p q m' hc
  · intro p q m' hc f lang t hl ht
    simp only [] at hc ⊢
    rw [a]
    by_cases hq : q = r
    · subst hq
      rw [c1] at hc
      by_cases hp : p = m.name
      · rw [if_pos hp] at hc; cases hc; exact Or.inr ⟨rfl, hp, hl, ht⟩
      · rw [if_neg hp] at hc; exact Or.inl (h.complete p q m' hc f lang t hl ht)
    · rw [o1.pkg p q hq] at hc; exact Or.inl (h.complete p q m' hc f lang t hl ht)
  · intro q hsnd hfresh p f lang t ht
    simp only [] at ht ⊢
    rw [a] at ht
    rcases ht with ht | ⟨rfl, rfl, hl, hcn⟩
    · obtain ⟨m', hc, hl, hcn⟩ := hsnd p f lang t ht
      refine ⟨m', ?_, hl, hcn⟩
      by_cases hq : q = r
      · subst hq
        rw [c1, if_neg, hc]
        rintro rfl
        rw [hfresh rfl] at hc; cases hc
      · rw [o1.pkg p q hq]; exact hc
    · exact ⟨m, by rw [c1, if_pos rfl], hl, hcn⟩

theorem removePackage_cells {s st : Stores α} (h : s.WF) (r : RepoId) (name : α) (m : Meta α)
    (hm : s.pkg.cell name r = some m) (hr : removePackage r s name = .ok st) :
    st.WF ∧ s.SameOff r st ∧ ∀ n, st.pkg.cell n r = if n = name then none else s.pkg.cell n r := by
  obtain ⟨w, o, _, _, c, _⟩ := removePackage_spec h r name m hm hr
  exact ⟨w, o, c⟩

theorem ok_remove {low : Char → Char} {s : Full α} (h : OK low s) {r : RepoId} {name : α} {st : Stores α}
    (hs : removePackage r s.stores name = .ok st) : ∃ x', removePackageF low r s name = .ok ⟨st, x'⟩ ∧ OK low ⟨st, x'⟩ ∧
      (∀ q, SoundIn low s q → SoundIn low ⟨st, x'⟩ q) ∧
      ∀ f lang t r' d, At (x' f lang) t r' d → At (s.idx f lang) t r' d := by
  obtain ⟨m, x', hm, e, w, a⟩ := (removePackageF_spec low r s name h.idx).2 st hs
  obtain ⟨w1, o1, c1⟩ := removePackage_cells h.wf r name m hm hs
  have hn := h.named name r m hm
  refine ⟨x', e, ⟨w1, w, ?_, ?_⟩, ?_, fun f lang t r' d hx => ((a f lang t r' d).mp hx).1⟩
  · intro p q m' hc
    simp only [] at hc
    by_cases hq : q = r
    · subst hq
      rw [c1] at hc
      by_cases hp : p = name
      · rw [if_pos hp] at hc; cases hc
      · rw [if_neg hp] at hc; exact h.named p q m' hc
    · rw [o1.pkg p q hq] at hc; exact h.named p q m' hc
  · intro p q m' hc f lang t hl ht
    simp only [] at hc ⊢
    rw [a]
    by_cases hq : q = r
    · subst hq
      rw [c1] at hc
      by_cases hp : p = name
      · rw [if_pos hp] at hc; cases hc
      · rw [if_neg hp] at hc
        exact ⟨h.complete p q m' hc f lang t hl ht, fun ⟨_, e, _⟩ => hp (e.trans hn)⟩
    · rw [o1.pkg p q hq] at hc
      exact ⟨h.complete p q m' hc f lang t hl ht, fun ⟨e, _⟩ => hq e⟩
  · intro q hsnd p f lang t ht
    simp only [] at ht ⊢
    rw [a] at ht
    obtain ⟨m', hc, hl, hcn⟩ := hsnd p f lang t ht.1
    refine ⟨m', ?_, hl, hcn⟩
    by_cases hq : q = r
    · subst hq
      rw [c1, if_neg, hc]
      rintro rfl
      rw [hm] at hc
      cases hc
      exact ht.2 ⟨rfl, hn.symm, hl, hcn⟩
    · rw [o1.pkg p q hq]; exact hc

/-- One of the two tests of `remove_tracking_package`. -/
theorem ok_untrackOne {low : Char → Char} {s : Full α} (h : OK low s) {r : RepoId} {name : α} :
    (∀ e, (if s.stores.pkg.hasKey name (.one r) then removePackage r s.stores name else .ok s.stores) = .error e →
      (if s.stores.pkg.hasKey name (.one r) then removePackageF low r s name else .ok s) = .error e) ∧
    ∀ st, (if s.stores.pkg.hasKey name (.one r) then removePackage r s.stores name else .ok s.stores) = .ok st →
      ∃ x', (if s.stores.pkg.hasKey name (.one r) then removePackageF low r s name else .ok s) = .ok ⟨st, x'⟩ ∧
      OK low ⟨st, x'⟩ ∧ (∀ q, SoundIn low s q → SoundIn low ⟨st, x'⟩ q) ∧
      ∀ f lang t r' d, At (x' f lang) t r' d → At (s.idx f lang) t r' d := by
  by_cases hk : s.stores.pkg.hasKey name (.one r) = true
  · simp only [hk, if_true]
    exact ⟨(removePackageF_spec low r s name h.idx).1, fun st hs => ok_remove h hs⟩
  · simp only [hk]
    refine ⟨fun e he => (by cases he), fun st hs => ?_⟩
    cases hs
    exact ⟨s.idx, rfl, h, fun _ hq => hq, fun _ _ _ _ _ hx => hx⟩

theorem ok_untrack {low : Char → Char} {s : Full α} (h : OK low s) (name : α) :
    (∀ e, removeTracking s.stores name = .error e → removeTrackingF low s name = .error e) ∧
    ∀ st, removeTracking s.stores name = .ok st →
      ∃ x', removeTrackingF low s name = .ok ⟨st, x'⟩ ∧
      OK low ⟨st, x'⟩ ∧ (∀ q, SoundIn low s q → SoundIn low ⟨st, x'⟩ q) ∧
      ∀ f lang t r' d, At (x' f lang) t r' d → At (s.idx f lang) t r' d := by
  unfold removeTracking removeTrackingF
  simp only []
  obtain ⟨a1, a2⟩ := ok_untrackOne h (r := .installed) (name := name)
  cases h1 : (if s.stores.pkg.hasKey name (.one .installed) then removePackage .installed s.stores name
      else .ok s.stores) with
  | error e =>
    rw [a1 e h1]
    exact ⟨fun e he => (by cases he; rfl), fun st hs => (by cases hs)⟩
  | ok s1 =>
    obtain ⟨x1, e1, o1, k1, m1⟩ := a2 s1 h1
    rw [e1]
    simp only []
    obtain ⟨b1, b2⟩ := ok_untrackOne o1 (r := .thirdparty) (name := name)
    refine ⟨b1, fun st hs => ?_⟩
    obtain ⟨x2, e2, o2, k2, m2⟩ := b2 st hs
    exact ⟨x2, e2, o2, fun q hq => k2 q (k1 q hq), fun f lang t r' d hx => m1 f lang t r' d (m2 f lang t r' d hx)⟩

theorem ok_update {low : Char → Char} {s : Full α} (h : OK low s) {ix : Index α} {r : RepoId} {st : Stores α}
    (hs : ix.updateDb r s.stores = .ok st) : ∃ x', updateDbF low ix r s = .ok ⟨st, x'⟩ ∧ OK low ⟨st, x'⟩ ∧
      (∀ q, q ≠ r → SoundIn low s q → SoundIn low ⟨st, x'⟩ q) ∧
      ∀ f lang t r' d, At (x' f lang) t r' d →
        At (s.idx f lang) t r' d ∨ ∃ m ∈ ix.packages, Names low m r f lang t r' d := by
  obtain ⟨x', e, w, a⟩ := (updateDbF_spec low ix r s h.idx).2 st hs
  obtain ⟨w1, o1, c1, c2, _⟩ := (updateDb_spec h.wf ix r).2 st hs
  have cell : ∀ p m, st.pkg.cell p r = some m → m ∈ ix.packages ∧ m.name = p := by
    intro p m hc
    rcases last_named_exists Meta.name ix.packages p with hn | ⟨m', hm'⟩
    · rw [c2 p hn] at hc; cases hc
    · have := c1 p m' hm'
      rw [hc] at this; cases this
      obtain ⟨l1, l2, e, hn, _⟩ := hm'
      exact ⟨by rw [e]; simp, hn⟩
  refine ⟨x', e, ⟨w1, w, ?_, ?_⟩, ?_, fun f lang t r' d hx => (a f lang t r' d).mp hx⟩
  · intro p q m hc
    simp only [] at hc
    by_cases hq : q = r
    · subst hq; exact (cell p m hc).2
    · rw [o1.pkg p q hq] at hc; exact h.named p q m hc
  · intro p q m hc f lang t hl ht
    simp only [] at hc ⊢
    rw [a]
    by_cases hq : q = r
    · subst hq
      obtain ⟨hm, hn⟩ := cell p m hc
      exact Or.inr ⟨m, hm, rfl, hn.symm, hl, ht⟩
    · rw [o1.pkg p q hq] at hc
      exact Or.inl (h.complete p q m hc f lang t hl ht)
  · intro q hq hsnd p f lang t ht
    simp only [] at ht ⊢
    rw [a] at ht
    rcases ht with ht | ⟨m, _, e, _⟩
    · rw [o1.pkg p q hq]; exact hsnd p f lang t ht
    · exact absurd e hq

theorem ok_nil (low : Char → Char) : OK low ({} : Full α) :=
  ⟨stores_wf_nil, fun _ _ => wf_nil, fun p r m h => by simp [cell_nil] at h, fun p r m h => by simp [cell_nil] at h⟩

/-! ## Histories -/

/-- The indices change nothing about the databases. -/
theorem full_step {low : Char → Char} (y : FullSystem α ρ) {l : List Str} (hy : SysOK ⟨y.repos, y.full.stores⟩ l)
    (h : OK low y.full) (o : SysOp α ρ) :
    ⟨(fullStep low y o).repos, (fullStep low y o).full.stores⟩ = SysOp.step ⟨y.repos, y.full.stores⟩ o ∧
    OK low (fullStep low y o).full ∧
    (∀ q, SoundIn low y.full q → (∀ n, q ≠ .repo n) →
      (∀ r m, o = .track r m → q = r → y.full.stores.pkg.cell m.name r = none) → SoundIn low (fullStep low y o).full q) ∧
    (∀ f lang t r d, At ((fullStep low y o).full.idx f lang) t r d → At (y.full.idx f lang) t r d ∨
      (∃ m, o = .track r m ∧ m.name = d) ∨ ∃ n ix m, o = .updateRepo n ix ∧ r = .repo n ∧ m ∈ ix.packages ∧ m.name = d) := by
  cases o with
  | addRepo n x pos =>
    simp only [fullStep, SysOp.step]
    cases y.repos.addRepo n x pos with
    | error e => exact ⟨rfl, h, fun _ hq _ _ => hq, fun _ _ _ _ _ hx => Or.inl hx⟩
    | ok d => exact ⟨rfl, h, fun _ hq _ _ => hq, fun _ _ _ _ _ hx => Or.inl hx⟩
  | removeRepo n =>
    simp only [fullStep, SysOp.step]
    rcases removeRepo_sys hy n with ⟨e, _⟩ | ⟨_, y', e, hs, o1, _⟩
    · rw [e]; exact ⟨rfl, h, fun _ hq _ _ => hq, fun _ _ _ _ _ hx => Or.inl hx⟩
    · rw [e]
      simp only []
      have hsub : ∀ p q m, y'.stores.pkg.cell p q = some m → y.full.stores.pkg.cell p q = some m := by
        intro p q m hc
        by_cases hq : q = .repo n
        · subst hq
          have hl := hs.pkg p n (by rw [hc]; rfl)
          exact absurd hl (by
            intro hm
            exact ((hy.repos.nodup.mem_erase_iff).mp hm).1 rfl)
        · rw [o1.pkg p q hq] at hc; exact hc
      refine ⟨trivial, ⟨hs.wf, h.idx, fun p q m hc => h.named p q m (hsub p q m hc),
        fun p q m hc => h.complete p q m (hsub p q m hc)⟩, ?_, fun _ _ _ _ _ hx => Or.inl hx⟩
      intro q hsnd hq _ p f lang t ht
      obtain ⟨m, hc, hr⟩ := hsnd p f lang t ht
      refine ⟨m, ?_, hr⟩
      simp only []
      rw [o1.pkg p q (hq n)]; exact hc
  | updateRepo n ix =>
    simp only [fullStep, SysOp.step, System.updateRepo]
    by_cases hh : y.repos.hasRepo n = true
    · simp only [hh, if_true]
      cases hu : ix.updateDb (.repo n) y.full.stores with
      | error e =>
        rw [(updateDbF_spec low ix (.repo n) y.full h.idx).1 e hu]
        exact ⟨rfl, h, fun _ hq _ _ => hq, fun _ _ _ _ _ hx => Or.inl hx⟩
      | ok st =>
        obtain ⟨x', e, o1, k, at1⟩ := ok_update h hu
        rw [e]
        refine ⟨rfl, o1, fun q hq hn _ => k q (hn n) hq, fun f lang t r d hx => ?_⟩
        rcases at1 f lang t r d hx with hx | ⟨m, hm, hr, hd, _⟩
        · exact Or.inl hx
        · exact Or.inr (Or.inr ⟨n, ix, m, rfl, hr, hm, hd.symm⟩)
    · simp only [hh]
      exact ⟨rfl, h, fun _ hq _ _ => hq, fun _ _ _ _ _ hx => Or.inl hx⟩
  | track r m =>
    have go : (∀ n, r ≠ .repo n) → 
      (⟨(match addPackageF low r y.full m with
        | .ok s => { y with full := s }
        | .error _ => y).repos, (match addPackageF low r y.full m with
        | .ok s => { y with full := s }
        | .error _ => y).full.stores⟩ : System α ρ) = (match addPackage r y.full.stores m with
        | .ok s => ⟨y.repos, s⟩
        | .error _ => ⟨y.repos, y.full.stores⟩) ∧
      OK low (match addPackageF low r y.full m with
        | .ok s => { y with full := s }
        | .error _ => y).full ∧
      (∀ q, SoundIn low y.full q → (∀ n, q ≠ .repo n) →
        (∀ r' m', SysOp.track r m = (SysOp.track r' m' : SysOp α ρ) → q = r' → y.full.stores.pkg.cell m'.name r' = none) →
        SoundIn low (match addPackageF low r y.full m with
          | .ok s => { y with full := s }
          | .error _ => y).full q) ∧
      (∀ f lang t r' d, At ((match addPackageF low r y.full m with
          | .ok s => { y with full := s }
          | .error _ => y).full.idx f lang) t r' d → At (y.full.idx f lang) t r' d ∨
        (∃ m', SysOp.track r m = (SysOp.track r' m' : SysOp α ρ) ∧ m'.name = d) ∨
        ∃ n ix m', SysOp.track r m = (SysOp.updateRepo n ix : SysOp α ρ) ∧ r' = .repo n ∧ m' ∈ ix.packages ∧ m'.name = d) := by
      intro _
      cases ha : addPackage r y.full.stores m with
      | error e =>
        rw [(addPackageF_spec low r y.full m h.idx).1 e ha]
        exact ⟨rfl, h, fun _ hq _ _ => hq, fun _ _ _ _ _ hx => Or.inl hx⟩
      | ok st =>
        obtain ⟨x', e, o1, k, at1⟩ := ok_add h ha
        rw [e]
        refine ⟨rfl, o1, fun q hq _ hf => k q hq (fun e => hf r m rfl e), fun f lang t r' d hx => ?_⟩
        rcases at1 f lang t r' d hx with hx | ⟨hr, hd, _⟩
        · exact Or.inl hx
        · exact Or.inr (Or.inl ⟨m, by rw [hr], hd.symm⟩)
    cases r with
    | repo n => exact ⟨rfl, h, fun _ hq _ _ => hq, fun _ _ _ _ _ hx => Or.inl hx⟩
    | thirdparty => exact go (by simp)
    | installed => exact go (by simp)
  | untrack name =>
    simp only [fullStep, SysOp.step]
    obtain ⟨a1, a2⟩ := ok_untrack h name
    cases ha : removeTracking y.full.stores name with
    | error e => rw [a1 e ha]; exact ⟨rfl, h, fun _ hq _ _ => hq, fun _ _ _ _ _ hx => Or.inl hx⟩
    | ok st =>
      obtain ⟨x', e, o1, k, m1⟩ := a2 st ha
      rw [e]
      exact ⟨rfl, o1, fun q hq _ _ => k q hq, fun f lang t r d hx => Or.inl (m1 f lang t r d hx)⟩

theorem full_run_snoc (low : Char → Char) (ops : List (SysOp α ρ)) (o : SysOp α ρ) :
    fullRun low (ops ++ [o]) = fullStep low (fullRun low ops) o := by simp [fullRun]

/-- The databases of a history with indices are those of the history without. -/
theorem full_run (low : Char → Char) (ops : List (SysOp α ρ)) :
    (⟨(fullRun low ops).repos, (fullRun low ops).full.stores⟩ : System α ρ) = SysOp.run ops ∧
    OK low (fullRun low ops).full := by
  induction ops using snoc_induction with
  | h0 => exact ⟨rfl, ok_nil low⟩
  | hs ops o ih =>
    obtain ⟨l, hl⟩ := sys_run ops
    rw [← ih.1] at hl
    obtain ⟨a, b, _⟩ := full_step _ hl ih.2 o
    rw [full_run_snoc]
    refine ⟨?_, b⟩
    rw [a, ih.1]; simp [SysOp.run]

/-- No package is recorded in a tracking store that has a record of it: an installation over an installed package removes the
old record first (pisi/op/install.py:334-335). -/
def FreshTrack (ops : List (SysOp α ρ)) : Prop := ∀ pre r m post, ops = pre ++ .track r m :: post →
  ¬ ∃ m', Has (SysOp.run pre).stores r m.name m'

/-- The history reads no index. -/
def NoUpdates (ops : List (SysOp α ρ)) : Prop := ∀ n ix, SysOp.updateRepo n ix ∉ ops

theorem fresh_init {ops : List (SysOp α ρ)} {o : SysOp α ρ} (h : FreshTrack (ops ++ [o])) : FreshTrack ops :=
  fun pre r m post e => h pre r m (post ++ [o]) (by rw [e]; simp)

/-- The tracking stores are indexed exactly. -/
theorem sound_tracking (low : Char → Char) (ops : List (SysOp α ρ)) (hf : FreshTrack ops) (q : RepoId)
    (hq : ∀ n, q ≠ .repo n) : SoundIn low (fullRun low ops).full q := by
  induction ops using snoc_induction with
  | h0 => intro p f lang t ht; obtain ⟨l, e, _⟩ := ht; simp [fullRun, cell_nil] at e
  | hs ops o ih =>
    obtain ⟨l, hl⟩ := sys_run ops
    have hr := full_run low ops
    rw [← hr.1] at hl
    rw [full_run_snoc]
    refine (full_step _ hl hr.2 o).2.2.1 q (ih (fresh_init hf)) hq ?_
    rintro r m rfl rfl
    have := hf ops q m [] rfl
    rw [← hr.1] at this
    cases hc : (fullRun low ops).full.stores.pkg.cell m.name q with
    | none => rfl
    | some m' => exact absurd ⟨m', (has_iff_cell _ _ _ _).mpr hc⟩ this

/-- What is indexed in a repository was in an index of it. -/
theorem origin_repo (low : Char → Char) (ops : List (SysOp α ρ)) (n : Str) (f : Field) (lang t : Str) (d : α)
    (h : At ((fullRun low ops).full.idx f lang) t (.repo n) d) :
    (∃ ix m, SysOp.updateRepo n ix ∈ ops ∧ m ∈ ix.packages ∧ m.name = d) := by
  induction ops using snoc_induction with
  | h0 => obtain ⟨l, e, _⟩ := h; simp [fullRun, cell_nil] at e
  | hs ops o ih =>
    obtain ⟨l, hl⟩ := sys_run ops
    have hr := full_run low ops
    rw [← hr.1] at hl
    rw [full_run_snoc] at h
    rcases (full_step _ hl hr.2 o).2.2.2 f lang t (.repo n) d h with h | ⟨m, e, _⟩ | ⟨n', ix, m, e, hn, hm, hd⟩
    · obtain ⟨ix, m, a, b, c⟩ := ih h
      exact ⟨ix, m, by simp [a], b, c⟩
    · subst e
      have : fullStep low (fullRun low ops) (.track (.repo n) m) = fullRun low ops := rfl
      rw [this] at h
      obtain ⟨ix, m, a, b, c⟩ := ih h
      exact ⟨ix, m, by simp [a], b, c⟩
    · cases hn
      exact ⟨ix, m, by simp [e], hm, hd⟩

/-! ## Searches -/

theorem substr_iff (q s : Str) : substr q s = true ↔ ∃ a b, s = a ++ q ++ b := by
  induction s with
  | nil =>
    unfold substr
    constructor
    · intro h; exact ⟨[], [], by simpa using h.symm⟩
    · rintro ⟨a, b, h⟩
      have := congrArg List.length h
      simp at this
      have hq : q.length = 0 := by omega
      simp [List.length_eq_zero_iff.mp hq]
  | cons c t ih =>
    unfold substr
    rw [Bool.or_eq_true, ih, List.isPrefixOf_iff_prefix]
    constructor
    · rintro (⟨b, h⟩ | ⟨a, b, h⟩)
      · exact ⟨[], b, by simpa using h.symm⟩
      · exact ⟨c :: a, b, by simp [h]⟩
    · rintro ⟨a, b, h⟩
      cases a with
      | nil => left; exact ⟨b, by simpa using h.symm⟩
      | cons x a => right; simp at h; exact ⟨a, b, by simpa using h.2⟩

/-- What `query_terms` finds. -/
def Found (x : Indices Str) (low : Char → Char) (rl : List Str) (f : Field) (lang : Str) (terms : List Str) (q : Query)
    (p : Str) : Prop :=
  terms ≠ [] ∧ ∀ t ∈ terms, ∃ r, Active rl q r ∧ At (x f lang) (lower low lang t) r p

theorem queryTerms_spec (low : Char → Char) (x : Indices Str) (rl : List Str) (f : Field) (lang : Str) (hl : lang ∈ langs)
    (terms : List Str) (q : Query) (hq : ∀ r, q ≠ .one r) :
    ∃ l, queryTerms low x rl f lang terms q = .ok l ∧ ∀ p, p ∈ l ↔ Found x low rl f lang terms q p := by
  obtain ⟨l, e, h⟩ := query_spec (x f lang) rl q hq (terms.map (lower low lang))
  refine ⟨l, by unfold queryTerms; rw [if_pos hl, e], fun p => ?_⟩
  rw [h]
  unfold Found
  simp

theorem searchTerms_spec (low : Char → Char) (y : Full Str) (rl : List Str) (lang : Str) (hl : lang ∈ langs)
    (terms : List Str) (names : Bool) (q : Query) (hq : ∀ r, q ≠ .one r) :
    ∃ l, searchTerms low y rl terms lang names q = .ok l ∧ ∀ p, p ∈ l ↔ (∃ f, Found y.idx low rl f lang terms q p) ∨
      (names = true ∧ ∃ t ∈ terms, p ∈ searchNames y.stores t) := by
  obtain ⟨l1, e1, h1⟩ := queryTerms_spec low y.idx rl .summary lang hl terms q hq
  obtain ⟨l2, e2, h2⟩ := queryTerms_spec low y.idx rl .description lang hl terms q hq
  refine ⟨_, by unfold searchTerms; rw [e1]; simp only []; rw [e2], fun p => ?_⟩
  rw [List.mem_append, List.mem_append, h1, h2]
  constructor
  · rintro ((h | h) | h)
    · exact Or.inl ⟨_, h⟩
    · exact Or.inl ⟨_, h⟩
    · cases names with
      | false => simp at h
      | true => simp at h; exact Or.inr ⟨rfl, h⟩
  · rintro (⟨f, h⟩ | ⟨rfl, h⟩)
    · cases f with
      | summary => exact Or.inl (Or.inl h)
      | description => exact Or.inl (Or.inr h)
    · right; simpa using h

/-- A search fails in a language that is not indexed. -/
theorem search_language (low : Char → Char) (y : Full Str) (rl terms : List Str) (lang : Str) (names : Bool) (q : Query)
    (hl : lang ∉ langs) : searchTerms low y rl terms lang names q = .error .key := by
  unfold searchTerms queryTerms
  rw [if_neg hl]

/-- The command line always asks for an indexed language. -/
theorem cli_language (l : Str) : cliLang l ∈ langs := by
  unfold cliLang
  by_cases h : l ∈ langs
  · rw [if_pos h]; exact h
  · rw [if_neg h]; simp [langs]

theorem list_repos_exists {ν : Type} {d : ItemDB Str ν} (h : d.WF) {n : Str} (hn : n ∈ d.list .repos) :
    ∃ r v, d.cell n r = some v := by
  unfold ItemDB.list at hn
  obtain ⟨⟨k, s⟩, he, rfl⟩ := List.mem_map.mp hn
  have hg := (Dict.mem_iff_get h.uniq k s).mp (List.mem_filter.mp he).1
  obtain ⟨hu, hne⟩ := h.inner k s hg
  cases s with
  | nil => exact absurd rfl hne
  | cons e s =>
    obtain ⟨r, v⟩ := e
    refine ⟨r, v, ?_⟩
    unfold ItemDB.cell
    simp only []
    rw [hg, Option.bind_some]
    exact (Dict.mem_iff_get hu r v).mp (by simp)

/-- **C40**, full statement: every result of a search exists. -/
def SearchFull : Prop := ∀ (low : Char → Char) (ops : List (SysOp Str Unit)) (rl terms : List Str) (lang : Str)
  (names : Bool) (l : List Str), searchTerms low (fullRun low ops).full rl terms lang names .alldb = .ok l →
  ∀ p ∈ l, ∃ r m, Has (fullRun low ops).full.stores r p m

/-- A package with an English summary. -/
def mText (name : Str) (s : Str) : Meta Str :=
  { name := name, info := { version := ['1'], release := ['1'] }, partOf := some ['c'], summary := [(['e', 'n'], s)] }

/-- **C40.** A package that was dropped from its repository is still found. -/
theorem search_refuted : ¬ SearchFull := by
  intro h
  have e : searchTerms id (fullRun id ([.addRepo ['r'] () none,
      .updateRepo ['r'] { packages := [mText ['p'] ['x']] }, .updateRepo ['r'] {}] : List (SysOp Str Unit))).full
      [['r']] [['x']] ['e', 'n'] false .alldb = .ok [['p']] := by rfl
  obtain ⟨r, m, hm⟩ := h id _ [['r']] [['x']] ['e', 'n'] false _ e ['p'] (by simp)
  have : (fullRun id ([.addRepo ['r'] () none,
      .updateRepo ['r'] { packages := [mText ['p'] ['x']] }, .updateRepo ['r'] {}] : List (SysOp Str Unit))).full.stores.pkg
      = [] := by rfl
  rw [has_iff_cell, this] at hm
  simp [cell_nil] at hm

/-- **C40.** In general: every result of a search exists, or was named in an index of a repository that has been read. -/
theorem search_origin (low : Char → Char) (ops : List (SysOp Str ρ)) (hf : FreshTrack ops) (rl terms : List Str) (lang : Str)
    (hl : lang ∈ langs) (names : Bool) (q : Query) (hq : ∀ r, q ≠ .one r) (l : List Str)
    (hs : searchTerms low (fullRun low ops).full rl terms lang names q = .ok l) (p : Str) (hp : p ∈ l) :
    (∃ r m, Has (fullRun low ops).full.stores r p m) ∨
    ∃ n ix m, SysOp.updateRepo n ix ∈ ops ∧ m ∈ ix.packages ∧ m.name = p := by
  obtain ⟨l', e, h⟩ := searchTerms_spec low (fullRun low ops).full rl lang hl terms names q hq
  rw [hs] at e; cases e
  rcases (h p).mp hp with ⟨f, hne, hfd⟩ | ⟨_, t, _, ht⟩
  · obtain ⟨t, ht⟩ := List.exists_mem_of_ne_nil _ hne
    obtain ⟨r, _, ha⟩ := hfd t ht
    have trk : (∀ n, r ≠ .repo n) → ∃ r m, Has (fullRun low ops).full.stores r p m := by
      intro hr
      obtain ⟨m, hc, _⟩ := sound_tracking low ops hf r hr p f lang _ ha
      exact ⟨r, m, (has_iff_cell _ _ _ _).mpr hc⟩
    cases r with
    | repo n =>
      obtain ⟨ix, m, a, b, c⟩ := origin_repo low ops n f lang _ p ha
      exact Or.inr ⟨n, ix, m, a, b, c⟩
    | thirdparty => exact Or.inl (trk (by simp))
    | installed => exact Or.inl (trk (by simp))
  · left
    obtain ⟨hm, _⟩ := List.mem_filter.mp ht
    obtain ⟨r, m, hc⟩ := list_repos_exists (full_run low ops).2.wf.pkg hm
    exact ⟨r, m, (has_iff_cell _ _ _ _).mpr hc⟩

/-- **C40**, partial: when no index has been read.  Missing: repositories (`search_refuted`); there `search_origin` holds. -/
theorem search_exists_partial (low : Char → Char) (ops : List (SysOp Str ρ)) (hf : FreshTrack ops) (hn : NoUpdates ops)
    (rl terms : List Str) (lang : Str) (hl : lang ∈ langs) (names : Bool) (q : Query) (hq : ∀ r, q ≠ .one r) (l : List Str)
    (hs : searchTerms low (fullRun low ops).full rl terms lang names q = .ok l) (p : Str) (hp : p ∈ l) :
    ∃ r m, Has (fullRun low ops).full.stores r p m := by
  rcases search_origin low ops hf rl terms lang hl names q hq l hs p hp with h | ⟨n, ix, m, h, _⟩
  · exact h
  · exact absurd h (hn n ix)

/-- **C40.** In the other direction there is no restriction: in every state a search finds the packages described in an active
store with all the terms in one field. -/
theorem search_finds (low : Char → Char) (ops : List (SysOp Str ρ)) (rl terms : List Str) (lang : Str)
    (hl : lang ∈ langs) (names : Bool) (q : Query) (hq : ∀ r, q ≠ .one r) (r : RepoId) (hr : Active rl q r) (p : Str)
    (m : Meta Str) (hm : Has (fullRun low ops).full.stores r p m) (f : Field) (hne : terms ≠ [])
    (ht : ∀ t ∈ terms, Contains low m f lang (lower low lang t)) :
    ∃ l, searchTerms low (fullRun low ops).full rl terms lang names q = .ok l ∧ p ∈ l := by
  obtain ⟨l, e, h⟩ := searchTerms_spec low (fullRun low ops).full rl lang hl terms names q hq
  refine ⟨l, e, (h p).mpr (Or.inl ⟨f, hne, fun t hm' => ⟨r, hr, ?_⟩⟩)⟩
  exact (full_run low ops).2.complete p r m ((has_iff_cell _ _ _ _).mp hm) f lang _ hl (ht t hm')

/-- **C40.** Without indices a search finds exactly the packages it should. -/
theorem search_exact_partial (low : Char → Char) (ops : List (SysOp Str ρ)) (hf : FreshTrack ops) (hn : NoUpdates ops)
    (rl terms : List Str) (lang : Str) (hl : lang ∈ langs) (names : Bool) (q : Query) (hq : ∀ r, q ≠ .one r) :
    ∃ l, searchTerms low (fullRun low ops).full rl terms lang names q = .ok l ∧ ∀ p, p ∈ l ↔
      (terms ≠ [] ∧ ∃ f, ∀ t ∈ terms, ∃ r m, Active rl q r ∧ Has (fullRun low ops).full.stores r p m ∧
        Contains low m f lang (lower low lang t)) ∨
      (names = true ∧ p ∈ (fullRun low ops).full.stores.pkg.list .repos ∧ ∃ t ∈ terms, ∃ a b, p = a ++ t ++ b) := by
  obtain ⟨l, e, h⟩ := searchTerms_spec low (fullRun low ops).full rl lang hl terms names q hq
  refine ⟨l, e, fun p => ?_⟩
  rw [h]
  have hat : ∀ f t r, At ((fullRun low ops).full.idx f lang) t r p ↔
      ∃ m, Has (fullRun low ops).full.stores r p m ∧ Contains low m f lang t := by
    intro f t r
    constructor
    · intro ha
      have trk : (∀ n, r ≠ .repo n) → ∃ m, Has (fullRun low ops).full.stores r p m ∧ Contains low m f lang t := by
        intro hr
        obtain ⟨m, hc, _, hcn⟩ := sound_tracking low ops hf r hr p f lang _ ha
        exact ⟨m, (has_iff_cell _ _ _ _).mpr hc, hcn⟩
      cases r with
      | repo n =>
        obtain ⟨ix, m, a, _⟩ := origin_repo low ops n f lang _ p ha
        exact absurd a (hn n ix)
      | thirdparty => exact trk (by simp)
      | installed => exact trk (by simp)
    · rintro ⟨m, hm, hc⟩
      exact (full_run low ops).2.complete p r m ((has_iff_cell _ _ _ _).mp hm) f lang t hl hc
  have hnames : (∃ t ∈ terms, p ∈ searchNames (fullRun low ops).full.stores t) ↔
      (p ∈ (fullRun low ops).full.stores.pkg.list .repos ∧ ∃ t ∈ terms, ∃ a b, p = a ++ t ++ b) := by
    unfold searchNames
    simp only [List.mem_filter, substr_iff]
    constructor
    · rintro ⟨t, ht, hp, hs⟩; exact ⟨hp, t, ht, hs⟩
    · rintro ⟨hp, t, ht, hs⟩; exact ⟨t, ht, hp, hs⟩
  rw [hnames]
  unfold Found
  simp only [hat]
  constructor
  · rintro (⟨f, hne, h⟩ | h)
    · exact Or.inl ⟨hne, f, fun t ht => by obtain ⟨r, a, m, b, c⟩ := h t ht; exact ⟨r, m, a, b, c⟩⟩
    · exact Or.inr h
  · rintro (⟨hne, f, h⟩ | h)
    · exact Or.inl ⟨f, hne, fun t ht => by obtain ⟨r, m, a, b, c⟩ := h t ht; exact ⟨r, a, m, b, c⟩⟩
    · exact Or.inr h

/-- **C40.** A search for a text is a search for its words, together with the packages whose name contains the text. -/
theorem search_package_exact (low : Char → Char) (hlow : ∀ c, low (low c) = low c) (y : Full Str) (rl : List Str) (str : Str)
    (ws : List Str) (hw : Words isSep str ws) (lang : Str) (hl : lang ∈ langs) (names : Bool) (q : Query) (hq : ∀ r, q ≠ .one r) :
    ∃ l l', searchPackage low y rl str lang names q = .ok l ∧ searchTerms low y rl ws lang false q = .ok l' ∧
      ∀ p, p ∈ l ↔ p ∈ l' ∨ (names = true ∧ p ∈ y.stores.pkg.list .repos ∧ ∃ a b, p = a ++ str ++ b) := by
  have hll : ∀ w, lower low lang (lower low lang w) = lower low lang w := by
    intro w
    unfold lower
    by_cases h : lang = ['t', 'r']
    · simp [h]
    · simp [h, hlow]
  have hpre : preprocess low lang str = ws.map (lower low lang) := by
    unfold preprocess; rw [(tokenize_words str ws).mpr hw]
  have hq' : ∀ f, queryTerms low y.idx rl f lang (preprocess low lang str) q = queryTerms low y.idx rl f lang ws q := by
    intro f
    unfold queryTerms
    rw [hpre, List.map_map]
    have : (lower low lang ∘ lower low lang) = lower low lang := funext hll
    rw [this]
  obtain ⟨l1, e1, _⟩ := queryTerms_spec low y.idx rl .summary lang hl ws q hq
  obtain ⟨l2, e2, _⟩ := queryTerms_spec low y.idx rl .description lang hl ws q hq
  refine ⟨l1 ++ l2 ++ if names then searchNames y.stores str else [], l1 ++ l2 ++ [], ?_, ?_, fun p => ?_⟩
  · unfold searchPackage
    rw [hq', e1]
    simp only []
    rw [hq', e2]
  · unfold searchTerms
    rw [e1]
    simp only []
    rw [e2]
    rfl
  · rw [List.append_nil, List.mem_append]
    cases names with
    | false => simp
    | true => simp [searchNames, substr_iff]

/-- Hypotheses can be met, with a package that is installed, removed and installed again with another summary. -/
example : FreshTrack ([.track .installed (mText ['p'] ['x']), .untrack ['p'], .track .installed (mText ['p'] ['Y', ' ', 'z'])] :
      List (SysOp Str Unit)) ∧
    NoUpdates ([.track .installed (mText ['p'] ['x']), .untrack ['p'], .track .installed (mText ['p'] ['Y', ' ', 'z'])] :
      List (SysOp Str Unit)) ∧
    searchTerms id (fullRun id ([.track .installed (mText ['p'] ['x']), .untrack ['p'],
      .track .installed (mText ['p'] ['Y', ' ', 'z'])] : List (SysOp Str Unit))).full [] [['z'], ['Y']] ['e', 'n'] true .alldb
      = .ok [['p']] ∧
    searchTerms id (fullRun id ([.track .installed (mText ['p'] ['x']), .untrack ['p'],
      .track .installed (mText ['p'] ['Y', ' ', 'z'])] : List (SysOp Str Unit))).full [] [['x']] ['e', 'n'] true .alldb
      = .ok [] := by
  refine ⟨?_, by intro n ix; simp, by rfl, by rfl⟩
  intro pre r m post e
  rintro ⟨m', hm⟩
  match pre, e with
  | [], e => cases e; rw [has_iff_cell] at hm; simp [SysOp.run, cell_nil] at hm
  | [_], e => cases e
  | [_, _], e =>
    cases e
    have : (SysOp.run ([.track .installed (mText ['p'] ['x']), .untrack ['p']] : List (SysOp Str Unit))).stores.pkg = [] := by rfl
    rw [has_iff_cell, this] at hm; simp [cell_nil] at hm
  | _ :: _ :: _ :: pre, e => simp at e

/-! ## C64: upper and lower case -/

/-- **C64**, full statement: a term finds a package if it is a word of its summary or description up to case. -/
def CaseFull : Prop := ∀ (low : Char → Char) (ops : List (SysOp Str Unit)) (rl : List Str) (r : RepoId) (lang t w s : Str)
  (ws : List Str) (f : Field) (p : Str) (m : Meta Str), lang ∈ langs → Active rl .alldb r →
  Has (fullRun low ops).full.stores r p m → (lang, s) ∈ texts m f → Words isSep s ws → w ∈ ws →
  t.map low = w.map low → ∃ l, searchTerms low (fullRun low ops).full rl [t] lang true .alldb = .ok l ∧ p ∈ l

/-- A package with a Turkish summary. -/
def mTr : Meta Str :=
  { name := ['p'], info := { version := ['1'], release := ['1'] }, partOf := some ['c'], summary := [(['t', 'r'], ['A'])] }

/-- **C64.** In Turkish the case matters. -/
theorem case_refuted : ¬ CaseFull := by
  intro h
  obtain ⟨l, e, hp⟩ := h (fun c => if c = 'A' then 'a' else c) [.track .installed mTr] [] .installed ['t', 'r'] ['a'] ['A'] ['A']
    [['A']] .summary ['p'] mTr (by simp [langs]) rfl (by rfl) (by simp [texts, mTr]) (.last _ (by simp) (by decide)) (by simp)
    (by decide)
  have : searchTerms (fun c => if c = 'A' then 'a' else c)
      (fullRun (fun c => if c = 'A' then 'a' else c) ([.track .installed mTr] : List (SysOp Str Unit))).full [] [['a']]
      ['t', 'r'] true .alldb = .ok [] := by rfl
  rw [this] at e
  cases e
  simp at hp

/-- **C64**, partial: in the other languages.  Missing: Turkish (`case_refuted`). -/
theorem case_partial (low : Char → Char) (ops : List (SysOp Str ρ)) (rl : List Str) (q : Query) (hq : ∀ r, q ≠ .one r)
    (r : RepoId) (lang t w s : Str) (ws : List Str) (f : Field) (p : Str) (m : Meta Str) (hl : lang ∈ langs)
    (hne : lang ≠ ['t', 'r']) (hr : Active rl q r) (hm : Has (fullRun low ops).full.stores r p m)
    (hs : (lang, s) ∈ texts m f) (hw : Words isSep s ws) (hmem : w ∈ ws) (ht : t.map low = w.map low) (names : Bool) :
    ∃ l, searchTerms low (fullRun low ops).full rl [t] lang names q = .ok l ∧ p ∈ l := by
  refine search_finds low ops rl [t] lang hl names q hq r hr p m hm f (by simp) ?_
  intro t' ht'
  rw [List.mem_singleton] at ht'
  subst ht'
  refine ⟨s, ws, w, hs, hw, hmem, ?_⟩
  unfold lower
  rw [if_neg hne, if_neg hne, ht]

end Pisi.Search
