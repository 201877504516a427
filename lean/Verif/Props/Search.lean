import Verif.Spec.Search
import Verif.Props.InstallDB
import Verif.Props.PackageDB

/-!
# C39, C40, C64, C65: searching
-/
set_option linter.unusedSectionVars false

namespace Pisi.Search
open Pisi.DB Pisi.DBSpec

variable {α : Type} [DecidableEq α]

/-- The index lists document `d` under term `t` in store `r`. -/
def At (i : InvIdx α) (t : Str) (r : RepoId) (d : α) : Prop := ∃ l, i.cell t r = some l ∧ d ∈ l

theorem getTerm_spec (i : InvIdx α) (t : Str) (r : RepoId) :
    ∃ l, getTerm i t r = .ok l ∧ ∀ d, d ∈ l ↔ At i t r d := by
  unfold getTerm
  rw [hasKey_one, getItem_one]
  unfold At
  cases i.cell t r with
  | none => exact ⟨[], by simp⟩
  | some l => exact ⟨l, by simp⟩

theorem at_addItem {i : InvIdx α} (h : i.WF) (t : Str) (l : List α) (r : RepoId) (t' : Str) (r' : RepoId) (d : α) :
    At (i.addItem t l r) t' r' d ↔ if t' = t ∧ r' = r then d ∈ l else At i t' r' d := by
  unfold At
  rw [(addItem_spec h t l r).2]
  unfold ItemMap.set
  by_cases hc : t' = t ∧ r' = r
  · simp [hc]
  · simp [hc]

theorem addTerm_spec {i : InvIdx α} (h : i.WF) (doc : α) (r : RepoId) (t : Str) :
    ∃ i', addTerm doc r i t = .ok i' ∧ i'.WF ∧ ∀ t' r' d, At i' t' r' d ↔ At i t' r' d ∨ (t' = t ∧ r' = r ∧ d = doc) := by
  obtain ⟨l, e, hl⟩ := getTerm_spec i t r
  refine ⟨_, by unfold addTerm; rw [e], (addItem_spec h _ _ _).1, fun t' r' d => ?_⟩
  rw [at_addItem h]
  by_cases hc : t' = t ∧ r' = r
  · obtain ⟨rfl, rfl⟩ := hc
    rw [if_pos ⟨rfl, rfl⟩]
    by_cases hd : doc ∈ l
    · rw [if_pos hd, hl]
      constructor
      · exact Or.inl
      · rintro (h | ⟨_, _, rfl⟩)
        · exact h
        · exact (hl _).mp hd
    · rw [if_neg hd, List.mem_cons, hl]; simp [or_comm]
  · rw [if_neg hc]
    constructor
    · exact Or.inl
    · rintro (h | ⟨a, b, _⟩)
      · exact h
      · exact absurd ⟨a, b⟩ hc

theorem removeTerm_spec {i : InvIdx α} (h : i.WF) (doc : α) (r : RepoId) (t : Str) :
    ∃ i', removeTerm doc r i t = .ok i' ∧ i'.WF ∧
      ∀ t' r' d, At i' t' r' d ↔ At i t' r' d ∧ ¬ (t' = t ∧ r' = r ∧ d = doc) := by
  obtain ⟨l, e, hl⟩ := getTerm_spec i t r
  refine ⟨_, by unfold removeTerm; rw [e], (addItem_spec h _ _ _).1, fun t' r' d => ?_⟩
  rw [at_addItem h]
  by_cases hc : t' = t ∧ r' = r
  · obtain ⟨rfl, rfl⟩ := hc
    rw [if_pos ⟨rfl, rfl⟩]
    by_cases hd : doc ∈ l
    · rw [if_pos hd, List.mem_filter, hl]; simp
    · rw [if_neg hd, hl]
      constructor
      · intro h; exact ⟨h, fun ⟨_, _, e⟩ => hd (e ▸ (hl d).mpr h)⟩
      · exact And.left
  · rw [if_neg hc]
    constructor
    · intro h; exact ⟨h, fun ⟨a, b, _⟩ => hc ⟨a, b⟩⟩
    · exact And.left

theorem addDoc_spec (doc : α) (r : RepoId) (ts : List Str) : ∀ {i : InvIdx α}, i.WF →
    ∃ i', addDoc doc ts r i = .ok i' ∧ i'.WF ∧
      ∀ t' r' d, At i' t' r' d ↔ At i t' r' d ∨ (t' ∈ ts ∧ r' = r ∧ d = doc) := by
  induction ts with
  | nil => intro i h; exact ⟨i, rfl, h, by simp⟩
  | cons t ts ih =>
    intro i h
    obtain ⟨i1, e1, w1, a1⟩ := addTerm_spec h doc r t
    obtain ⟨i2, e2, w2, a2⟩ := ih w1
    refine ⟨i2, by unfold addDoc forM'; rw [e1]; exact e2, w2, fun t' r' d => ?_⟩
    rw [a2, a1, List.mem_cons]
    constructor
    · rintro ((h | ⟨a, b, c⟩) | ⟨a, b, c⟩)
      · exact Or.inl h
      · exact Or.inr ⟨Or.inl a, b, c⟩
      · exact Or.inr ⟨Or.inr a, b, c⟩
    · rintro (h | ⟨a | a, b, c⟩)
      · exact Or.inl (Or.inl h)
      · exact Or.inl (Or.inr ⟨a, b, c⟩)
      · exact Or.inr ⟨a, b, c⟩

theorem removeDoc_spec (doc : α) (r : RepoId) (ts : List Str) : ∀ {i : InvIdx α}, i.WF →
    ∃ i', removeDoc doc ts r i = .ok i' ∧ i'.WF ∧
      ∀ t' r' d, At i' t' r' d ↔ At i t' r' d ∧ ¬ (t' ∈ ts ∧ r' = r ∧ d = doc) := by
  induction ts with
  | nil => intro i h; exact ⟨i, rfl, h, by simp⟩
  | cons t ts ih =>
    intro i h
    obtain ⟨i1, e1, w1, a1⟩ := removeTerm_spec h doc r t
    obtain ⟨i2, e2, w2, a2⟩ := ih w1
    refine ⟨i2, by unfold removeDoc forM'; rw [e1]; exact e2, w2, fun t' r' d => ?_⟩
    rw [a2, a1, List.mem_cons]
    constructor
    · rintro ⟨⟨h, n⟩, n'⟩
      refine ⟨h, ?_⟩
      rintro ⟨a | a, b, c⟩
      · exact n ⟨a, b, c⟩
      · exact n' ⟨a, b, c⟩
    · rintro ⟨h, n⟩
      exact ⟨⟨h, fun ⟨a, b, c⟩ => n ⟨Or.inl a, b, c⟩⟩, fun ⟨a, b, c⟩ => n ⟨Or.inr a, b, c⟩⟩

/-! ## Queries -/

theorem active_iff (repoList : List Str) (q : Query) (r : RepoId) :
    r ∈ ItemDB.order repoList q ↔ Active repoList q r := by
  cases q with
  | alldb => cases r <;> simp [ItemDB.order, Active]
  | repos => cases r <;> simp [ItemDB.order, Active]
  | one s => cases r <;> simp [ItemDB.order, Active]

theorem unionOf_mem (s : Dict RepoId (List α)) (rs : List RepoId) (d : α) :
    d ∈ unionOf s rs ↔ ∃ r ∈ rs, ∃ l, s.get r = some l ∧ d ∈ l := by
  induction rs with
  | nil => simp [unionOf]
  | cons r rs ih =>
    unfold unionOf
    cases hg : s.get r with
    | none => simp [ih, hg]
    | some l => simp [ih, hg]

theorem getUnionTerm_spec (i : InvIdx α) (rl : List Str) (t : Str) (q : Query) (hq : ∀ r, q ≠ .one r) :
    ∃ l, getUnionTerm i rl t q = .ok l ∧ ∀ d, d ∈ l ↔ ∃ r, Active rl q r ∧ At i t r d := by
  unfold getUnionTerm At ItemDB.cell
  cases hg : i.get t with
  | none => exact ⟨[], by simp⟩
  | some s =>
    cases q with
    | one r => exact absurd rfl (hq r)
    | repos =>
      refine ⟨_, rfl, fun d => ?_⟩
      rw [unionOf_mem]
      simp only [active_iff, Option.bind_some]
    | alldb =>
      refine ⟨_, rfl, fun d => ?_⟩
      rw [unionOf_mem]
      simp only [active_iff, Option.bind_some]

theorem unionTerms_spec (i : InvIdx α) (rl : List Str) (q : Query) (hq : ∀ r, q ≠ .one r) (ts : List Str) :
    ∃ ls, unionTerms i rl q ts = .ok ls ∧ ls.length = ts.length ∧
      ∀ d, (∀ l ∈ ls, d ∈ l) ↔ ∀ t ∈ ts, ∃ r, Active rl q r ∧ At i t r d := by
  induction ts with
  | nil => exact ⟨[], rfl, rfl, by simp⟩
  | cons t ts ih =>
    obtain ⟨l, e, hl⟩ := getUnionTerm_spec i rl t q hq
    obtain ⟨ls, e', n, hls⟩ := ih
    refine ⟨l :: ls, by unfold unionTerms; rw [e, e'], by simp [n], fun d => ?_⟩
    simp only [List.mem_cons, forall_eq_or_imp, hl, hls]

theorem inter_mem (ls : List (List α)) : ∀ (l : List α) (d : α),
    d ∈ ls.foldl (fun x y => x.filter (· ∈ y)) l ↔ d ∈ l ∧ ∀ y ∈ ls, d ∈ y := by
  induction ls with
  | nil => simp
  | cons y ls ih =>
    intro l d
    rw [List.foldl_cons, ih, List.mem_filter]
    simp [and_assoc]

theorem query_spec (i : InvIdx α) (rl : List Str) (q : Query) (hq : ∀ r, q ≠ .one r) (ts : List Str) :
    ∃ l, query i rl ts q = .ok l ∧
      ∀ d, d ∈ l ↔ ts ≠ [] ∧ ∀ t ∈ ts, ∃ r, Active rl q r ∧ At i t r d := by
  obtain ⟨ls, e, n, h⟩ := unionTerms_spec i rl q hq ts
  unfold query
  rw [e]
  cases ls with
  | nil =>
    have : ts = [] := by cases ts with
      | nil => rfl
      | cons => simp at n
    exact ⟨[], rfl, by simp [this]⟩
  | cons l ls =>
    have : ts ≠ [] := by rintro rfl; simp at n
    refine ⟨_, rfl, fun d => ?_⟩
    rw [inter_mem, ← h d]
    simp [this]

/-! ## C39 -/

theorem idx_run_snoc (ops : List (IdxOp α)) (o : IdxOp α) : IdxOp.run (ops ++ [o]) = IdxOp.step (IdxOp.run ops) o := by
  simp [IdxOp.run]

theorem idx_run_spec (ops : List (IdxOp α)) :
    (IdxOp.run ops).WF ∧ ∀ t r d, At (IdxOp.run ops) t r d ↔ Indexed ops t r d := by
  induction ops using snoc_induction with
  | h0 =>
    refine ⟨wf_nil, fun t r d => ⟨?_, fun h => absurd h (since_nil _ _)⟩⟩
    rintro ⟨l, h, _⟩
    simp [IdxOp.run, cell_nil] at h
  | hs ops o ih =>
    obtain ⟨w, ih⟩ := ih
    rw [idx_run_snoc]
    unfold Indexed
    cases o with
    | add doc ts r =>
      obtain ⟨i', e, w', a⟩ := addDoc_spec doc r ts w
      simp only [IdxOp.step, e]
      refine ⟨w', fun t r' d => ?_⟩
      rw [since_snoc, a, ih]
      constructor
      · rintro (h | ⟨hm, rfl, rfl⟩)
        · exact Or.inr ⟨h, by simp⟩
        · exact Or.inl ⟨ts, hm, rfl⟩
      · rintro (⟨ts', a, e⟩ | ⟨h, _⟩)
        · cases e; exact Or.inr ⟨a, rfl, rfl⟩
        · exact Or.inl h
    | remove doc ts r =>
      obtain ⟨i', e, w', a⟩ := removeDoc_spec doc r ts w
      simp only [IdxOp.step, e]
      refine ⟨w', fun t r' d => ?_⟩
      rw [since_snoc, a, ih]
      constructor
      · rintro ⟨h, n⟩
        refine Or.inr ⟨h, fun ts' e => ?_⟩
        cases e
        exact fun ht => n ⟨ht, rfl, rfl⟩
      · rintro (⟨ts', a, e⟩ | ⟨h, n⟩)
        · cases e
        · exact ⟨h, by rintro ⟨hm, rfl, rfl⟩; exact n ts rfl hm⟩

/-- **C39.** After any history a query returns exactly the documents that are indexed under each of its terms in some active
store; a query without terms returns nothing. -/
theorem query_exact (ops : List (IdxOp α)) (rl : List Str) (q : Query) (hq : ∀ r, q ≠ .one r) (ts : List Str) :
    ∃ l, query (IdxOp.run ops) rl ts q = .ok l ∧
      ∀ d, d ∈ l ↔ ts ≠ [] ∧ ∀ t ∈ ts, ∃ r, Active rl q r ∧ Indexed ops t r d := by
  obtain ⟨l, e, h⟩ := query_spec (IdxOp.run ops) rl q hq ts
  exact ⟨l, e, fun d => by simp only [h, (idx_run_spec ops).2]⟩

/-- **C39**, full statement: the documents that are, in some active store, indexed under each term. -/
def QueryFull : Prop := ∀ (ops : List (IdxOp Nat)) (rl : List Str) (q : Query), (∀ r, q ≠ .one r) → ∀ (ts : List Str), ts ≠ [] →
  ∃ l, query (IdxOp.run ops) rl ts q = .ok l ∧ ∀ d, d ∈ l ↔ ∃ r, Active rl q r ∧ ∀ t ∈ ts, Indexed ops t r d

/-- **C39**, partial: for documents that are indexed in at most one active store.  Missing: documents indexed in several stores
(`query_refuted`); for these `query_exact` gives what is returned. -/
theorem query_partial (ops : List (IdxOp α)) (rl : List Str) (q : Query) (hq : ∀ r, q ≠ .one r) (ts : List Str) (hne : ts ≠ []) :
    ∃ l, query (IdxOp.run ops) rl ts q = .ok l ∧
      ∀ d, (∀ r r' t t', Active rl q r → Active rl q r' → Indexed ops t r d → Indexed ops t' r' d → r = r') →
        (d ∈ l ↔ ∃ r, Active rl q r ∧ ∀ t ∈ ts, Indexed ops t r d) := by
  obtain ⟨l, e, h⟩ := query_exact ops rl q hq ts
  refine ⟨l, e, fun d hd => ?_⟩
  rw [h]
  constructor
  · rintro ⟨_, ha⟩
    obtain ⟨t, ht⟩ := List.exists_mem_of_ne_nil _ hne
    obtain ⟨r, hr, hi⟩ := ha t ht
    refine ⟨r, hr, fun t' ht' => ?_⟩
    obtain ⟨r', hr', hi'⟩ := ha t' ht'
    rw [hd r r' t t' hr hr' hi hi']
    exact hi'
  · rintro ⟨r, hr, ha⟩
    exact ⟨hne, fun t ht => ⟨r, hr, ha t ht⟩⟩

/-- **C39.** The terms need not be found in the same store: a document with one term in one repository and the other in
another is returned. -/
theorem query_mixed : ∃ (ops : List (IdxOp Nat)) (l : List Nat), query (IdxOp.run ops) [['a'], ['b']] [['x'], ['y']] .repos = .ok l ∧
    7 ∈ l ∧ ¬ ∃ r, Indexed ops ['x'] r 7 ∧ Indexed ops ['y'] r 7 := by
  refine ⟨[.add 7 [['x']] (.repo ['a']), .add 7 [['y']] (.repo ['b'])], [7], by rfl, by simp, ?_⟩
  rintro ⟨r, h1, h2⟩
  rw [← (idx_run_spec _).2] at h1 h2
  obtain ⟨l1, e1, _⟩ := h1
  obtain ⟨l2, e2, _⟩ := h2
  cases r with
  | repo n =>
    by_cases ha : n = ['a']
    · subst ha; revert e2
      simp [IdxOp.run, IdxOp.step, addDoc, forM', addTerm, getTerm, ItemDB.hasKey, ItemDB.addItem, ItemDB.cell, Dict.put,
        Dict.get, Dict.del]
    · revert e1
      have : ['a'] ≠ n := fun e => ha e.symm
      simp [IdxOp.run, IdxOp.step, addDoc, forM', addTerm, getTerm, ItemDB.hasKey, ItemDB.addItem, ItemDB.cell, Dict.put,
        Dict.get, Dict.del, this]
  | thirdparty => revert e1; simp [IdxOp.run, IdxOp.step, addDoc, forM', addTerm, getTerm, ItemDB.hasKey, ItemDB.addItem, ItemDB.cell, Dict.put,
        Dict.get, Dict.del]
  | installed => revert e1; simp [IdxOp.run, IdxOp.step, addDoc, forM', addTerm, getTerm, ItemDB.hasKey, ItemDB.addItem, ItemDB.cell, Dict.put,
        Dict.get, Dict.del]

/-- **C39.** The full statement is false of the code. -/
theorem query_refuted : ¬ QueryFull := by
  intro h
  obtain ⟨ops, l, e, h7, hn⟩ := query_mixed
  obtain ⟨l', e', h'⟩ := h ops [['a'], ['b']] .repos (by simp) [['x'], ['y']] (by simp)
  rw [e] at e'
  cases e'
  obtain ⟨r, _, hr⟩ := (h' 7).mp h7
  exact hn ⟨r, hr _ (by simp), hr _ (by simp)⟩

/-- **C39.** A query for a single repository fails, as soon as one of its terms is in the index. -/
theorem query_one_repo (i : InvIdx α) (rl : List Str) (t : Str) (ts : List Str) (r : RepoId) :
    query i rl (t :: ts) (.one r) = .error .assertion ↔ ∃ t' ∈ t :: ts, (i.get t').isSome := by
  have key : ∀ ts : List Str, (unionTerms i rl (.one r) ts = .error .assertion ∧ ∃ t' ∈ ts, (i.get t').isSome) ∨
      (∃ ls, unionTerms i rl (.one r) ts = .ok ls ∧ ∀ t' ∈ ts, i.get t' = none) := by
    intro ts
    induction ts with
    | nil => exact Or.inr ⟨[], rfl, by simp⟩
    | cons t ts ih =>
      cases hg : i.get t with
      | some s => exact Or.inl ⟨by simp [unionTerms, getUnionTerm, hg], t, by simp, by simp [hg]⟩
      | none =>
        rcases ih with ⟨e, t', h, h'⟩ | ⟨ls, e, h⟩
        · exact Or.inl ⟨by simp [unionTerms, getUnionTerm, hg, e], t', by simp [h], h'⟩
        · refine Or.inr ⟨[] :: ls, by simp [unionTerms, getUnionTerm, hg, e], fun t' ht => ?_⟩
          rcases List.mem_cons.mp ht with rfl | ht
          · exact hg
          · exact h t' ht
  unfold query
  rcases key (t :: ts) with ⟨e, h⟩ | ⟨ls, e, h⟩
  · rw [e]; exact ⟨fun _ => h, fun _ => rfl⟩
  · rw [e]
    constructor
    · intro he; cases ls <;> cases he
    · rintro ⟨t', ht, hs⟩; rw [h t' ht] at hs; cases hs

/-! ## C65: words -/

theorem tokLoop_words (s : Str) : ∀ tok : Str, (∀ c ∈ tok, isSep c = false) → Words isSep (tok ++ s) (tokLoop tok s) := by
  induction s with
  | nil =>
    intro tok h
    rw [List.append_nil]
    unfold tokLoop
    cases tok with
    | nil => exact .nil
    | cons c tok => exact .last _ (by simp) h
  | cons x s ih =>
    intro tok h
    unfold tokLoop
    by_cases hx : isSep x = true
    · rw [if_pos hx]
      cases tok with
      | nil => exact .sep x s _ hx (by simpa using ih [] (by simp))
      | cons c tok =>
        rw [if_pos (by simp)]
        exact .word (c :: tok) x s _ (by simp) h hx (by simpa using ih [] (by simp))
    · rw [if_neg hx]
      have := ih (tok ++ [x]) (by
        intro c hc
        rcases List.mem_append.mp hc with hc | hc
        · exact h c hc
        · rw [List.mem_singleton.mp hc]; simpa using hx)
      simpa using this

/-- Splitting at the first separator is unique. -/
theorem sep_split {sep : Char → Bool} : ∀ (w w' : Str) (c c' : Char) (s s' : Str), (∀ x ∈ w, sep x = false) →
    (∀ x ∈ w', sep x = false) → sep c = true → sep c' = true → w ++ c :: s = w' ++ c' :: s' → w = w' ∧ s = s' := by
  intro w
  induction w with
  | nil =>
    intro w' c c' s s' _ h' hc _ e
    cases w' with
    | nil => simp at e; exact ⟨rfl, e.2⟩
    | cons x w' =>
      simp at e
      have := h' x (by simp)
      rw [← e.1, hc] at this; cases this
  | cons y w ih =>
    intro w' c c' s s' h h' hc hc' e
    cases w' with
    | nil =>
      simp at e
      have := h y (by simp)
      rw [e.1, hc'] at this; cases this
    | cons x w' =>
      simp at e
      obtain ⟨rfl, e⟩ := e
      obtain ⟨rfl, rfl⟩ := ih w' c c' s s' (fun z hz => h z (by simp [hz])) (fun z hz => h' z (by simp [hz])) hc hc' e
      exact ⟨rfl, rfl⟩

/-- The words of a text are determined. -/
theorem words_unique {sep : Char → Bool} {s : Str} {ws ws' : List Str} (h : Words sep s ws) (h' : Words sep s ws') :
    ws = ws' := by
  induction h generalizing ws' with
  | nil =>
    generalize hs : ([] : Str) = s at h'
    cases h' with
    | nil => rfl
    | sep c s ws _ _ => cases hs
    | last w hw _ => exact absurd hs.symm hw
    | word w c s ws hw _ _ _ => cases w <;> simp at hs
  | sep c s ws hc _ ih =>
    generalize hs : c :: s = s' at h'
    cases h' with
    | nil => cases hs
    | sep c' s' ws' _ h' => cases hs; exact ih h'
    | last w hw hn =>
      subst hs
      have := hn c (by simp)
      rw [hc] at this; cases this
    | word w c' s' ws' hw hn hc' h' =>
      cases w with
      | nil => exact absurd rfl hw
      | cons x w =>
        simp at hs
        have := hn x (by simp)
        rw [← hs.1, hc] at this; cases this
  | last w hw hn =>
    generalize hs : w = s' at h'
    cases h' with
    | nil => exact absurd hs hw
    | sep c s ws hc _ =>
      subst hs
      have := hn c (by simp)
      rw [hc] at this; cases this
    | last w' _ _ => rfl
    | word w' c s ws _ _ hc _ =>
      subst hs
      have := hn c (by simp)
      rw [hc] at this; cases this
  | word w c s ws hw hn hc _ ih =>
    generalize hs : w ++ c :: s = s' at h'
    cases h' with
    | nil => simp at hs
    | sep c' s' ws' hc' h' =>
      cases w with
      | nil => exact absurd rfl hw
      | cons x w =>
        simp at hs
        have := hn x (by simp)
        rw [hs.1, hc'] at this; cases this
    | last w' hw' hn' =>
      subst hs
      have := hn' c (by simp)
      rw [hc] at this; cases this
    | word w' c' s' ws' _ hn' hc' h' =>
      obtain ⟨rfl, rfl⟩ := sep_split w w' c c' s s' hn hn' hc hc' hs
      rw [ih h']

/-- **C65.** The tokens of a text are its words: the maximal runs of characters that are neither white space nor
punctuation, in their order. -/
theorem tokenize_words (s : Str) (ws : List Str) : tokenize s = ws ↔ Words isSep s ws := by
  have h := tokLoop_words s [] (by simp)
  constructor
  · rintro rfl; exact h
  · intro h'; exact words_unique h h'

example : tokenize "The C++ library, v2.".toList = [['T', 'h', 'e'], ['C'], ['l', 'i', 'b', 'r', 'a', 'r', 'y'], ['v', '2']] := by
  decide

theorem words_nosep {sep : Char → Bool} {s : Str} {ws : List Str} (h : Words sep s ws) :
    ∀ w ∈ ws, w ≠ [] ∧ ∀ c ∈ w, sep c = false := by
  induction h with
  | nil => simp
  | sep c s ws _ _ ih => exact ih
  | last w hw hn => intro w' h'; rw [List.mem_singleton.mp h']; exact ⟨hw, hn⟩
  | word w c s ws hw hn _ _ ih =>
    intro w' h'
    rcases List.mem_cons.mp h' with rfl | h'
    · exact ⟨hw, hn⟩
    · exact ih w' h'

theorem contains_iff (low : Char → Char) (m : Meta α) (f : Field) (lang t : Str) :
    Contains low m f lang t ↔ ∃ s, (lang, s) ∈ texts m f ∧ t ∈ preprocess low lang s := by
  unfold Contains preprocess
  constructor
  · rintro ⟨s, ws, w, h, hw, hm, rfl⟩
    rw [← tokenize_words] at hw
    exact ⟨s, h, List.mem_map.mpr ⟨w, hw ▸ hm, rfl⟩⟩
  · rintro ⟨s, h, ht⟩
    obtain ⟨w, hm, rfl⟩ := List.mem_map.mp ht
    exact ⟨s, _, w, h, (tokenize_words s _).mp rfl, hm, rfl⟩

/-- What separates words: white space and the punctuation of ASCII. -/
theorem isSep_iff (c : Char) : isSep c = true ↔ (9 ≤ c.toNat ∧ c.toNat ≤ 13) ∨ (32 ≤ c.toNat ∧ c.toNat ≤ 47) ∨
    (58 ≤ c.toNat ∧ c.toNat ≤ 64) ∨ (91 ≤ c.toNat ∧ c.toNat ≤ 96) ∨ (123 ≤ c.toNat ∧ c.toNat ≤ 126) := by
  have e : ∀ d : Char, c = d ↔ c.toNat = d.toNat := fun d => ⟨fun h => by rw [h], fun h => Char.toNat_inj.1 h⟩
  simp only [isSep, decide_eq_true_eq, List.mem_cons, e, List.not_mem_nil, or_false, Char.reduceToNat]
  omega

end Pisi.Search
