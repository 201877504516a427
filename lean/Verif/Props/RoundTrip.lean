import Verif.Props.RemoveFiles
import Verif.Spec.RoundTrip
import Verif.Lemmas.ListAux

/-!
# C153: installing a package and removing it again
-/
namespace Pisi.FS
open Pisi.Path

/-! ## Paths -/

theorem pathOf_snoc (cs : List Str) (c : Str) : pathOf (cs ++ [c]) = cs.flatMap ('/' :: ·) ++ '/' :: c := by
  simp [pathOf]

theorem flat_last {cs : List Str} (h : cs ≠ []) (hn : ∀ c ∈ cs, CompName c) :
    ∃ a x, cs.flatMap ('/' :: ·) = a ++ [x] ∧ x ≠ '/' := by
  rcases List.eq_nil_or_concat cs with rfl | ⟨l, c, rfl⟩
  · exact absurd rfl h
  · have hc := hn c (by simp)
    rcases List.eq_nil_or_concat c with rfl | ⟨d, x, rfl⟩
    · exact absurd rfl hc.1
    · refine ⟨l.flatMap ('/' :: ·) ++ '/' :: d, x, by simp, ?_⟩
      rintro rfl
      exact hc.2 (by simp)

theorem dirname_pathOf {cs : List Str} {c : Str} (hn : ∀ x ∈ cs ++ [c], CompName x) :
    dirname (pathOf (cs ++ [c])) = pathOf cs := by
  have hc := hn c (by simp)
  have hh : (((pathOf (cs ++ [c])).reverse.dropWhile (· ≠ '/')).reverse) = cs.flatMap ('/' :: ·) ++ ['/'] := by
    rw [pathOf_snoc, List.reverse_append, List.reverse_cons, List.append_assoc,
      List.dropWhile_append_of_pos (by
        intro x hx
        simp only [ne_eq, decide_not, Bool.not_eq_eq_eq_not, Bool.not_true, decide_eq_false_iff_not]
        rintro rfl
        exact hc.2 (by simpa using hx))]
    simp
  unfold dirname
  simp only [hh]
  by_cases e : cs = []
  · subst e; simp [pathOf]
  · obtain ⟨a, x, ha, hx⟩ := flat_last e fun y hy => hn y (by simp [hy])
    rw [ha]
    have : ((a ++ [x] ++ ['/']).all (· = '/')) = false := by simp [hx]
    rw [if_neg (by rw [this]; simp)]
    unfold Path.rstrip
    simp [List.dropWhile, hx, pathOf, e, ha]

theorem length_pathOf {cs : List Str} {c : Str} (hc : CompName c) : (pathOf cs).length < (pathOf (cs ++ [c])).length := by
  rw [pathOf_snoc]
  have : c.length ≠ 0 := fun h => hc.1 (List.length_eq_zero_iff.mp h)
  unfold pathOf
  by_cases e : cs = []
  · subst e; simp; omega
  · rw [if_neg e]; simp

theorem pathOf_root {cs : List Str} (hn : ∀ x ∈ cs, CompName x) (h : pathOf cs = ['/']) : cs = [] := by
  rcases List.eq_nil_or_concat cs with rfl | ⟨l, c, rfl⟩
  · rfl
  · have := length_pathOf (cs := l) (hn c (by simp))
    rw [List.concat_eq_append] at h
    rw [h] at this
    have h0 : 0 < (pathOf l).length := by
      unfold pathOf
      by_cases e : l = []
      · simp [e]
      · rw [if_neg e]
        cases l with
        | nil => exact absurd rfl e
        | cons _ _ => simp
    simp at this; exact absurd this (List.ne_nil_of_length_pos h0)

theorem flat_inj : ∀ {a b : List Str}, (∀ x ∈ a, CompName x) → (∀ x ∈ b, CompName x) →
    a.flatMap ('/' :: ·) = b.flatMap ('/' :: ·) → a = b := by
  intro a
  induction a with
  | nil =>
    intro b _ _ h
    cases b with
    | nil => rfl
    | cons _ _ => simp at h
  | cons c a ih =>
    intro b ha hb h
    cases b with
    | nil => simp at h
    | cons d b =>
      simp only [List.flatMap_cons, List.cons_append, List.cons.injEq, true_and] at h
      have key : ∀ (u v : Str) (r s : List Str), '/' ∉ u → '/' ∉ v → u ++ r.flatMap ('/' :: ·) = v ++ s.flatMap ('/' :: ·) →
          u = v ∧ r.flatMap ('/' :: ·) = s.flatMap ('/' :: ·) := by
        intro u
        induction u with
        | nil =>
          intro v r s _ hv h
          cases v with
          | nil => exact ⟨rfl, h⟩
          | cons y v =>
            cases r with
            | nil => simp at h
            | cons _ _ =>
              simp only [List.flatMap_cons, List.nil_append, List.cons_append, List.cons.injEq] at h
              exact absurd (by simp [← h.1]) hv
        | cons x u ihu =>
          intro v r s hu hv h
          cases v with
          | nil =>
            cases s with
            | nil => simp at h
            | cons _ _ =>
              simp only [List.flatMap_cons, List.nil_append, List.cons_append, List.cons.injEq] at h
              exact absurd (by simp [h.1]) hu
          | cons y v =>
            simp only [List.cons_append, List.cons.injEq] at h
            obtain ⟨h1, h2⟩ := ihu v r s (fun hh => hu (by simp [hh])) (fun hh => hv (by simp [hh])) h.2
            exact ⟨by rw [h.1, h1], h2⟩
      obtain ⟨h1, h2⟩ := key c d a b (ha c (by simp)).2 (hb d (by simp)).2 h
      rw [h1, ih (fun x hx => ha x (by simp [hx])) (fun x hx => hb x (by simp [hx])) h2]

theorem pathOf_inj {a b : List Str} (ha : ∀ x ∈ a, CompName x) (hb : ∀ x ∈ b, CompName x) (h : pathOf a = pathOf b) :
    a = b := by
  by_cases ea : a = []
  · subst ea
    exact (pathOf_root hb (by rw [← h]; rfl)).symm
  · by_cases eb : b = []
    · subst eb; exact pathOf_root ha (by rw [h]; rfl)
    · unfold pathOf at h
      rw [if_neg ea, if_neg eb] at h
      exact flat_inj ha hb h

/-! ## Creating directories -/

theorem prefixes_name : ∀ (c acc t : Str), '/' ∉ c → acc ≠ [] → prefixes acc (c ++ t) = prefixes (acc ++ c) t
  | [], acc, t, _, _ => by simp
  | x :: c, acc, t, h, ha => by
    have hx : x ≠ '/' := by rintro rfl; exact h (by simp)
    rw [List.cons_append, prefixes, if_neg (by simp [hx]),
      prefixes_name c _ t (fun hh => h (by simp [hh])) (by simp)]
    simp

/-- The places from `acc` on. -/
def chain : List Str → List Str → List Str
  | as, [] => [pathOf as]
  | as, d :: ds => pathOf as :: chain (as ++ [d]) ds

theorem prefixes_chain : ∀ (ds as : List Str), as ≠ [] → (∀ x ∈ ds, CompName x) →
    prefixes (pathOf as) (ds.flatMap ('/' :: ·)) = chain as ds
  | [], as, _, _ => rfl
  | d :: ds, as, ha, h => by
    have hp : pathOf as ≠ [] := by
      unfold pathOf; rw [if_neg ha]
      cases as with
      | nil => exact absurd rfl ha
      | cons _ _ => simp
    rw [List.flatMap_cons, List.cons_append, prefixes, if_pos ⟨rfl, hp⟩,
      prefixes_name _ _ _ (h d (by simp)).2 (by simp), chain,
      ← prefixes_chain ds (as ++ [d]) (by simp) fun x hx => h x (by simp [hx])]
    congr 2
    rw [pathOf_snoc]
    unfold pathOf
    rw [if_neg ha]
    simp

theorem prefixes_pathOf (c : Str) (cs : List Str) (h : ∀ x ∈ c :: cs, CompName x) :
    prefixes [] (pathOf (c :: cs)) = chain [c] cs := by
  rw [← prefixes_chain cs [c] (by simp) fun x hx => h x (by simp [hx])]
  have : pathOf (c :: cs) = '/' :: (c ++ cs.flatMap ('/' :: ·)) := by simp [pathOf]
  rw [this, prefixes, if_neg (by simp), prefixes_name _ _ _ (h c (by simp)).2 (by simp)]
  simp [pathOf]

theorem WF.put {s : FS} (h : WF s) {p : Str} {n : Node} (hg : s.get p = none) (hd : s.get (dirname p) = some .dir)
    (hl : (dirname p).length < p.length) : WF (s.put p n) := by
  refine ⟨?_, fun k m hk => ?_⟩
  · rw [Dict.get_put, if_neg]
    · exact h.root
    · rintro rfl; rw [h.root] at hg; cases hg
  · rw [Dict.get_put] at hk
    by_cases e : p = k
    · subst e
      refine .inr ⟨?_, hl⟩
      rw [Dict.get_put, if_neg]
      · exact hd
      · intro e; rw [← e, hg] at hd; cases hd
    · rw [if_neg e] at hk
      rcases h.parent k m hk with h1 | ⟨h1, h2⟩
      · exact .inl h1
      · refine .inr ⟨?_, h2⟩
        rw [Dict.get_put, if_neg]
        · exact h1
        · intro e'; rw [← e', hg] at h1; cases h1

theorem stat_none {s : FS} {p : Str} (h : s.get p = none) : stat s p = none := by simp [stat, statN, h]
theorem stat_dir {s : FS} {p : Str} (h : s.get p = some .dir) : stat s p = some .dir := by simp [stat, statN, h]

/-- What changes from `s` to `t`: directories appear at the places between `as` and `bs`. -/
def DirsOnly (as bs : List Str) (s t : FS) : Prop :=
  ∀ k, t.get k = s.get k ∨ (s.get k = none ∧ t.get k = some .dir ∧ ∃ q, as <+: q ∧ q <+: bs ∧ k = pathOf q)

theorem mkdirs_chain : ∀ (ds as : List Str) (s : FS), as ≠ [] → (∀ x ∈ as ++ ds, CompName x) → WF s →
    s.get (pathOf as.dropLast) = some .dir →
    (∀ q, as <+: q → q <+: as ++ ds → s.get (pathOf q) = none ∨ s.get (pathOf q) = some .dir) →
    ∃ t, (mkdirs s (chain as ds)).2 = .ok t ∧ WF t ∧ t.get (pathOf (as ++ ds)) = some .dir ∧ DirsOnly as (as ++ ds) s t := by
  intro ds
  induction ds with
  | nil =>
    intro as s ha hn hw hp hq
    rw [List.append_nil] at *
    unfold chain mkdirs
    rcases hq as (List.prefix_rfl) (List.prefix_rfl) with h | h
    · rw [stat_none h]
      simp only [h]
      refine ⟨s.put (pathOf as) .dir, rfl, ?_, by simp [Dict.get_put], fun k => ?_⟩
      · obtain ⟨b, c, rfl⟩ := (List.eq_nil_or_concat as).resolve_left ha
        rw [List.concat_eq_append] at *
        refine hw.put h ?_ ?_
        · rw [dirname_pathOf hn]; simpa using hp
        · rw [dirname_pathOf hn]; exact length_pathOf (hn c (by simp))
      · rw [Dict.get_put]
        by_cases e : pathOf as = k
        · subst e; rw [if_pos rfl]; exact .inr ⟨h, rfl, as, List.prefix_rfl, List.prefix_rfl, rfl⟩
        · rw [if_neg e]; exact .inl rfl
    · rw [stat_dir h]
      exact ⟨s, rfl, hw, h, fun k => .inl rfl⟩
  | cons d ds ih =>
    intro as s ha hn hw hp hq
    have happ : as ++ d :: ds = (as ++ [d]) ++ ds := by simp
    have step : ∀ s1 : FS, WF s1 → s1.get (pathOf as) = some .dir → DirsOnly as as s s1 →
        ∃ t, (mkdirs s1 (chain (as ++ [d]) ds)).2 = .ok t ∧ WF t ∧ t.get (pathOf (as ++ d :: ds)) = some .dir ∧
          DirsOnly as (as ++ d :: ds) s t := by
      intro s1 hw1 h1 hd1
      obtain ⟨t, ht, hwt, hgt, hdt⟩ := ih (as ++ [d]) s1 (by simp) (by rw [← happ]; exact hn) hw1 (by simpa using h1) (by
        intro q h2 h3
        rcases hd1 (pathOf q) with e | ⟨_, e, _⟩
        · rw [e]
          exact hq q ((List.prefix_append as [d]).trans h2) (by rw [happ]; exact h3)
        · exact .inr e)
      refine ⟨t, ht, hwt, by rw [happ]; exact hgt, fun k => ?_⟩
      rw [happ]
      rcases hdt k with e | ⟨e1, e2, q, h2, h3, h4⟩
      · rcases hd1 k with g | ⟨g1, g2, q, h2, h3, h4⟩
        · exact .inl (e.trans g)
        · refine .inr ⟨g1, e.trans g2, q, h2, h3.trans ?_, h4⟩
          rw [List.append_assoc]; exact List.prefix_append _ _
      · refine .inr ⟨?_, e2, q, (List.prefix_append as [d]).trans h2, h3, h4⟩
        rcases hd1 k with g | ⟨g1, _⟩
        · rw [← g]; exact e1
        · exact g1
    unfold chain mkdirs
    rcases hq as List.prefix_rfl (List.prefix_append _ _) with h | h
    · rw [stat_none h]
      simp only [h]
      have := step (s.put (pathOf as) .dir) (by
        obtain ⟨b, c, rfl⟩ := (List.eq_nil_or_concat as).resolve_left ha
        rw [List.concat_eq_append] at *
        have hn' : ∀ x ∈ b ++ [c], CompName x := fun x hx => hn x (List.mem_append_left _ hx)
        refine hw.put h ?_ ?_
        · rw [dirname_pathOf hn']; simpa using hp
        · rw [dirname_pathOf hn']; exact length_pathOf (hn' c (by simp))) (by simp [Dict.get_put]) (by
        intro k
        rw [Dict.get_put]
        by_cases e : pathOf as = k
        · subst e; rw [if_pos rfl]; exact .inr ⟨h, rfl, as, List.prefix_rfl, List.prefix_rfl, rfl⟩
        · rw [if_neg e]; exact .inl rfl)
      simpa [Tr.bind, Tr.atomic] using this
    · rw [stat_dir h]
      exact step s hw h fun k => .inl rfl

/-- `os.makedirs` of a place whose way is free. -/
theorem makedirs_free (cs : List Str) (s : FS) (hne : cs ≠ []) (hn : ∀ x ∈ cs, CompName x) (hw : WF s)
    (hg : s.get (pathOf cs) = none) (hq : ∀ q, q <+: cs → s.get (pathOf q) = none ∨ s.get (pathOf q) = some .dir) :
    ∃ t, (makedirs s (pathOf cs)).2 = .ok t ∧ WF t ∧ t.get (pathOf cs) = some .dir ∧ DirsOnly [] cs s t := by
  unfold makedirs
  rw [hg, if_neg (by simp)]
  cases cs with
  | nil => exact absurd rfl hne
  | cons c cs =>
    rw [prefixes_pathOf c cs hn]
    obtain ⟨t, h1, h2, h3, h4⟩ := mkdirs_chain cs [c] s (by simp) hn hw (by simpa [pathOf] using hw.root)
      fun q _ hq' => hq q hq'
    refine ⟨t, h1, h2, h3, fun k => ?_⟩
    rcases h4 k with e | ⟨e1, e2, q, _, h6, h7⟩
    · exact .inl e
    · exact .inr ⟨e1, e2, q, List.nil_prefix, h6, h7⟩

theorem checkDir_free (cs : List Str) (s : FS) (hn : ∀ x ∈ cs, CompName x) (hw : WF s)
    (hq : ∀ q, q <+: cs → s.get (pathOf q) = none ∨ s.get (pathOf q) = some .dir) :
    ∃ t, (checkDir s (pathOf cs)).2 = .ok t ∧ WF t ∧ t.get (pathOf cs) = some .dir ∧ DirsOnly [] cs s t := by
  unfold checkDir existsP
  rcases hq cs List.prefix_rfl with h | h
  · rw [stat_none h, if_neg (by simp)]
    refine makedirs_free cs s ?_ hn hw h hq
    rintro rfl
    rw [show pathOf [] = ['/'] from rfl, hw.root] at h; cases h
  · rw [stat_dir h, if_pos (by simp)]
    exact ⟨s, rfl, hw, h, fun k => .inl rfl⟩

theorem bind_ok {β γ : Type} {x : Tr β} {f : β → Tr γ} {b : β} (h : x.2 = .ok b) : (Tr.bind x f).2 = (f b).2 := by
  unfold Tr.bind; rw [h]

theorem strict_snoc {q b : List Str} {c : Str} (h : q <+: b ++ [c]) (hne : q ≠ b ++ [c]) : q <+: b := by
  rcases List.prefix_concat_iff.mp (by simpa using h) with e | e
  · exact absurd (by simpa using e) hne
  · exact e

theorem snoc_strict {q b : List Str} {c : Str} (h : q <+: b) : q <+: b ++ [c] ∧ q ≠ b ++ [c] :=
  ⟨h.trans (List.prefix_append _ _), by
    rintro rfl
    have := h.length_le
    simp at this; omega⟩

/-- What changes by extracting a member: it appears, with the missing directories on its way. -/
def Adds (i : Item) (s t : FS) : Prop :=
  ∀ k, t.get k = s.get k ∨ (s.get k = none ∧ ((k = pathOf i.comps ∧ t.get k = some i.node) ∨
    (t.get k = some .dir ∧ ∃ q, q <+: i.comps ∧ q ≠ i.comps ∧ k = pathOf q)))

/-- What is at the place of a member before it is extracted. -/
def FreeFor (i : Item) (s : FS) : Prop :=
  (s.get (pathOf i.comps) = none ∨ (i.node = .dir ∧ s.get (pathOf i.comps) = some .dir)) ∧
  ∀ q, q <+: i.comps → q ≠ i.comps → s.get (pathOf q) = none ∨ s.get (pathOf q) = some .dir

theorem extractEntry_free (i : Item) (s : FS) (hne : i.comps ≠ []) (hn : ∀ x ∈ i.comps, CompName x) (hw : WF s)
    (hf : FreeFor i s) :
    ∃ t, (extractEntry s i.entry).2 = .ok t ∧ WF t ∧ t.get (pathOf i.comps) = some i.node ∧ Adds i s t := by
  obtain ⟨cs, n⟩ := i
  obtain ⟨h0, hq⟩ := hf
  simp only at *
  obtain ⟨b, c, rfl⟩ := (List.eq_nil_or_concat cs).resolve_left hne
  rw [List.concat_eq_append] at *
  have hb : ∀ x ∈ b, CompName x := fun x hx => hn x (List.mem_append_left _ hx)
  have hc : CompName c := hn c (by simp)
  have parent : ∃ t, (checkDir s (dirname (pathOf (b ++ [c])))).2 = .ok t ∧ WF t ∧ t.get (pathOf b) = some .dir ∧
      DirsOnly [] b s t := by
    rw [dirname_pathOf hn]
    exact checkDir_free b s hb hw fun q h => hq q (snoc_strict h).1 (snoc_strict h).2
  have gone : ∀ t, DirsOnly [] b s t → s.get (pathOf (b ++ [c])) = none → t.get (pathOf (b ++ [c])) = none := by
    intro t ht h
    rcases ht (pathOf (b ++ [c])) with e | ⟨_, _, q, _, h3, h4⟩
    · rw [e]; exact h
    · have := pathOf_inj hn (fun x hx => hb x (h3.subset hx)) h4
      have hl := h3.length_le
      rw [← this] at hl
      simp at hl; omega
  have fin : ∀ t m, WF t → t.get (pathOf b) = some .dir → DirsOnly [] b s t → s.get (pathOf (b ++ [c])) = none → 
      WF (t.put (pathOf (b ++ [c])) m) ∧ Adds ⟨b ++ [c], m⟩ s (t.put (pathOf (b ++ [c])) m) := by
    intro t m ht1 ht2 ht3 h
    refine ⟨ht1.put (gone t ht3 h) ?_ ?_, fun k => ?_⟩
    · rw [dirname_pathOf hn]; exact ht2
    · rw [dirname_pathOf hn]; exact length_pathOf hc
    · rw [Dict.get_put]
      by_cases e : pathOf (b ++ [c]) = k
      · subst e; rw [if_pos rfl]; exact .inr ⟨h, .inl ⟨rfl, rfl⟩⟩
      · rw [if_neg e]
        rcases ht3 k with g | ⟨g1, g2, q, _, g3, g4⟩
        · exact .inl g
        · exact .inr ⟨g1, .inr ⟨g2, q, (snoc_strict g3).1, (snoc_strict g3).2, g4⟩⟩
  have clear : ∀ t : FS, t.get (pathOf (b ++ [c])) = none → (clearWay t (pathOf (b ++ [c]))).2 = .ok t := by
    intro t h
    unfold clearWay
    rw [if_neg (by simp [isFile, isLink, stat_none h, h])]
  cases n with
  | dir =>
    simp only [Item.entry, extractEntry]
    rcases h0 with h | ⟨_, h⟩
    · rw [if_neg (by simp [isDir, stat_none h])]
      obtain ⟨t, h1, h2, h3, h4⟩ := makedirs_free (b ++ [c]) s (by simp) hn hw h (by
        intro q h'
        by_cases e : q = b ++ [c]
        · subst e; exact .inl h
        · exact hq q h' e)
      refine ⟨t, h1, h2, h3, fun k => ?_⟩
      rcases h4 k with e | ⟨e1, e2, q, _, h6, h7⟩
      · exact .inl e
      · by_cases e : q = b ++ [c]
        · subst e; exact .inr ⟨e1, .inl ⟨h7, e2⟩⟩
        · exact .inr ⟨e1, .inr ⟨e2, q, h6, e, h7⟩⟩
    · rw [if_pos (by simp [isDir, stat_dir h])]
      exact ⟨s, rfl, hw, h, fun k => .inl rfl⟩
  | file d =>
    have h : s.get (pathOf (b ++ [c])) = none := h0.resolve_right (by simp)
    obtain ⟨t, h1, h2, h3, h4⟩ := parent
    have hg := gone t h4 h
    refine ⟨t.put (pathOf (b ++ [c])) (.file d), ?_, (fin t _ h2 h3 h4 h).1, by simp [Dict.get_put], (fin t _ h2 h3 h4 h).2⟩
    simp only [Item.entry, extractEntry]
    rw [bind_ok h1, bind_ok (clear t hg)]
    unfold writeFile
    rw [if_pos (by rw [dirname_pathOf hn]; simp [isDir, stat_dir h3])]
    simp only [hg]
  | link d =>
    have h : s.get (pathOf (b ++ [c])) = none := h0.resolve_right (by simp)
    obtain ⟨t, h1, h2, h3, h4⟩ := parent
    have hg := gone t h4 h
    refine ⟨t.put (pathOf (b ++ [c])) (.link d), ?_, (fin t _ h2 h3 h4 h).1, by simp [Dict.get_put], (fin t _ h2 h3 h4 h).2⟩
    simp only [Item.entry, extractEntry]
    rw [bind_ok h1, bind_ok (clear t hg)]
    have : (if isDir t (pathOf (b ++ [c])) = true then Tr.atomic (.ok (rmtree t (pathOf (b ++ [c])))) else ([], .ok t) : Tr FS).2
        = .ok t := by
      rw [if_neg (by simp [isDir, stat_none hg])]
    rw [bind_ok this, if_pos (by rw [dirname_pathOf hn]; simp [isDir, stat_dir h3, hg])]
    rfl

/-- **C153 (places in use).** A file or link in the way, also a link that leads nowhere, is replaced by the file of the package; nothing
else changes. -/
theorem extract_over (s : FS) (p c : Str) (n : Node) (hn : s.get p = some n) (hd : n ≠ .dir)
    (hdir : s.get (dirname p) = some .dir) (hpd : dirname p ≠ p) :
    ∃ t, (extractEntry s (.file p c)).2 = .ok t ∧ t.get p = some (.file c) ∧ ∀ k, k ≠ p → t.get k = s.get k := by
  have hx : existsP s (dirname p) = true := by simp [existsP, stat_dir hdir]
  have h1 : (checkDir s (dirname p)).2 = .ok s := by unfold checkDir; rw [if_pos hx]
  have h2 : (clearWay s p).2 = .ok (s.del p) := by
    unfold clearWay
    cases n with
    | dir => exact absurd rfl hd
    | file d =>
      rw [if_pos (by simp [isFile, stat, statN, hn])]
      simp [unlink, hn, Tr.atomic]
    | link d =>
      rw [if_pos (by simp [isLink, hn])]
      simp [unlink, hn, Tr.atomic]
  have h3 : (s.del p).get (dirname p) = some .dir := by
    rw [Dict.get_del, if_neg (Ne.symm hpd)]; exact hdir
  have h4 : (s.del p).get p = none := by rw [Dict.get_del, if_pos rfl]
  refine ⟨(s.del p).put p (.file c), ?_, by simp [Dict.get_put], fun k hk => ?_⟩
  · simp only [extractEntry]
    rw [bind_ok h1, bind_ok h2]
    unfold writeFile
    rw [if_pos (by simp [isDir, stat_dir h3])]
    simp only [h4]
  · rw [Dict.get_put, if_neg (Ne.symm hk), Dict.get_del, if_neg (Ne.symm hk)]

/-- **C153.** The members of a package whose places are free are extracted: each is there, together with the directories on
its way, and nothing else changes. -/
theorem extract_free : ∀ (is : List Item) (s : FS), Sound is → WF s → (∀ i ∈ is, FreeFor i s) →
    ∃ t, (extractAll s (is.map Item.entry)).2 = .ok t ∧ WF t ∧ (∀ i ∈ is, t.get (pathOf i.comps) = some i.node) ∧
      ∀ k, t.get k = s.get k ∨ (s.get k = none ∧ ∃ i ∈ is, ∃ q, q <+: i.comps ∧ k = pathOf q) := by
  intro is
  induction is with
  | nil => intro s _ hw _; exact ⟨s, rfl, hw, by simp, fun k => .inl rfl⟩
  | cons i is ih =>
    intro s hs hw hf
    obtain ⟨t, h1, h2, h3, h4⟩ := extractEntry_free i s (hs.ne i (by simp)) (hs.names i (by simp)) hw (hf i (by simp))
    have hnd := hs.apart
    rw [List.map_cons, List.nodup_cons] at hnd
    have hs' : Sound is := ⟨fun j hj => hs.ne j (by simp [hj]), fun j hj => hs.names j (by simp [hj]), hnd.2,
      fun j hj k hk => hs.inDirs j (by simp [hj]) k (by simp [hk])⟩
    have hne : ∀ j ∈ is, i.comps ≠ j.comps := fun j hj e => hnd.1 (e ▸ List.mem_map.mpr ⟨j, hj, rfl⟩)
    obtain ⟨u, g1, g2, g3, g4⟩ := ih t hs' h2 (by
      intro j hj
      obtain ⟨f1, f2⟩ := hf j (by simp [hj])
      have hjn := hs.names j (by simp [hj])
      have hin := hs.names i (by simp)
      constructor
      · rcases h4 (pathOf j.comps) with e | ⟨_, ⟨e, _⟩ | ⟨e, q, hq1, hq2, hq3⟩⟩
        · rw [e]; exact f1
        · exact absurd (pathOf_inj hjn hin e).symm (hne j hj)
        · refine .inr ⟨?_, e⟩
          have := pathOf_inj hjn (fun x hx => hin x (hq1.subset hx)) hq3
          subst this
          exact hs.inDirs j (by simp [hj]) i (by simp) hq1 hq2
      · intro q hq1 hq2
        rcases h4 (pathOf q) with e | ⟨_, ⟨e, e'⟩ | ⟨e, _⟩⟩
        · rw [e]; exact f2 q hq1 hq2
        · have := pathOf_inj (fun x hx => hjn x (hq1.subset hx)) hin e
          subst this
          rw [e', hs.inDirs i (by simp) j (by simp [hj]) hq1 hq2]
          exact .inr rfl
        · exact .inr e)
    refine ⟨u, ?_, g2, ?_, fun k => ?_⟩
    · rw [List.map_cons, extractAll, bind_ok h1]; exact g1
    · intro j hj
      rcases List.mem_cons.mp hj with rfl | hj
      · rcases g4 (pathOf j.comps) with e | ⟨e, _⟩
        · rw [e]; exact h3
        · rw [h3] at e; cases e
      · exact g3 j hj
    · rcases g4 k with e | ⟨e, j, hj, q, hq1, hq2⟩
      · rcases h4 k with f | ⟨f, ⟨f1, _⟩ | ⟨_, q, hq1, _, hq2⟩⟩
        · exact .inl (e.trans f)
        · exact .inr ⟨f, i, by simp, i.comps, List.prefix_rfl, f1⟩
        · exact .inr ⟨f, i, by simp, q, hq1, hq2⟩
      · refine .inr ⟨?_, j, by simp [hj], q, hq1, hq2⟩
        rcases h4 k with f | ⟨f, _⟩
        · rw [← f]; exact e
        · exact f

theorem backupNew_none (sha : Str → Str) (dest : Str) : ∀ (l : List FileInfo) (st : FS × List Str),
    (∀ f ∈ l, f.conf = false) → (backupNew sha dest l st).2 = .ok st
  | [], st, _ => rfl
  | f :: l, st, h => by
    unfold backupNew
    simp only [h f (by simp), Bool.false_and, Bool.false_eq_true, if_false]
    exact backupNew_none sha dest l st fun g hg => h g (by simp [hg])

/-! ## Removing -/

/-- The state while the package is removed; the paths `R` are still to come, the place `x` may just have been emptied. -/
structure Inv (fs0 : FS) (R : List Str) (x : Option Str) (s : FS) : Prop where
  wf : WF s
  old : ∀ k n, fs0.get k = some n → s.get k = some n
  new : ∀ k n, s.get k = some n → fs0.get k = none → k ∈ R ∨ some k = x ∨
    (n = .dir ∧ ∃ k', s.get k' ≠ none ∧ k' ≠ k ∧ dirname k' = k)

theorem Inv.del {fs0 : FS} {R : List Str} {s : FS} {p : Str} (h : Inv fs0 R (some p) s) (h0 : fs0.get p = none)
    (hw : WF (s.del p)) : Inv fs0 R (some (dirname p)) (s.del p) := by
  refine ⟨hw, fun k n hk => ?_, fun k n hk hk0 => ?_⟩
  · rw [Dict.get_del, if_neg]
    · exact h.old k n hk
    · rintro rfl; rw [h0] at hk; cases hk
  · rw [Dict.get_del] at hk
    by_cases e : p = k
    · rw [if_pos e] at hk; cases hk
    · rw [if_neg e] at hk
      rcases h.new k n hk hk0 with g | g | ⟨g1, k', g2, g3, g4⟩
      · exact .inl g
      · cases g; exact absurd rfl e
      · by_cases e' : p = k'
        · subst e'; exact .inr (.inl (by rw [g4]))
        · exact .inr (.inr ⟨g1, k', by rw [Dict.get_del, if_neg e']; exact g2, g3, g4⟩)

theorem Inv.drop {fs0 : FS} {R : List Str} {s : FS} {p : Str} (h : Inv fs0 R (some p) s)
    (hp : fs0.get p ≠ none ∨ ∃ k', s.get k' ≠ none ∧ k' ≠ p ∧ dirname k' = p) (hd : s.get p = some .dir) :
    Inv fs0 R none s := by
  refine ⟨h.wf, h.old, fun k n hk hk0 => ?_⟩
  rcases h.new k n hk hk0 with g | g | g
  · exact .inl g
  · cases g
    rcases hp with hp | hp
    · exact absurd hk0 hp
    · rw [hd] at hk; cases hk; exact .inr (.inr ⟨rfl, hp⟩)
  · exact .inr (.inr g)

theorem listdir_false {fs : FS} {d : Str} (h : listdirEmpty fs d = .ok false) : ∃ k, fs.get k ≠ none ∧ k ≠ d ∧ dirname k = d := by
  unfold listdirEmpty at h
  by_cases hd : isDir fs d = true
  · rw [if_pos hd] at h
    simp only [Except.ok.injEq] at h
    rw [List.all_eq_false] at h
    obtain ⟨k, hk, hk'⟩ := h
    rw [Dict.mem_keys] at hk
    simp at hk'
    refine ⟨k, ?_, hk'.1, hk'.2⟩
    intro e; rw [e] at hk; simp at hk
  · rw [if_neg hd] at h; cases h

theorem prune_inv {fs0 : FS} {R : List Str} (hw0 : WF fs0) : ∀ (n : Nat) (q : List Str) (s s' : FS),
    (∀ x ∈ q, CompName x) →
    (∀ r, r <+: q → r ≠ [] → fs0.get (pathOf r) = some .dir →
      ∃ k, fs0.get k ≠ none ∧ k ≠ pathOf r ∧ dirname k = pathOf r) →
    Inv fs0 R (some (pathOf q)) s → s.get (pathOf q) = some .dir → prune n s (pathOf q) = .ok s' → Inv fs0 R none s'
  | 0, _, _, _, _, _, _, _, h => by cases h
  | n + 1, q, s, s', hq, hh, hi, hd, h => by
    unfold prune at h
    by_cases e : pathOf q = ['/']
    · rw [if_pos e] at h
      cases h
      exact hi.drop (.inl (by rw [e, hw0.root]; simp)) hd
    rw [if_neg e] at h
    have hq0 : q ≠ [] := by rintro rfl; exact e rfl
    obtain ⟨b, hb, hch⟩ := listdir_dir hd
    rw [hb] at h
    cases b with
    | false =>
      cases h
      exact hi.drop (.inr (listdir_false hb)) hd
    | true =>
      simp only at h
      have hr : rmdir s (pathOf q) = .ok (s.del (pathOf q)) := by unfold rmdir; rw [hd]; simp only [hb]
      rw [hr] at h
      simp only at h
      have h0 : fs0.get (pathOf q) = none := by
        cases hg : fs0.get (pathOf q) with
        | none => rfl
        | some m =>
          have := hi.old _ _ hg
          rw [hd] at this; cases this
          obtain ⟨k, h1, h2, h3⟩ := hh q List.prefix_rfl hq0 hg
          obtain ⟨m, hm⟩ := Option.ne_none_iff_exists'.mp h1
          exact absurd h3 (hch rfl k m (hi.old k m hm) h2)
      have hi' := hi.del h0 (hi.wf.del _ e (hch rfl))
      obtain ⟨b, c, rfl⟩ := (List.eq_nil_or_concat q).resolve_left hq0
      rw [List.concat_eq_append] at *
      rw [dirname_pathOf hq] at hi' h
      refine prune_inv hw0 n b _ _ (fun x hx => hq x (List.mem_append_left _ hx))
        (fun r hr => hh r (hr.trans (List.prefix_append _ _))) hi' ?_ h
      rcases hi.wf.parent _ _ hd with g | ⟨g1, g2⟩
      · exact absurd g e
      · rw [dirname_pathOf hq] at g1
        rw [Dict.get_del, if_neg]
        · exact g1
        · intro e'; rw [e'] at g2
          rw [← e', dirname_pathOf hq, ← e'] at g2; omega

variable {α ι : Type} [DecidableEq α]

theorem removeFile_inv {fs0 : FS} (hw0 : WF fs0) (sha : Str → Str) (dest : Str) (db : DB.FilesDB Str α ι) (pkg : α)
    (f : FileInfo) (R : List Str) (cs : List Str) (hne : cs ≠ []) (hcs : ∀ x ∈ cs, CompName x)
    (hp : joinPath dest [f.path] = pathOf cs) (h0 : fs0.get (pathOf cs) = none)
    (hh : ∀ r, r <+: cs → r ≠ cs → r ≠ [] → fs0.get (pathOf r) = some .dir →
      ∃ k, fs0.get k ≠ none ∧ k ≠ pathOf r ∧ dirname k = pathOf r)
    (hforeign : ¬ Foreign db pkg (pathOf cs)) (hconf : f.conf = false) (hperm : f.permanent = false)
    (s s' : FS) (hi : Inv fs0 (pathOf cs :: R) none s) (h : removeFile sha dest db pkg f s = .ok s') : Inv fs0 R none s' := by
  rw [removeFile_own _ _ _ _ _ _ (by rw [hp]; exact hforeign)] at h
  unfold removeFile at h
  simp only [otherOwner, Dict.get_nil, Bool.false_eq_true, if_false, hconf, hperm, hp] at h
  have hx : Inv fs0 R (some (pathOf cs)) s := by
    refine ⟨hi.wf, hi.old, fun k n hk hk0 => ?_⟩
    rcases hi.new k n hk hk0 with g | g | g
    · rcases List.mem_cons.mp g with rfl | g
      · exact .inr (.inl rfl)
      · exact .inl g
    · cases g
    · exact .inr (.inr g)
  have hroot : pathOf cs ≠ ['/'] := fun e => hne (pathOf_root hcs e)
  have fin : ∀ n m, s.get (pathOf cs) = some n → WF (s.del (pathOf cs)) →
      prune m (s.del (pathOf cs)) (dirname (pathOf cs)) = .ok s' → Inv fs0 R none s' := by
    intro n m hn hw hpr
    have hi' := hx.del h0 hw
    obtain ⟨b, c, rfl⟩ := (List.eq_nil_or_concat cs).resolve_left hne
    rw [List.concat_eq_append] at *
    have g := (hi.wf.parent _ _ hn).resolve_left hroot
    rw [dirname_pathOf hcs] at hi' hpr g
    refine prune_inv hw0 m b _ _ (fun x hx => hcs x (List.mem_append_left _ hx))
      (fun r hr => hh r (snoc_strict hr).1 (snoc_strict hr).2) hi' ?_ hpr
    rw [Dict.get_del, if_neg]
    · exact g.1
    · intro e'; rw [e'] at g; omega
  by_cases h3 : (isFile s (pathOf cs) || isLink s (pathOf cs)) = true
  · rw [if_pos h3] at h
    obtain ⟨n, hn, hnd⟩ := isFile_or_link h3
    have hu : unlink s (pathOf cs) = .ok (s.del (pathOf cs)) := by
      unfold unlink
      rw [hn]
      cases n with
      | dir => exact absurd rfl hnd
      | file c => rfl
      | link c => rfl
    rw [hu] at h
    exact fin n _ hn (hi.wf.del_nondir _ n hn hnd) h
  rw [if_neg h3] at h
  by_cases h4 : isDir s (pathOf cs) = true
  · rw [if_pos h4] at h
    have hd : s.get (pathOf cs) = some .dir := by
      cases hg : s.get (pathOf cs) with
      | none => simp [isDir, stat, statN, hg] at h4
      | some n => cases n with
        | dir => rfl
        | file c => simp [isDir, stat, statN, hg] at h4
        | link c => simp [isLink, hg] at h3
    obtain ⟨b, hb, hch⟩ := listdir_dir hd
    rw [hb] at h
    cases b with
    | false => cases h; exact hx.drop (.inr (listdir_false hb)) hd
    | true =>
      have hrm : rmdir s (pathOf cs) = .ok (s.del (pathOf cs)) := by unfold rmdir; rw [hd]; simp only [hb]
      simp only [hrm] at h
      exact fin _ _ hd (hi.wf.del _ hroot (hch rfl)) h
  · rw [if_neg h4] at h
    cases h
    refine ⟨hi.wf, hi.old, fun k n hk hk0 => ?_⟩
    rcases hx.new k n hk hk0 with g | g | g
    · exact .inl g
    · cases g
      cases n with
      | dir => simp [isDir, stat, statN, hk] at h4
      | file c => simp [isFile, stat, statN, hk] at h3
      | link c => simp [isLink, hk] at h3
    · exact .inr (.inr g)

/-- Nothing new is left when nothing is to be removed any more. -/
theorem Inv.same {fs0 s : FS} (hw0 : WF fs0) (h : Inv fs0 [] none s) : Same s fs0 := by
  have climb : ∀ m k, s.get k ≠ none → fs0.get k = none → ∃ k', s.get k' ≠ none ∧ fs0.get k' = none ∧ m ≤ k'.length := by
    intro m
    induction m with
    | zero => intro k h1 h2; exact ⟨k, h1, h2, by omega⟩
    | succ m ih =>
      intro k h1 h2
      obtain ⟨k1, g1, g2, g3⟩ := ih k h1 h2
      obtain ⟨n, hn⟩ := Option.ne_none_iff_exists'.mp g1
      rcases h.new k1 n hn g2 with g | g | ⟨_, k2, e1, e2, e3⟩
      · simp at g
      · cases g
      · obtain ⟨n2, hn2⟩ := Option.ne_none_iff_exists'.mp e1
        have hk2 : k2 ≠ ['/'] := by
          rintro rfl
          have : dirname ['/'] = ['/'] := by decide
          rw [this] at e3; exact e2 e3
        have := (h.wf.parent k2 n2 hn2).resolve_left hk2
        rw [e3] at this
        refine ⟨k2, e1, ?_, by omega⟩
        cases hg : fs0.get k2 with
        | none => rfl
        | some m2 =>
          have := (hw0.parent k2 m2 hg).resolve_left hk2
          rw [e3, g2] at this
          exact absurd this.1 (by simp)
  intro k
  cases hg : fs0.get k with
  | some n => exact h.old k n hg
  | none =>
    cases hs : s.get k with
    | none => rfl
    | some n =>
      obtain ⟨k', h1, _, h3⟩ := climb ((s.keys.map List.length).sum + 1) k (by rw [hs]; simp) hg
      obtain ⟨n', hn'⟩ := Option.ne_none_iff_exists'.mp h1
      have hmem : k' ∈ s.keys := (Dict.mem_keys s k').mpr (by simp [hn'])
      have : ∀ (l : List Str), k' ∈ l → k'.length ≤ (l.map List.length).sum := by
        intro l
        induction l with
        | nil => intro h; simp at h
        | cons a l ih =>
          intro h
          rw [List.map_cons, List.sum_cons]
          rcases List.mem_cons.mp h with rfl | h
          · omega
          · have := ih h; omega
      have := this _ hmem
      omega

/-- The directories on the way to something there are there. -/
theorem WF.up {s : FS} (hw : WF s) : ∀ (r q : List Str), (∀ x ∈ q ++ r, CompName x) → s.get (pathOf (q ++ r)) ≠ none →
    s.get (pathOf q) ≠ none := by
  intro r
  induction r using Pisi.snoc_induction with
  | h0 => intro q _ h; simpa using h
  | hs r c ih =>
    intro q hn h
    rw [← List.append_assoc] at h hn
    refine ih q (fun x hx => hn x (List.mem_append_left _ hx)) ?_
    obtain ⟨n, hn'⟩ := Option.ne_none_iff_exists'.mp h
    rcases hw.parent _ n hn' with g | ⟨g, _⟩
    · have := pathOf_root hn g; simp at this
    · rw [dirname_pathOf hn] at g; rw [g]; simp

/-- **C153** for packages without configuration and permanent files, all of whose members are new, and whose members are in
directories that are new or have something else in them: installing succeeds, removing succeeds, and the file system is as it was.
Missing for the full statement, which is false of the code: files that were there (they are overwritten and then deleted),
directories that were there and empty (they are deleted), configuration files (their directories stay, changed ones and
permanent files stay on purpose). -/
theorem roundtrip_partial (sha : Str → Str) (dest : Str) (db : DB.FilesDB Str α ι) (pkg : α) (l : List FileInfo)
    (is : List Item) (fs : FS) (hw : WF fs) (hs : Sound is) (hl : Lists dest l is) (hf : Fresh is fs) (hi : Inhabited is fs)
    (hplain : ∀ f ∈ l, f.conf = false ∧ f.permanent = false)
    (hforeign : ∀ f ∈ l, ¬ Foreign db pkg (joinPath dest [f.path])) :
    ∃ fs1 fs2, (extractInstall sha dest none l (is.map Item.entry) fs).2 = .ok fs1 ∧
      (∀ i ∈ is, fs1.get (pathOf i.comps) = some i.node) ∧
      removeFiles sha dest db pkg l fs1 = .ok fs2 ∧ Same fs2 fs := by
  obtain ⟨t, h1, h2, h3, h4⟩ := extract_free is fs hs hw fun i hi => ⟨.inl (hf.none i hi), hf.way i hi⟩
  have hext : (extractInstall sha dest none l (is.map Item.entry) fs).2 = .ok t := by
    unfold extractInstall
    rw [bind_ok (backupNew_none sha dest l (fs, []) fun f hf => (hplain f hf).1), bind_ok h1]
    rfl
  obtain ⟨fs2, h5, _⟩ := remove_total sha dest db pkg l t h2 (by
    intro f hf e
    obtain ⟨i, hi, hp⟩ := hl.sub f hf
    rw [hp] at e
    exact hs.ne i hi (pathOf_root (hs.names i hi) e))
  refine ⟨t, fs2, hext, h3, h5, ?_⟩
  have start : Inv fs (l.map (fun f => joinPath dest [f.path])) none t := by
    refine ⟨h2, fun k n hk => ?_, fun k n hk hk0 => ?_⟩
    · rcases h4 k with e | ⟨e, _⟩
      · rw [e]; exact hk
      · rw [hk] at e; cases e
    · rcases h4 k with e | ⟨_, i, hi, q, hq, rfl⟩
      · rw [e, hk0] at hk; cases hk
      · have inside : ∀ j ∈ is, q <+: j.comps → q ≠ j.comps →
            ∃ k', t.get k' ≠ none ∧ k' ≠ pathOf q ∧ dirname k' = pathOf q := by
          intro j hj hq1 hq2
          obtain ⟨r, hr⟩ := hq1
          have hjn := hs.names j hj
          cases r with
          | nil => exact absurd (by simpa using hr) hq2
          | cons c r =>
            have hr' : (q ++ [c]) ++ r = j.comps := by rw [← hr]; simp
            rw [← hr'] at hjn
            have hn' : ∀ x ∈ q ++ [c], CompName x := fun x hx => hjn x (List.mem_append_left _ hx)
            refine ⟨pathOf (q ++ [c]), h2.up r (q ++ [c]) hjn (by rw [hr', h3 j hj]; simp), ?_, dirname_pathOf hn'⟩
            intro e
            have := length_pathOf (cs := q) (hn' c (by simp))
            rw [e] at this; omega
        by_cases e : q = i.comps
        · subst e
          rcases hl.all i hi with ⟨f, hf, hp⟩ | ⟨hd, j, hj, hp1, hp2⟩
          · exact .inl (List.mem_map.mpr ⟨f, hf, hp⟩)
          · rw [h3 i hi] at hk; cases hk
            exact .inr (.inr ⟨hd, inside j hj hp1 hp2⟩)
        · refine .inr (.inr ⟨?_, inside i hi hq e⟩)
          obtain ⟨k', g1, g2, g3⟩ := inside i hi hq e
          obtain ⟨n', hn'⟩ := Option.ne_none_iff_exists'.mp g1
          rcases h2.parent k' n' hn' with g | ⟨g, _⟩
          · subst g
            have : dirname ['/'] = ['/'] := by decide
            rw [this] at g3; exact absurd g3 g2
          · rw [g3, hk] at g; cases g; rfl
  have loop : ∀ (l' : List FileInfo) (s s' : FS), (∀ f ∈ l', f ∈ l) →
      Inv fs (l'.map (fun f => joinPath dest [f.path])) none s → removeFiles sha dest db pkg l' s = .ok s' →
      Inv fs [] none s' := by
    intro l'
    induction l' with
    | nil => intro s s' _ hinv h; cases h; exact hinv
    | cons f l' ih =>
      intro s s' hsub hinv h
      unfold removeFiles at h
      have hfl := hsub f (by simp)
      obtain ⟨i, hi', hp⟩ := hl.sub f hfl
      cases hr : removeFile sha dest db pkg f s with
      | error e => rw [hr] at h; cases h
      | ok s1 =>
        rw [hr] at h
        refine ih s1 s' (fun g hg => hsub g (by simp [hg])) ?_ h
        rw [List.map_cons, hp] at hinv
        exact removeFile_inv hw sha dest db pkg f _ i.comps (hs.ne i hi') (hs.names i hi') hp (hf.none i hi')
          (hi i hi') (by rw [← hp]; exact hforeign f hfl) (hplain f hfl).1 (hplain f hfl).2 s s1 hinv hr
  exact (loop l t fs2 (fun f h => h) start h5).same hw

/-! ## The full statement is false -/

def exDest : Str := ['/']
def rtIs : List Item := [⟨[['a']], .file ['n']⟩]
def rtL : List FileInfo := [⟨['a'], false, some ['n'], false⟩]

theorem rt_sound : Sound rtIs := ⟨by decide, by unfold CompName; decide, by decide, by decide⟩
theorem rt_lists : Lists exDest rtL rtIs := ⟨by decide, by decide⟩

/-- A file that was there is overwritten and then deleted. -/
theorem overwritten_lost : ∃ fs1 fs2, (extractInstall id exDest none rtL (rtIs.map Item.entry)
      [(['/'], .dir), (['/', 'a'], .file ['u'])]).2 = .ok fs1 ∧
    removeFiles id exDest ([] : DB.FilesDB Str Nat Unit) 1 rtL fs1 = .ok fs2 ∧ fs2.get ['/', 'a'] = none :=
  ⟨[(['/', 'a'], .file ['n']), (['/'], .dir)], [(['/'], .dir)], by decide, by decide, by decide⟩

/-- C153 is false of the code. -/
theorem roundtrip_refuted : ¬ RoundTripFull := by
  intro h
  obtain ⟨fs1, fs2, h1, h2, h3⟩ := overwritten_lost
  have := h _ _ _ _ _ _ _ rt_sound rt_lists h1 h2 ['/', 'a']
  rw [h3] at this
  revert this; decide

/-- An empty directory that was there is deleted. -/
theorem empty_dir_lost : ∃ fs1 fs2, (extractInstall id exDest none [⟨['d', '/', 'a'], false, some ['n'], false⟩]
      [.file ['/', 'd', '/', 'a'] ['n']] [(['/'], .dir), (['/', 'd'], .dir)]).2 = .ok fs1 ∧
    removeFiles id exDest ([] : DB.FilesDB Str Nat Unit) 1 [⟨['d', '/', 'a'], false, some ['n'], false⟩] fs1 = .ok fs2 ∧
    fs2.get ['/', 'd'] = none :=
  ⟨[(['/', 'd', '/', 'a'], .file ['n']), (['/'], .dir), (['/', 'd'], .dir)], [(['/'], .dir)], by decide, by decide, by decide⟩

/-- The new directory of an unchanged configuration file stays. -/
theorem conf_dir_left : ∃ fs1 fs2, (extractInstall id exDest none [⟨['d', '/', 'a'], true, some ['n'], false⟩]
      [.file ['/', 'd', '/', 'a'] ['n']] [(['/'], .dir)]).2 = .ok fs1 ∧
    removeFiles id exDest ([] : DB.FilesDB Str Nat Unit) 1 [⟨['d', '/', 'a'], true, some ['n'], false⟩] fs1 = .ok fs2 ∧
    fs2.get ['/', 'd'] = some .dir ∧ fs2.get ['/', 'd', '/', 'a'] = none :=
  ⟨[(['/', 'd', '/', 'a'], .file ['n']), (['/', 'd'], .dir), (['/'], .dir)], [(['/', 'd'], .dir), (['/'], .dir)],
    by decide, by decide, by decide, by decide⟩

/-! ## A case meeting the hypotheses -/

def rtIs2 : List Item := [⟨[['u'], ['b']], .dir⟩, ⟨[['u'], ['b'], ['x']], .file ['1']⟩, ⟨[['u'], ['e']], .dir⟩,
  ⟨[['v'], ['w'], ['l']], .link ['/', 'u', '/', 'b']⟩]
def rtL2 : List FileInfo := [⟨['u', '/', 'b', '/', 'x'], false, some ['1'], false⟩, ⟨['u', '/', 'e'], false, none, false⟩,
  ⟨['v', '/', 'w', '/', 'l'], false, none, false⟩]
def rtFS2 : FS := [(['/'], .dir), (['/', 'u'], .dir), (['/', 'u', '/', 'o'], .file ['o'])]

example : WF rtFS2 where
  root := by decide
  parent := by
    intro k n h
    have hk : k ∈ rtFS2.keys := (Dict.mem_keys _ _).mpr (by simp [h])
    have : ∀ k ∈ rtFS2.keys, k = ['/'] ∨ (rtFS2.get (dirname k) = some .dir ∧ (dirname k).length < k.length) := by decide
    exact this k hk
example : Sound rtIs2 := ⟨by decide, by unfold CompName; decide, by decide, by decide⟩
example : Lists exDest rtL2 rtIs2 := ⟨by decide, by decide⟩
example : Fresh rtIs2 rtFS2 := by
  refine ⟨by decide, fun i hi q hq hne => ?_⟩
  have : ∀ i ∈ rtIs2, ∀ n ≤ i.comps.length, i.comps.take n ≠ i.comps →
    rtFS2.get (pathOf (i.comps.take n)) = none ∨ rtFS2.get (pathOf (i.comps.take n)) = some .dir := by decide
  rw [List.prefix_iff_eq_take.mp hq] at hne ⊢
  exact this i hi _ hq.length_le hne
example : Inhabited rtIs2 rtFS2 := by
  intro i hi q hq hne hq0 hd
  have : ∀ i ∈ rtIs2, ∀ n ≤ i.comps.length, i.comps.take n ≠ i.comps → i.comps.take n ≠ [] →
    rtFS2.get (pathOf (i.comps.take n)) = some .dir → i.comps.take n = [['u']] := by decide
  have e := List.prefix_iff_eq_take.mp hq
  rw [e] at hne hq0 hd
  have := this i hi _ hq.length_le hne hq0 hd
  rw [← e] at this
  subst this
  exact ⟨['/', 'u', '/', 'o'], by decide, by decide, by decide⟩
example : (extractInstall id exDest none rtL2 (rtIs2.map Item.entry) rtFS2).2.toOption.map
    (fun s => (s.get ['/', 'v', '/', 'w', '/', 'l'], s.get ['/', 'u', '/', 'e'])) =
    some (some (.link ['/', 'u', '/', 'b']), some .dir) := by decide +kernel

end Pisi.FS
