import Verif.Model.Path
import Verif.Spec.Path
import Verif.Lemmas.Str

/-!
# C41, C42, C59: prefix, suffix and path helpers
-/
namespace Pisi.Path
open Pisi.PathSpec Pisi.Version.Spec
variable {β : Type} [DecidableEq β]

/-! ## C42 -/

theorem prefix_iff (a b : List β) : «prefix» a b = true ↔ a <+: b := by
  induction a generalizing b with
  | nil => simp [«prefix»]
  | cons x xs ih =>
    cases b with
    | nil => simp [«prefix»]
    | cons y ys =>
      simp only [«prefix», List.cons_prefix_cons]
      split
      · next h => simp; exact fun e => absurd e h
      · next h => simp only [ne_eq, Classical.not_not] at h; simp [h, ih]

/-- **C42.** `remove_prefix` inverts prepending. -/
theorem remove_prefix_append (a b : List β) : removePrefix a (a ++ b) = .ok b := by
  simp [removePrefix, (prefix_iff a (a ++ b)).mpr ⟨b, rfl⟩]

/-- **C42.** `remove_prefix` succeeds exactly on sequences with that prefix. -/
theorem remove_prefix_ok_iff (a b r : List β) : removePrefix a b = .ok r ↔ b = a ++ r := by
  constructor
  · intro h
    unfold removePrefix at h
    split at h
    · next hp =>
      obtain ⟨t, rfl⟩ := (prefix_iff a b).mp hp
      simpa using h
    · cases h
  · rintro rfl; exact remove_prefix_append a r

theorem suffix_iff (a b : List β) : suffix a b = true ↔ a <:+ b := by
  unfold suffix; rw [prefix_iff, List.reverse_prefix]

/-- **C42.** Both helpers refuse sequences lacking the prefix or suffix. -/
theorem remove_refuses (a b : List β) :
    (¬ a <+: b → removePrefix a b = .error .assertion) ∧ (¬ a <:+ b → removeSuffix a b = .error .assertion) := by
  constructor
  · intro h; simp only [← prefix_iff] at h; simp [removePrefix, h]
  · intro h; simp only [← suffix_iff] at h; simp [removeSuffix, h]

/-- C42, full statement for suffixes. -/
def SuffixInverse (β : Type) [DecidableEq β] : Prop := ∀ a b : List β, removeSuffix a (b ++ a) = .ok b

/-- C42 fails for the empty suffix: everything is removed. -/
theorem suffix_inverse_refuted : ¬ SuffixInverse Char := by
  intro h
  have := h [] ['x']
  have e : removeSuffix [] (['x'] ++ []) = (.ok [] : Except PathErr Str) := rfl
  rw [e] at this; cases this

/-- C42 for non-empty suffixes.  Missing for the full statement: the empty suffix, for which it is false. -/
theorem suffix_inverse_partial (a b : List β) (ha : a ≠ []) : removeSuffix a (b ++ a) = .ok b := by
  have : suffix a (b ++ a) = true := (suffix_iff a _).mpr ⟨b, rfl⟩
  have hl : a.length ≠ 0 := fun e => ha (List.length_eq_zero_iff.mp e)
  simp [removeSuffix, this, ha]

/-! ## C41 -/

theorem splitOn_append (c : Char) (a b : Str) : splitOn c (a ++ c :: b) = splitOn c a ++ splitOn c b :=
  Splits.unique (splitOn_splits c _) (Splits.append c rfl (splitOn_splits c a) (splitOn_splits c b))

theorem segsFrom_eq (cur p : Str) (hc : '/' ∉ cur) :
    segsFrom cur p = (splitOn '/' (cur ++ p)).filter (· ≠ []) := by
  induction p generalizing cur with
  | nil =>
    rw [List.append_nil, splitOn_noSep '/' cur (fun x hx e => hc (e ▸ hx))]
    simp only [segsFrom]
    by_cases h : cur = [] <;> simp [h]
  | cons x r ih =>
    simp only [segsFrom]
    by_cases hx : x = '/'
    · subst hx
      rw [if_pos rfl, splitOn_append_sep '/' cur r (fun x hx e => hc (e ▸ hx)), ih [] (by simp)]
      by_cases h : cur = [] <;> simp [h]
    · rw [if_neg hx, ih (cur ++ [x]) (by simp [hc]; exact fun e => hx e.symm)]
      simp

theorem segs_eq (p : Str) : segs p = (splitOn '/' p).filter (· ≠ []) := segsFrom_eq [] p (by simp)

/-- Joining with a slash concatenates the names. -/
theorem segs_append (a b : Str) : segs (a ++ '/' :: b) = segs a ++ segs b := by
  simp [segs_eq, splitOn_append]

theorem segs_slash (b : Str) : segs ('/' :: b) = segs b := by
  simp [segs, segsFrom]

theorem segs_snoc_slash (a : Str) : segs (a ++ ['/']) = segs a := by
  have := segs_append a []
  simpa [segs, segsFrom] using this

theorem segs_lstrip (b : Str) : segs (lstripSlash b) = segs b := by
  induction b with
  | nil => rfl
  | cons x r ih =>
    unfold lstripSlash at ih ⊢
    by_cases hx : x = '/'
    · subst hx
      have : List.dropWhile (fun x => decide (x = '/')) ('/' :: r) = List.dropWhile (fun x => decide (x = '/')) r := by
        simp
      rw [this, ih, segs_slash]
    · have : List.dropWhile (fun x => decide (x = '/')) (x :: r) = x :: r := by simp [hx]
      rw [this]

theorem lstrip_not_abs (b : Str) : ¬ IsAbs (lstripSlash b) := by
  rintro ⟨r, h⟩
  induction b with
  | nil => simp [lstripSlash] at h
  | cons x t ih =>
    by_cases hx : x = '/'
    · subst hx
      apply ih
      rw [← h]; simp [lstripSlash]
    · simp [lstripSlash, hx] at h

theorem isAbs_append (a b : Str) (ha : a ≠ []) : IsAbs (a ++ b) ↔ IsAbs a := by
  cases a with
  | nil => exact absurd rfl ha
  | cons x t => simp [IsAbs]

theorem joinStep_spec (a b : Str) :
    segs (joinStep a b) = segs a ++ segs b ∧ (IsAbs (joinStep a b) ↔ IsAbs a) := by
  unfold joinStep
  split
  · next h =>
    rcases h with rfl | h
    · have hn : ¬ IsAbs [] := by rintro ⟨_, e⟩; cases e
      refine ⟨?_, ?_⟩
      · simp only [List.nil_append, segs_lstrip]; simp [segs, segsFrom]
      · simp only [List.nil_append]; exact iff_of_false (lstrip_not_abs b) hn
    · obtain ⟨t, ht⟩ : ∃ t, a = t ++ ['/'] := by
        rw [List.getLast?_eq_some_iff] at h; exact h
      have hne : a ≠ [] := by simp [ht]
      refine ⟨?_, isAbs_append _ _ hne⟩
      rw [ht, List.append_assoc, List.singleton_append, segs_append, segs_lstrip, segs_snoc_slash]
  · next h =>
    simp only [not_or] at h
    exact ⟨by rw [segs_append, segs_lstrip], isAbs_append _ _ h.1⟩

/-- **C41.** The joined path visits the names of all arguments in turn, and is absolute exactly when the first argument
is. -/
theorem join_path_denotes (a : Str) (ps : List Str) :
    segs (joinPath a ps) = segs a ++ ps.flatMap segs ∧ (IsAbs (joinPath a ps) ↔ IsAbs a) := by
  induction ps generalizing a with
  | nil => simp [joinPath]
  | cons p ps ih =>
    obtain ⟨h1, h2⟩ := ih (joinStep a p)
    obtain ⟨g1, g2⟩ := joinStep_spec a p
    have e : joinPath a (p :: ps) = joinPath (joinStep a p) ps := rfl
    rw [e]
    exact ⟨by rw [h1, g1]; simp, h2.trans g2⟩

/-- **C41.** `splitpath` returns the components of the path, which are unique. -/
theorem splitpath_spec (p : Str) (cs : List Str) : PathComps p cs ↔ splitpath p = cs := by
  have hs := splitOn_splits '/' p
  constructor
  · rintro (⟨h, hl⟩ | h)
    · have e := Splits.unique hs h
      simp only [splitpath, e, hl, if_false]
    · have e := Splits.unique hs h
      simp [splitpath, e]
  · rintro rfl
    unfold splitpath PathComps
    dsimp only
    split
    · next h =>
      right
      obtain ⟨t, ht⟩ := List.getLast?_eq_some_iff.mp h
      rw [ht] at hs ⊢
      simpa using hs
    · next h => exact Or.inl ⟨hs, h⟩

theorem segs_splitpath (p : Str) : segs p = (splitpath p).filter (· ≠ []) := by
  rw [segs_eq]
  unfold splitpath
  dsimp only
  split
  · next h =>
    obtain ⟨t, ht⟩ := List.getLast?_eq_some_iff.mp h
    simp [ht]
  · rfl

theorem splitpath_mem_noslash (p c : Str) (h : c ∈ splitpath p) : '/' ∉ c := by
  have hs : ∀ {s ps}, Splits (· = '/') s ps → c ∈ ps → '/' ∉ c := by
    intro s ps hsp hm
    induction hsp with
    | last q hq => simp at hm; subst hm; exact fun hc => hq _ hc rfl
    | cons q d t qs hq hd ht ih =>
      rcases List.mem_cons.mp hm with rfl | hm
      · exact fun hc => hq _ hc rfl
      · exact ih hm
  rcases (splitpath_spec p (splitpath p)).mpr rfl with ⟨h1, _⟩ | h1
  · exact hs h1 h
  · exact hs h1 (by simp [h])

/-- **C41.** `subpath(a, b)` holds exactly when `a`'s components are a prefix of `b`'s. -/
theorem subpath_iff (a b : Str) : subpath a b = true ↔
    ∃ ca cb, PathComps a ca ∧ PathComps b cb ∧ ca <+: cb := by
  unfold subpath
  rw [prefix_iff]
  constructor
  · exact fun h => ⟨_, _, (splitpath_spec a _).mpr rfl, (splitpath_spec b _).mpr rfl, h⟩
  · rintro ⟨ca, cb, h1, h2, h⟩
    rw [(splitpath_spec a ca).mp h1, (splitpath_spec b cb).mp h2]; exact h

theorem splitpath_abs (p : Str) : IsAbs p ↔ ∃ cs, splitpath p = [] :: cs := by
  constructor
  · rintro ⟨r, rfl⟩
    have : splitOn '/' ('/' :: r) = [] :: splitOn '/' r := splitOn_sep '/' r
    unfold splitpath
    rw [this]
    cases hr : splitOn '/' r with
    | nil => exact absurd hr (splitOn_ne_nil '/' r)
    | cons x t =>
      dsimp only
      split
      · exact ⟨(x :: t).dropLast, by simp⟩
      · exact ⟨_, rfl⟩
  · rintro ⟨cs, h⟩
    cases p with
    | nil => simp [splitpath, splitOn] at h
    | cons x t =>
      by_cases hx : x = '/'
      · exact ⟨t, by rw [hx]⟩
      · exfalso
        obtain ⟨q, qs, h1, h2⟩ := splitOn_cons '/' x t hx
        unfold splitpath at h
        rw [h2] at h
        dsimp only at h
        split at h
        · cases qs with
          | nil => simp at h
          | cons y ys => simp at h
        · simp at h

theorem splitpath_nil_iff (p : Str) : splitpath p = [] ↔ p = [] := by
  constructor
  · intro h
    cases p with
    | nil => rfl
    | cons x t =>
      exfalso
      by_cases hx : x = '/'
      · obtain ⟨cs, hcs⟩ := (splitpath_abs (x :: t)).mp ⟨t, by rw [hx]⟩
        rw [h] at hcs; cases hcs
      · obtain ⟨q, qs, h1, h2⟩ := splitOn_cons '/' x t hx
        unfold splitpath at h
        rw [h2] at h
        dsimp only at h
        split at h
        · next hl => cases qs <;> simp at h hl
        · cases h
  · rintro rfl; rfl

/-- A path below another one in the sense of `subpath` visits its names first, and starts at the same place. -/
theorem subpath_sound (a b : Str) (h : subpath a b = true) :
    segs a <+: segs b ∧ (a ≠ [] → (IsAbs a ↔ IsAbs b)) := by
  unfold subpath at h
  obtain ⟨t, ht⟩ := (prefix_iff _ _).mp h
  refine ⟨?_, fun ha => ?_⟩
  · rw [segs_splitpath, segs_splitpath, ← ht, List.filter_append]; exact ⟨_, rfl⟩
  · rw [splitpath_abs, splitpath_abs]
    cases hc : splitpath a with
    | nil => exact absurd ((splitpath_nil_iff a).mp hc) ha
    | cons x xs => rw [hc] at ht; rw [← ht]; simp

/-- A path without repeated slashes. -/
def Clean (p : Str) : Prop := ∀ a b, p ≠ a ++ '/' :: '/' :: b

theorem joinWith_append (a b : List Str) (ha : a ≠ []) (hb : b ≠ []) :
    joinWith ['/'] (a ++ b) = joinWith ['/'] a ++ '/' :: joinWith ['/'] b := by
  induction a with
  | nil => exact absurd rfl ha
  | cons x t ih =>
    cases t with
    | nil =>
      cases b with
      | nil => exact absurd rfl hb
      | cons y r => simp [joinWith]
    | cons y r => simp only [List.cons_append, joinWith]; simp only [List.cons_append] at ih; rw [ih (by simp)]; simp

theorem splits_joinWith (s : Str) (ps : List Str) (h : Splits (· = '/') s ps) : joinWith ['/'] ps = s := by
  induction h with
  | last p hp => rfl
  | cons p c t ps hp hc ht ih =>
    subst hc
    cases ps with
    | nil => cases ht
    | cons q qs => simp [joinWith, ih]

theorem clean_comps (p c : Str) (cs : List Str) (hp : Clean p) (h : splitpath p = c :: cs) : ∀ d ∈ cs, d ≠ [] := by
  rintro d hd rfl
  obtain ⟨x, y, rfl⟩ := List.append_of_mem hd
  have key : ∀ z, z ≠ [] → Splits (· = '/') p ((c :: x) ++ [] :: z) → False := by
    intro z hz hs
    have e := splits_joinWith p _ hs
    have e2 : (c :: x) ++ [] :: z = (c :: x) ++ ([[]] ++ z) := by simp
    rw [e2, joinWith_append _ _ (by simp) (by simp), joinWith_append _ _ (by simp) hz] at e
    exact hp _ _ e.symm
  rcases (splitpath_spec p (splitpath p)).mpr rfl with ⟨h1, h2⟩ | h1
  · rw [h] at h1 h2
    cases y with
    | nil => exact h2 (by rw [← List.cons_append]; exact List.getLast?_concat)
    | cons y0 y => exact key (y0 :: y) (by simp) (by simpa using h1)
  · rw [h] at h1
    exact key (y ++ [[]]) (by simp) (by simpa using h1)

/-- **C41.** On paths without repeated slashes `subpath` is exactly "below or equal": same start, names a prefix. -/
theorem subpath_clean (a b : Str) (ha : Clean a) (hb : Clean b) (hne : a ≠ []) :
    subpath a b = true ↔ (IsAbs a ↔ IsAbs b) ∧ segs a <+: segs b := by
  constructor
  · intro h; obtain ⟨h1, h2⟩ := subpath_sound a b h; exact ⟨h2 hne, h1⟩
  · rintro ⟨h1, h2⟩
    unfold subpath
    rw [prefix_iff]
    have form : ∀ p, Clean p → (IsAbs p → splitpath p = [] :: segs p) ∧ (¬ IsAbs p → splitpath p = segs p) := by
      intro p hp
      refine ⟨fun hx => ?_, fun hx => ?_⟩
      · obtain ⟨cs, hcs⟩ := (splitpath_abs p).mp hx
        rw [segs_splitpath, hcs]
        have := clean_comps p [] cs hp hcs
        have e : cs.filter (· ≠ []) = cs := List.filter_eq_self.mpr (fun d hd => by simp [this d hd])
        simpa using e.symm
      · rw [segs_splitpath]
        cases hc : splitpath p with
        | nil => rfl
        | cons c cs =>
          have hcne : c ≠ [] := fun e => hx ((splitpath_abs p).mpr ⟨cs, by rw [hc, e]⟩)
          have := clean_comps p c cs hp hc
          exact (List.filter_eq_self.mpr (fun d hd => by
            rcases List.mem_cons.mp hd with rfl | hd
            · simp [hcne]
            · simp [this d hd])).symm
    by_cases hx : IsAbs a
    · rw [(form a ha).1 hx, (form b hb).1 (h1.mp hx)]
      exact List.cons_prefix_cons.mpr ⟨rfl, h2⟩
    · rw [(form a ha).2 hx, (form b hb).2 (fun e => hx (h1.mpr e))]; exact h2

theorem segs_single (c : Str) (h : '/' ∉ c) (hne : c ≠ []) : segs c = [c] := by
  rw [segs_eq, splitOn_noSep '/' c (fun x hx e => h (e ▸ hx))]; simp [hne]

theorem flatMap_segs (cs : List Str) (h : ∀ c ∈ cs, '/' ∉ c) : cs.flatMap segs = cs.filter (· ≠ []) := by
  induction cs with
  | nil => rfl
  | cons c cs ih =>
    have ih' := ih (fun x hx => h x (by simp [hx]))
    rw [List.flatMap_cons, List.filter_cons, ih']
    by_cases hc : c = []
    · subst hc; simp [segs, segsFrom]
    · rw [segs_single c (h c (by simp)) hc]; simp [hc]

/-- C41, full statement: below `a`, re-attaching the remainder leads to the same place. -/
def Rebase : Prop := ∀ a b, subpath a b = true →
  ∃ r, removepathprefix a b = .ok r ∧ SameLoc (joinPath a [r]) b

/-- C41 fails for the empty prefix and an absolute path: the leading slash is lost. -/
theorem rebase_refuted : ¬ Rebase := by
  intro h
  obtain ⟨r, h1, h2, _⟩ := h [] ['/', 'x'] rfl
  have : removepathprefix [] ['/', 'x'] = .ok ['x'] := rfl
  rw [this] at h1; cases h1
  obtain ⟨t, ht⟩ := h2.mpr ⟨_, rfl⟩
  revert ht
  simp [joinPath, joinStep, lstripSlash]

/-- C41 except for the empty prefix of an absolute path, for which it is false. -/
theorem rebase_partial (a b : Str) (hab : a ≠ [] ∨ ¬ IsAbs b) (h : subpath a b = true) :
    ∃ r, removepathprefix a b = .ok r ∧ SameLoc (joinPath a [r]) b := by
  have hsound := subpath_sound a b h
  unfold subpath at h
  obtain ⟨t, ht⟩ := (prefix_iff _ _).mp h
  have hns : ∀ c ∈ t, '/' ∉ c := fun c hc => splitpath_mem_noslash b c (by rw [← ht]; simp [hc])
  have hr : removePrefix (splitpath a) (splitpath b) = .ok t := (remove_prefix_ok_iff _ _ _).mpr ht.symm
  have key : ∀ r, segs r = t.filter (· ≠ []) → SameLoc (joinPath a [r]) b := by
    intro r hsr
    obtain ⟨j1, j2⟩ := join_path_denotes a [r]
    refine ⟨?_, ?_⟩
    · rw [j2]
      by_cases ha : a = []
      · subst ha
        have : ¬ IsAbs b := hab.resolve_left (by simp)
        exact iff_of_false (by rintro ⟨_, e⟩; cases e) this
      · exact hsound.2 ha
    · rw [j1]
      simp only [List.flatMap_cons, List.flatMap_nil, List.append_nil]
      rw [hsr, segs_splitpath, segs_splitpath b, ← ht, List.filter_append]
  unfold removepathprefix
  rw [hr]
  cases t with
  | nil => exact ⟨[], rfl, key [] (by simp [segs, segsFrom])⟩
  | cons c cs =>
    refine ⟨_, rfl, key _ ?_⟩
    rw [(join_path_denotes c cs).1]
    have := flatMap_segs (c :: cs) hns
    simpa using this

/-- `removepathprefix` refuses paths that are not below the prefix. -/
theorem removepathprefix_refuses (a b : Str) (h : subpath a b = false) :
    removepathprefix a b = .error .assertion := by
  have : removePrefix (splitpath a) (splitpath b) = .error .assertion := by
    unfold subpath at h; simp [removePrefix, h]
  simp [removepathprefix, this]

theorem foldl_make (cs : List Str) (p : Str) :
    cs.foldl (fun x y => x ++ ['/'] ++ y) p = p ++ cs.flatMap (fun y => '/' :: y) := by
  induction cs generalizing p with
  | nil => simp
  | cons c cs ih => rw [List.foldl_cons, ih]; simp

theorem joinWith_make (c : Str) (cs : List Str) :
    joinWith ['/'] (c :: cs) = c ++ cs.flatMap (fun y => '/' :: y) := by
  induction cs generalizing c with
  | nil => simp [joinWith]
  | cons d ds ih => simp [joinWith, ih d]

/-- **C41.** `makepath(splitpath(p), relative=True)` gives `p` back, without a final slash. -/
theorem makepath_splitpath (p : Str) :
    (∀ q, p = q ++ ['/'] → makepath (splitpath p) true = q) ∧
    ((∀ q, p ≠ q ++ ['/']) → makepath (splitpath p) true = p) := by
  have hm : ∀ c cs, makepath (c :: cs) true = joinWith ['/'] (c :: cs) := by
    intro c cs
    rw [joinWith_make]; unfold makepath; rw [foldl_make]; simp
  have hm' : ∀ cs, cs ≠ [] → makepath cs true = joinWith ['/'] cs := by
    intro cs h; cases cs with
    | nil => exact absurd rfl h
    | cons c cs => exact hm c cs
  constructor
  · rintro q rfl
    have e : splitOn '/' (q ++ ['/']) = splitOn '/' q ++ [[]] := by
      have := splitOn_append '/' q []; simpa [splitOn] using this
    have : splitpath (q ++ ['/']) = splitOn '/' q := by
      unfold splitpath; rw [e]; simp
    rw [this, hm' _ (splitOn_ne_nil '/' q)]
    exact splits_joinWith q _ (splitOn_splits '/' q)
  · intro h
    rcases (splitpath_spec p (splitpath p)).mpr rfl with ⟨h1, h2⟩ | h1
    · cases hc : splitpath p with
      | nil => rw [(splitpath_nil_iff p).mp hc]; rfl
      | cons c cs => rw [hm, ← hc]; exact splits_joinWith p _ h1
    · have := splits_joinWith p _ h1
      cases hc : splitpath p with
      | nil => rw [hc] at this; simp [joinWith] at this; subst this; rfl
      | cons c cs =>
        exfalso
        rw [hc] at this
        apply h (c ++ cs.flatMap (fun y => '/' :: y))
        rw [← this]
        have e := joinWith_make c (cs ++ [[]])
        simpa using e

/-- **C41.** `splitpath(makepath(cs, relative=True))` gives `cs` back, for components without slashes of which the last
is not empty. -/
theorem splitpath_makepath (cs : List Str) (h : ∀ c ∈ cs, '/' ∉ c) (hl : cs.getLast? ≠ some []) :
    splitpath (makepath cs true) = cs := by
  apply (splitpath_spec _ _).mp
  cases cs with
  | nil => right; exact Splits.last [] (by simp)
  | cons c cs =>
    left
    refine ⟨?_, hl⟩
    have : makepath (c :: cs) true = joinWith ['/'] (c :: cs) := by
      rw [joinWith_make]; unfold makepath; rw [foldl_make]; simp
    rw [this]
    clear hl this
    induction cs generalizing c with
    | nil => exact Splits.last c (fun x hx e => h c (by simp) (e ▸ hx))
    | cons d ds ih =>
      have := ih d (fun x hx => h x (by simp [hx]))
      have e : joinWith ['/'] (c :: d :: ds) = c ++ '/' :: joinWith ['/'] (d :: ds) := by simp [joinWith]
      rw [e]
      exact Splits.cons c '/' _ _ (fun x hx e => h c (by simp) (e ▸ hx)) rfl this

/-- **C41.** Without `relative` the path is rooted. -/
theorem makepath_absolute (cs : List Str) (h : cs ≠ []) : makepath cs = '/' :: makepath cs true := by
  cases cs with
  | nil => exact absurd rfl h
  | cons c cs => simp [makepath]

/-- `absolute_path` is right about non-empty paths and raises `IndexError` on the empty one. -/
theorem absolute_path_iff (p : Str) :
    (p = [] → absolutePath p = .error .index) ∧ (p ≠ [] → ∃ b, absolutePath p = .ok b ∧ (b = true ↔ IsAbs p)) := by
  constructor
  · rintro rfl; rfl
  · intro hp
    unfold absolutePath
    cases hc : splitpath p with
    | nil => exact absurd ((splitpath_nil_iff p).mp hc) hp
    | cons c cs =>
      refine ⟨_, rfl, ?_⟩
      rw [splitpath_abs, hc]; simp

/-! ## C59 -/

/-- C59, full statement: `parentpath` leads to the parent of a path with at least one name. -/
def ParentPath : Prop := ∀ a, segs a ≠ [] → segs (parentpath a) = (segs a).dropLast

/-- C59 fails for a name without a slash: its last character is dropped. -/
theorem parentpath_refuted : ¬ ParentPath := by
  intro h
  have := h ['a', 'b'] (by decide)
  revert this; decide

theorem rstrip_slashes (q : Str) (k : Nat) (h : q.getLast? ≠ some '/') :
    rstrip (· = '/') (q ++ List.replicate k '/') = q := by
  unfold rstrip
  rw [List.reverse_append, List.reverse_replicate]
  rw [dropWhile_append_left _ _ _ (fun x hx => by simp [(List.mem_replicate.mp hx).2])]
  cases hq : q.reverse with
  | nil => simp at hq; simp [hq]
  | cons x t =>
    have : q.getLast? = some x := by
      rw [← List.head?_reverse, hq]; rfl
    have hx : x ≠ '/' := fun e => h (by rw [this, e])
    simp only [List.dropWhile_cons, hx, decide_false, Bool.false_eq_true, if_false]
    rw [← hq, List.reverse_reverse]

theorem beforeLast_append (q n : Str) (h : '/' ∉ n) : beforeLast '/' (q ++ '/' :: n) = q := by
  unfold beforeLast
  rw [if_pos (by simp)]
  have : (q ++ '/' :: n).reverse = n.reverse ++ '/' :: q.reverse := by simp
  rw [this, dropWhile_append_left _ _ _ (fun x hx => by
    simp only [ne_eq, decide_not, Bool.not_eq_true', decide_eq_false_iff_not]
    rintro rfl; exact h (by simpa using hx))]
  simp

/-- C59 for paths that contain a slash before their last name: the result is what precedes the last name.  Missing for
the full statement: names without a slash, for which it is false. -/
theorem parentpath_partial (q n : Str) (k : Nat) (hn : '/' ∉ n) (hne : n ≠ []) :
    parentpath (q ++ '/' :: n ++ List.replicate k '/') = q ∧
    segs (parentpath (q ++ '/' :: n ++ List.replicate k '/')) = (segs (q ++ '/' :: n)).dropLast := by
  have e : parentpath (q ++ '/' :: n ++ List.replicate k '/') = q := by
    unfold parentpath
    rw [rstrip_slashes, beforeLast_append q n hn]
    intro hl
    obtain ⟨t, ht⟩ := List.getLast?_eq_some_iff.mp hl
    obtain ⟨m, x, rfl⟩ : ∃ m x, n = m ++ [x] := ⟨n.dropLast, n.getLast hne, (List.dropLast_concat_getLast hne).symm⟩
    have : q ++ '/' :: (m ++ [x]) = (q ++ '/' :: m) ++ [x] := by simp
    rw [this] at ht
    have := (List.append_inj' ht rfl).2
    simp at this; subst this; exact hn (by simp)
  refine ⟨e, ?_⟩
  rw [e, segs_append, segs_single n hn hne]
  simp

/-! ## Non-vacuity -/
section Examples

example : subpath ['/', 'u'] ['/', 'u', '/', '/', 'x', '/'] = true ∧
    removepathprefix ['/', 'u'] ['/', 'u', '/', '/', 'x', '/'] = .ok ['x'] := ⟨rfl, rfl⟩
example : subpath ['/', 'u'] ['/', 'u', 's'] = false := rfl
example : segs ['/', 'u', '/', '/', 'x', 'y', '/'] = [['u'], ['x', 'y']] := rfl
example : parentpath ['/', 'u', '/', 'x', '/', '/'] = ['/', 'u'] := rfl
example : joinPath ['/'] [['/', 'e'], ['f', '/'], ['/', 'g']] = ['/', 'e', '/', 'f', '/', 'g'] := rfl

end Examples

end Pisi.Path
