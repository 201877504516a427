import Verif.Spec.Actions
import Verif.Lemmas.Str
import Verif.Lemmas.ListAux
import Verif.Lemmas.Packaging

/-! # Paths, resolution and glob of the actions API -/
namespace Pisi.Act
open Pisi.Path (joinPath joinStep lstripSlash)

/-! ## Components -/

theorem splitOn_append (c : Char) (a b : Str) : splitOn c (a ++ c :: b) = splitOn c a ++ splitOn c b := by
  induction a with
  | nil => simp [splitOn]
  | cons x xs ih =>
    by_cases h : x = c
    · subst h; simp [splitOn, ih]
    · obtain ⟨p, ps, h1, h2⟩ := splitOn_cons c x xs h
      obtain ⟨p', ps', h1', h2'⟩ := splitOn_cons c x (xs ++ c :: b) h
      rw [List.cons_append, h2', h2]
      rw [ih, h1] at h1'
      simp only [List.cons_append, List.cons.injEq] at h1'
      rw [← h1'.1, ← h1'.2]; simp

theorem comps_append (a b : Str) : comps (a ++ '/' :: b) = comps a ++ comps b := by
  simp [comps, splitOn_append, List.filter_append]

@[simp] theorem comps_nil : comps [] = [] := by simp [comps, splitOn]

theorem comps_slash (b : Str) : comps ('/' :: b) = comps b := by
  have := comps_append [] b; simpa using this

theorem comps_trail (a : Str) : comps (a ++ ['/']) = comps a := by
  have := comps_append a []; simpa using this

theorem comps_noslash {b : Str} (h : '/' ∉ b) : comps b = if b ≠ [] ∧ b ≠ ['.'] then [b] else [] := by
  unfold comps
  rw [splitOn_noSep '/' b (fun x hx e => h (e ▸ hx))]
  by_cases hb : b ≠ [] ∧ b ≠ ['.'] <;> simp [hb]

theorem comps_proper {b : Str} (h : Proper b) : comps b = [b] := by
  rw [comps_noslash h.2.2.2, if_pos ⟨h.1, h.2.1⟩]

theorem mem_comps {s c : Str} (h : c ∈ comps s) : c ≠ [] ∧ c ≠ ['.'] ∧ '/' ∉ c := by
  unfold comps at h
  have := List.mem_filter.mp h
  have h2 := this.2
  simp only [decide_eq_true_eq] at h2
  exact ⟨h2.1, h2.2, Pack.splitOn_noslash this.1⟩

theorem proper_of_comps {s c : Str} (h : c ∈ comps s) (hd : c ≠ dotdot) : Proper c :=
  ⟨(mem_comps h).1, (mem_comps h).2.1, hd, (mem_comps h).2.2⟩

theorem comps_lstrip (b : Str) : comps (lstripSlash b) = comps b := by
  induction b with
  | nil => rfl
  | cons x xs ih =>
    by_cases h : x = '/'
    · subst h
      rw [comps_slash, ← ih]
      simp [lstripSlash]
    · simp [lstripSlash, h]

theorem comps_rstrip (b : Str) : comps (Path.rstrip (· = '/') b) = comps b := by
  induction b using snoc_induction with
  | h0 => rfl
  | hs xs x ih =>
    by_cases h : x = '/'
    · subst h
      rw [comps_trail, ← ih]
      simp [Path.rstrip]
    · simp [Path.rstrip, h]

theorem comps_strip (b : Str) : comps (stripSlash b) = comps b := by
  unfold stripSlash; rw [comps_rstrip, comps_lstrip]

theorem comps_joinStep (a b : Str) : comps (joinStep a b) = comps a ++ comps b := by
  unfold joinStep
  by_cases h : a = [] ∨ a.getLast? = some '/'
  · rw [if_pos h]
    rcases h with rfl | h
    · simp [comps_lstrip]
    · obtain ⟨a', rfl⟩ : ∃ a', a = a' ++ ['/'] := by
        have := List.getLast?_eq_some_iff.mp h
        exact this
      rw [List.append_assoc, List.singleton_append, comps_append, comps_trail, comps_lstrip]
  · rw [if_neg h, comps_append, comps_lstrip]

theorem comps_join1 (a b : Str) : comps (joinPath a [b]) = comps a ++ comps b := by
  simp [joinPath, comps_joinStep]

theorem comps_join2 (a b c : Str) : comps (joinPath a [b, c]) = comps a ++ comps b ++ comps c := by
  simp [joinPath, comps_joinStep]

theorem isAbs_append {a : Str} (b : Str) (h : a ≠ []) : isAbs (a ++ b) = isAbs a := by
  cases a with
  | nil => exact absurd rfl h
  | cons x xs => rfl

theorem isAbs_joinStep {a : Str} (b : Str) (h : isAbs a = true) : isAbs (joinStep a b) = true := by
  have ha : a ≠ [] := by rintro rfl; simp [isAbs] at h
  unfold joinStep
  split
  · rw [isAbs_append _ ha]; exact h
  · rw [isAbs_append _ ha]; exact h

theorem isAbs_join1 {a : Str} (b : Str) (h : isAbs a = true) : isAbs (joinPath a [b]) = true := by
  simpa [joinPath] using isAbs_joinStep b h

theorem isAbs_join2 {a : Str} (b c : Str) (h : isAbs a = true) : isAbs (joinPath a [b, c]) = true := by
  simpa [joinPath] using isAbs_joinStep c (isAbs_joinStep b h)

theorem isAbs_noslash {b : Str} (h : '/' ∉ b) : isAbs b = false := by
  cases b with
  | nil => rfl
  | cons x xs =>
    have : x ≠ '/' := fun e => h (e ▸ List.mem_cons_self)
    simp [isAbs, this]

theorem comps_osJoin {a b : Str} (h : isAbs b = false) : comps (osJoin a b) = comps a ++ comps b := by
  unfold osJoin
  rw [h]
  simp only [Bool.false_eq_true, if_false]
  by_cases ha : a = [] ∨ a.getLast? = some '/'
  · rw [if_pos ha]
    rcases ha with rfl | ha
    · simp
    · obtain ⟨a', rfl⟩ := List.getLast?_eq_some_iff.mp ha
      rw [List.append_assoc, List.singleton_append, comps_append, comps_trail]
  · rw [if_neg ha, comps_append]

theorem isAbs_osJoin {a b : Str} (h : isAbs b = false) : isAbs (osJoin a b) = isAbs a := by
  unfold osJoin
  rw [h]
  simp only [Bool.false_eq_true, if_false]
  by_cases ha : a = []
  · subst ha; simp [isAbs] at *; exact h
  · split <;> rw [isAbs_append _ ha]

theorem absComps_osJoin {cwd a b : Str} (h : isAbs b = false) : absComps cwd (osJoin a b) = absComps cwd a ++ comps b := by
  unfold absComps
  rw [isAbs_osJoin h, comps_osJoin h]
  split <;> simp

theorem basename_noslash (s : Str) : '/' ∉ basename s := by
  unfold basename
  intro h
  rw [List.mem_reverse] at h
  have key : ∀ l : List Char, '/' ∉ l.takeWhile (· ≠ '/') := by
    intro l
    induction l with
    | nil => simp
    | cons x xs ih =>
      by_cases hx : x = '/'
      · simp [hx]
      · simp only [List.takeWhile_cons, ne_eq, hx, not_false_eq_true, decide_true, if_true, List.mem_cons, not_or]
        exact ⟨fun e => hx e.symm, ih⟩
  exact key _ h

/-- What stands before the last component. -/
def headOf (s : Str) : Str := (s.reverse.dropWhile (· ≠ '/')).reverse

theorem headOf_append (s : Str) : headOf s ++ basename s = s := by
  unfold headOf basename
  rw [← List.reverse_append, List.takeWhile_append_dropWhile, List.reverse_reverse]

theorem headOf_cases (s : Str) : headOf s = [] ∨ ∃ a, headOf s = a ++ ['/'] := by
  unfold headOf
  cases h : s.reverse.dropWhile (· ≠ '/') with
  | nil => left; rfl
  | cons x xs =>
    right
    have hx : x = '/' := by
      have := List.head?_dropWhile_not (p := fun c => decide (c ≠ '/')) (l := s.reverse)
      rw [h] at this
      simpa using this
    subst hx
    exact ⟨xs.reverse, by simp⟩

theorem dirname_eq (s : Str) : FS.dirname s = if (headOf s).all (· = '/') then headOf s else Path.rstrip (· = '/') (headOf s) := rfl

theorem comps_headOf (s : Str) : comps s = comps (headOf s) ++ comps (basename s) := by
  conv_lhs => rw [← headOf_append s]
  rcases headOf_cases s with h | ⟨a, h⟩
  · simp [h]
  · rw [h, List.append_assoc, List.singleton_append, comps_append, comps_trail]

theorem comps_dirname (s : Str) : comps (FS.dirname s) = comps (headOf s) := by
  rw [dirname_eq]
  split
  · rfl
  · exact comps_rstrip _

theorem comps_split (s : Str) : comps s = comps (FS.dirname s) ++ comps (basename s) := by
  rw [comps_dirname]; exact comps_headOf s

theorem rstrip_head (x : Char) (xs : Str) (h : Path.rstrip (· = '/') (x :: xs) ≠ []) :
    ∃ r, Path.rstrip (· = '/') (x :: xs) = x :: r := by
  unfold Path.rstrip at *
  rw [List.reverse_cons, List.dropWhile_append] at *
  by_cases hd : (xs.reverse.dropWhile fun c => decide (c = '/')).isEmpty
  · rw [if_pos hd] at h ⊢
    by_cases hx : x = '/'
    · simp [hx] at h
    · simp [hx]
  · rw [if_neg hd]
    simp

theorem isAbs_dirname (s : Str) : isAbs (FS.dirname s) = isAbs s := by
  have key : isAbs (FS.dirname s) = isAbs (headOf s) := by
    rw [dirname_eq]
    by_cases h : (headOf s).all (· = '/') = true
    · rw [if_pos h]
    · rw [if_neg h]
      cases hh : headOf s with
      | nil => rfl
      | cons x xs =>
        have : Path.rstrip (· = '/') (x :: xs) ≠ [] := by
          intro hn
          apply h
          rw [hh]
          rw [List.all_eq_true]
          unfold Path.rstrip at hn
          have hn' : (x :: xs).reverse.dropWhile (fun c => decide (c = '/')) = [] := by simpa using hn
          intro y hy
          have h3 := List.takeWhile_append_dropWhile (p := fun c => decide (c = '/')) (l := (x :: xs).reverse)
          rw [hn', List.append_nil] at h3
          have : y ∈ (x :: xs).reverse := List.mem_reverse.mpr hy
          rw [← h3] at this
          have key : ∀ l : List Char, ∀ y ∈ l.takeWhile (fun c => decide (c = '/')), decide (y = '/') = true := by
            intro l
            induction l with
            | nil => simp
            | cons a l ih =>
              intro y hy
              by_cases ha : a = '/'
              · simp only [List.takeWhile_cons, ha, decide_true, if_true, List.mem_cons] at hy
                rcases hy with rfl | hy
                · simp
                · exact ih y hy
              · simp [ha] at hy
          exact key _ y this
        obtain ⟨r, hr⟩ := rstrip_head x xs this
        rw [hr]; rfl
  rw [key]
  conv_rhs => rw [← headOf_append s]
  by_cases h : headOf s = []
  · rw [h, List.nil_append, isAbs_noslash (basename_noslash s)]; rfl
  · rw [isAbs_append _ h]

theorem mem_comps_basename {s c : Str} (h : c ∈ comps (basename s)) : (comps s).getLast? = some c := by
  rw [comps_split s]
  rw [comps_noslash (basename_noslash s)] at h ⊢
  split at h
  · rename_i hb
    rw [if_pos hb]
    simp only [List.mem_singleton] at h
    subst h; simp
  · simp at h

/-! ## Resolution without links -/

theorem get_mem {fs : FS} {p : Loc} {n : Node} (h : fs.get p = some n) : (p, n) ∈ fs := by
  induction fs with
  | nil => simp at h
  | cons e fs ih =>
    obtain ⟨k, v⟩ := e
    simp only [Dict.get] at h
    by_cases hk : k = p
    · simp [hk] at h; subst h; subst hk; exact List.mem_cons_self
    · simp only [hk, if_false] at h; exact List.mem_cons_of_mem _ (ih h)

theorem look_not_link {fs : FS} (h : LinkFree fs) (p : Loc) (t : Str) : look fs p ≠ some (.link t) := by
  unfold look
  split
  · simp
  · intro hg; exact h _ (get_mem hg) t rfl

/-- What happens at a link. -/
def walkLink (fs : FS) (f : Bool) : Nat → Loc → List Str → Option Loc
  | 0 => fun _ _ => none
  | n + 1 => walk fs f n

theorem walk_nil (fs : FS) (f : Bool) (n : Nat) (cur : Loc) : walk fs f n cur [] = some cur := by cases n <;> rfl

theorem walk_cons (fs : FS) (f : Bool) (n : Nat) (cur : Loc) (c : Str) (r : List Str) : walk fs f n cur (c :: r) =
    if c = dotdot then walk fs f n cur.dropLast r
    else match look fs (cur ++ [c]) with
      | some (.link t) =>
        if r = [] ∧ f = false then some (cur ++ [c]) else walkLink fs f n (if isAbs t then [] else cur) (comps t ++ r)
      | some .dir => walk fs f n (cur ++ [c]) r
      | some (.file _) => if r = [] then some (cur ++ [c]) else none
      | none => if r = [] then some (cur ++ [c]) else none := by cases n <;> rfl

theorem walk_eq {fs : FS} (h : LinkFree fs) (f : Bool) (n : Nat) : ∀ (cs : List Str) (cur p : Loc),
    walk fs f n cur cs = some p → dotdot ∉ cs → p = cur ++ cs := by
  intro cs
  induction cs with
  | nil => intro cur p hw _; rw [walk_nil] at hw; simp at hw; simp [hw]
  | cons c r ih =>
    intro cur p hw hd
    rw [walk_cons] at hw
    have hc : c ≠ dotdot := fun e => hd (e ▸ List.mem_cons_self)
    rw [if_neg hc] at hw
    have hr : dotdot ∉ r := fun e => hd (List.mem_cons_of_mem _ e)
    cases hl : look fs (cur ++ [c]) with
    | none =>
      rw [hl] at hw
      by_cases hn : r = []
      · subst hn; simp at hw; simp [hw]
      · simp [hn] at hw
    | some x =>
      rw [hl] at hw
      cases x with
      | link t => exact absurd hl (look_not_link h _ _)
      | dir => have := ih _ _ hw hr; simp [this]
      | file b =>
        by_cases hn : r = []
        · subst hn; simp at hw; simp [hw]
        · simp [hn] at hw

theorem resolve_eq {fs : FS} (h : LinkFree fs) {cs : List Str} {p : Loc} (hd : dotdot ∉ cs) (hr : resolve fs cs = some p) :
    p = cs := by
  have := walk_eq h _ _ _ _ _ hr hd; simpa using this

theorem lresolve_eq {fs : FS} (h : LinkFree fs) {cs : List Str} {p : Loc} (hd : dotdot ∉ cs) (hr : lresolve fs cs = some p) :
    p = cs := by
  have := walk_eq h _ _ _ _ _ hr hd; simpa using this

/-- A path over directories only resolves to itself, whatever links there are elsewhere. -/
theorem walk_reached {fs : FS} (f : Bool) (n : Nat) : ∀ (cs : List Str) (cur : Loc), dotdot ∉ cs →
    (∀ q, q <+: cs → q ≠ [] → q ≠ cs → look fs (cur ++ q) = some .dir) →
    (∀ t, look fs (cur ++ cs) ≠ some (.link t)) → walk fs f n cur cs = some (cur ++ cs) := by
  intro cs
  induction cs with
  | nil => intro cur _ _ _; rw [walk_nil]; simp
  | cons c r ih =>
    intro cur hd hq hl
    have hc : c ≠ dotdot := fun e => hd (e ▸ List.mem_cons_self)
    have hr : dotdot ∉ r := fun e => hd (List.mem_cons_of_mem _ e)
    rw [walk_cons, if_neg hc]
    by_cases hn : r = []
    · subst hn
      cases hlk : look fs (cur ++ [c]) with
      | none => simp
      | some x => cases x with
        | link t => exact absurd hlk (hl t)
        | dir => simp [walk_nil]
        | file b => simp
    · have h1 : look fs (cur ++ [c]) = some .dir := hq [c] ⟨r, rfl⟩ (by simp) (by intro e; simp at e; exact hn e)
      rw [h1]
      have := ih (cur ++ [c]) hr (fun q hqp hq0 hqr => by
        have := hq (c :: q) (by obtain ⟨t, rfl⟩ := hqp; exact ⟨t, rfl⟩) (by simp) (by simpa using hqr)
        simpa using this) (by simpa using hl)
      simpa using this

theorem stat_reached {fs : FS} {cs : List Str} (hd : dotdot ∉ cs) (hr : Reached fs cs) (hl : ∀ t, look fs cs ≠ some (.link t)) :
    stat fs cs = look fs cs ∧ resolve fs cs = some cs ∧ lresolve fs cs = some cs := by
  have h1 := walk_reached (fs := fs) true 40 cs [] hd (fun q h1 _ h3 => by simpa using hr q h1 h3) (by simpa using hl)
  have h2 := walk_reached (fs := fs) false 40 cs [] hd (fun q h1 _ h3 => by simpa using hr q h1 h3) (by simpa using hl)
  refine ⟨?_, by simpa [resolve] using h1, by simpa [lresolve] using h2⟩
  unfold stat resolve; rw [h1]; simp

/-! ## glob -/

/-- Component by component: taken as it is, or a name for a wild card. -/
def Fits (c c' : Str) : Prop := (hasMagic c = false ∧ c' = c) ∨ (hasMagic c = true ∧ Proper c')

theorem hasMagic_append (a b : Str) : hasMagic (a ++ b) = (hasMagic a || hasMagic b) := by simp [hasMagic]

theorem splitOn_plain {s : Str} (h : hasMagic s = false) {c : Str} (hc : c ∈ splitOn '/' s) : hasMagic c = false := by
  have hs : ∀ x ∈ s, (x = '*' || x = '?' || x = '[') = false := by
    intro x hx
    simp only [hasMagic, List.any_eq_false] at h
    have := h x hx
    simpa using this
  have : ∀ (s : Str), (∀ x ∈ s, (x = '*' || x = '?' || x = '[') = false) → ∀ c ∈ splitOn '/' s, ∀ x ∈ c, x ∈ s := by
    intro s
    induction s with
    | nil => intro _ c hc x hx; simp [splitOn] at hc; subst hc; simp at hx
    | cons y ys ih =>
      intro hm c hc x hx
      have ih := ih (fun x hx => hm x (List.mem_cons_of_mem _ hx))
      by_cases hy : y = '/'
      · simp only [splitOn, hy, if_true, List.mem_cons] at hc
        rcases hc with rfl | hc
        · simp at hx
        · exact List.mem_cons_of_mem _ (ih c hc x hx)
      · obtain ⟨p, ps, h1, h2⟩ := splitOn_cons '/' y ys hy
        rw [h2] at hc
        rw [h1] at ih
        rcases List.mem_cons.mp hc with rfl | hc
        · rcases List.mem_cons.mp hx with rfl | hx
          · exact List.mem_cons_self
          · exact List.mem_cons_of_mem _ (ih p List.mem_cons_self x hx)
        · exact List.mem_cons_of_mem _ (ih c (List.mem_cons_of_mem _ hc) x hx)
  simp only [hasMagic, List.any_eq_false]
  intro x hx
  have := hs x (this s hs c hc x hx)
  simpa using this

theorem comps_plain {s : Str} (h : hasMagic s = false) : ∀ c ∈ comps s, hasMagic c = false := by
  intro c hc; exact splitOn_plain h (List.mem_filter.mp hc).1

theorem fits_refl {cs : List Str} (h : ∀ c ∈ cs, hasMagic c = false) : List.Forall₂ Fits cs cs := by
  induction cs with
  | nil => exact .nil
  | cons c cs ih =>
    exact .cons (Or.inl ⟨h c List.mem_cons_self, rfl⟩) (ih fun c hc => h c (List.mem_cons_of_mem _ hc))

theorem forall2_append {R : Str → Str → Prop} {a a' b b' : List Str} (h : List.Forall₂ R a a') (h' : List.Forall₂ R b b') :
    List.Forall₂ R (a ++ b) (a' ++ b') := by
  induction h with
  | nil => exact h'
  | cons hx _ ih => exact .cons hx ih

theorem mem_namesAt {fs : FS} (ht : Tidy fs) {p : Loc} {n : Str} (h : n ∈ namesAt fs p) : Proper n := by
  unfold namesAt at h
  obtain ⟨k, hk, he⟩ := List.mem_filterMap.mp h
  split at he
  · obtain ⟨e, he', rfl⟩ := List.mem_map.mp hk
    exact ht e he' n (List.mem_of_getLast? he)
  · cases he

theorem mem_listdir {fs : FS} (ht : Tidy fs) {cs l : List Str} (h : listdirC fs cs = some l) : ∀ n ∈ l, Proper n := by
  unfold listdirC at h
  split at h
  · split at h
    · simp only [Option.some.injEq] at h; subst h; exact fun n hn => mem_namesAt ht hn
    · cases h
  · cases h

theorem mem_glob1 {fs : FS} (ht : Tidy fs) {cwd d pat n : Str} (h : n ∈ glob1 fs cwd d pat) : Proper n := by
  unfold glob1 at h
  have h1 := (List.mem_filter.mp h).1
  cases hl : listdirC fs (absComps cwd d) with
  | none => rw [hl] at h1; simp at h1
  | some l => rw [hl] at h1; exact mem_listdir ht hl n h1

theorem magic_comps {b : Str} (h : '/' ∉ b) (hm : hasMagic b = true) : comps b = [b] := by
  rw [comps_noslash h, if_pos]
  refine ⟨?_, ?_⟩ <;> rintro rfl <;> simp [hasMagic] at hm

theorem globN_fits {fs : FS} (ht : Tidy fs) (cwd : Str) : ∀ (n : Nat) (s r : Str), r ∈ globN fs cwd n s →
    isAbs r = isAbs s ∧ List.Forall₂ Fits (comps s) (comps r) := by
  intro n
  induction n with
  | zero => intro s r h; simp [globN] at h
  | succ n ih =>
    intro s r h
    simp only [globN] at h
    by_cases hm : hasMagic s = false
    · rw [if_pos hm] at h
      have : r = s := by
        split at h
        · split at h
          · simpa using h
          · simp at h
        · split at h
          · simpa using h
          · simp at h
      subst this
      exact ⟨rfl, fits_refl (comps_plain hm)⟩
    · rw [if_neg hm] at h
      have hb := basename_noslash s
      by_cases hd : FS.dirname s = []
      · rw [if_pos hd] at h
        have hp := mem_glob1 ht h
        have hc : comps s = comps (basename s) := by rw [comps_split s, hd]; simp
        have hma : isAbs s = false := by rw [← isAbs_dirname, hd]; rfl
        have hmb : hasMagic (basename s) = true := by
          have h1 : hasMagic (headOf s) = false := by
            rw [dirname_eq] at hd
            split at hd
            · rw [hd]; rfl
            · rename_i hall
              exfalso
              apply hall
              rw [List.all_eq_true]
              intro y hy
              have hc := comps_rstrip (headOf s)
              unfold Path.rstrip at hd
              have hn' : (headOf s).reverse.dropWhile (fun c => decide (c = '/')) = [] := by simpa using hd
              have h3 := List.takeWhile_append_dropWhile (p := fun c => decide (c = '/')) (l := (headOf s).reverse)
              rw [hn', List.append_nil] at h3
              have : y ∈ (headOf s).reverse := List.mem_reverse.mpr hy
              rw [← h3] at this
              have key : ∀ l : List Char, ∀ y ∈ l.takeWhile (fun c => decide (c = '/')), decide (y = '/') = true := by
                intro l
                induction l with
                | nil => simp
                | cons a l ih =>
                  intro y hy
                  by_cases ha : a = '/'
                  · simp only [List.takeWhile_cons, ha, decide_true, if_true, List.mem_cons] at hy
                    rcases hy with rfl | hy
                    · simp
                    · exact ih y hy
                  · simp [ha] at hy
              exact key _ y this
          have h2 : hasMagic s = (hasMagic (headOf s) || hasMagic (basename s)) := by
            rw [← hasMagic_append, headOf_append]
          rw [h1] at h2
          simp at hm
          rw [hm] at h2; simpa using h2.symm
        refine ⟨by rw [hma, isAbs_noslash hp.2.2.2], ?_⟩
        rw [hc, magic_comps hb hmb, comps_proper hp]
        exact .cons (Or.inr ⟨hmb, hp⟩) .nil
      · rw [if_neg hd] at h
        obtain ⟨d, hdm, hr⟩ := List.mem_flatMap.mp h
        have hdf : isAbs d = isAbs s ∧ List.Forall₂ Fits (comps (FS.dirname s)) (comps d) := by
          by_cases hc : FS.dirname s ≠ s ∧ hasMagic (FS.dirname s) = true
          · rw [if_pos hc] at hdm
            have := ih _ _ hdm
            rw [isAbs_dirname] at this
            exact this
          · rw [if_neg hc] at hdm
            simp only [List.mem_singleton] at hdm
            subst hdm
            refine ⟨isAbs_dirname s, fits_refl ?_⟩
            by_cases hp : hasMagic (FS.dirname s) = true
            · have he : FS.dirname s = s := Classical.byContradiction fun hne => hc ⟨hne, hp⟩
              exfalso
              -- the directory part of a path with a wild card is another one
              have h1 : comps (FS.dirname s) = comps (FS.dirname s) ++ comps (basename s) := by
                conv_lhs => rw [he]
                exact comps_split s
              have hlen : (FS.dirname s).length ≤ (headOf s).length := by
                rw [dirname_eq]
                split
                · exact Nat.le_refl _
                · unfold Path.rstrip
                  simp only [List.length_reverse]
                  have := (List.dropWhile_suffix (fun c => decide (c = '/')) (l := (headOf s).reverse)).length_le
                  simpa using this
              have hs := headOf_append s
              have hl2 : (headOf s).length + (basename s).length = s.length := by rw [← List.length_append, hs]
              rw [he] at hlen
              have hb0 : basename s = [] := by
                apply List.length_eq_zero_iff.mp; omega
              have hh : headOf s = s := by
                have := hs; rw [hb0, List.append_nil] at this; exact this
              have hd2 := he
              rw [dirname_eq, hh] at hd2
              split at hd2
              · rename_i hall
                rw [List.all_eq_true] at hall
                rw [he] at hp
                simp only [hasMagic, List.any_eq_true] at hp
                obtain ⟨x, hx, hx2⟩ := hp
                have := hall x hx
                simp at this
                subst this
                simp at hx2
              · rcases headOf_cases s with h0 | ⟨a, h0⟩
                · rw [hh] at h0
                  rw [he] at hp
                  rw [h0] at hp; simp [hasMagic] at hp
                · rw [hh] at h0
                  have : (Path.rstrip (· = '/') s).length < s.length := by
                    rw [h0]
                    unfold Path.rstrip
                    simp only [List.reverse_append, List.reverse_cons, List.reverse_nil, List.nil_append, List.singleton_append,
                      List.dropWhile_cons, decide_true, if_true, List.length_reverse, List.length_append, List.length_singleton]
                    have := (List.dropWhile_suffix (fun c => decide (c = '/')) (l := a.reverse)).length_le
                    simp at this
                    omega
                  rw [hd2] at this
                  exact absurd this (Nat.lt_irrefl _)
            · exact comps_plain (by simpa using hp)
        obtain ⟨nm, hnm, rfl⟩ := List.mem_map.mp hr
        rw [comps_split s]
        by_cases hmb : hasMagic (basename s) = true
        · rw [if_pos hmb] at hnm
          have hp := mem_glob1 ht hnm
          have hna := isAbs_noslash hp.2.2.2
          refine ⟨(isAbs_osJoin hna).trans hdf.1, ?_⟩
          rw [comps_osJoin hna, magic_comps hb hmb, comps_proper hp]
          exact forall2_append hdf.2 (.cons (Or.inr ⟨hmb, hp⟩) .nil)
        · rw [if_neg hmb] at hnm
          have : nm = basename s := by
            unfold glob0 at hnm
            split at hnm
            · split at hnm
              · simpa using hnm
              · simp at hnm
            · split at hnm
              · simpa using hnm
              · simp at hnm
          subst this
          have hna := isAbs_noslash hb
          refine ⟨(isAbs_osJoin hna).trans hdf.1, ?_⟩
          rw [comps_osJoin hna]
          exact forall2_append hdf.2 (fits_refl (comps_plain (by simpa using hmb)))

theorem glob_fits {fs : FS} (ht : Tidy fs) {cwd s r : Str} (h : r ∈ glob fs cwd s) :
    isAbs r = isAbs s ∧ List.Forall₂ Fits (comps s) (comps r) := globN_fits ht cwd _ _ _ h

end Pisi.Act
