import Verif.Props.Unpack

/-!
# Unpacking succeeds
-/
namespace Pisi.Unpack
open Pisi.Path Pisi.PathSpec

/-- There are directories along the path. -/
def AllDirs (fs : Files) (p : List Str) : Prop := ∀ r, r ≠ [] → r <+: p → ∃ m, fs r = some (.dir m)

def CleanNames (p : List Str) : Prop := ∀ c ∈ p, c ≠ dot ∧ c ≠ dotdot

theorem resolve_dirs (fs : Files) (n : Nat) (cur cs rest : List Str) (hc : CleanNames cs)
    (hd : ∀ r, r ≠ [] → r <+: cs → ∃ m, fs (cur ++ r) = some (.dir m)) :
    resolve fs (cs.length + n) cur (cs ++ rest) = resolve fs n (cur ++ cs) rest := by
  induction cs generalizing cur with
  | nil => simp
  | cons c cs ih =>
    obtain ⟨m, hm⟩ := hd [c] (by simp) (by simp)
    obtain ⟨h1, h2⟩ := hc c (by simp)
    have e : (c :: cs).length + n = (cs.length + n) + 1 := by simp; omega
    rw [e, List.cons_append]
    simp only [resolve, if_neg h1, if_neg h2, hm]
    rw [ih (cur ++ [c]) (fun x hx => hc x (by simp [hx])) (fun r hr hp => by
      have := hd (c :: r) (by simp) (by simpa using hp)
      simpa using this)]
    simp

theorem resolve_all (fs : Files) (n : Nat) (p rest : List Str) (hc : CleanNames p) (hd : AllDirs fs p) :
    resolve fs (p.length + n) [] (p ++ rest) = resolve fs n p rest := by
  have := resolve_dirs fs n [] p rest hc (by simpa [AllDirs] using hd)
  simpa using this

theorem stat_all (fs : Files) (n : Nat) (p : List Str) (hne : p ≠ []) (hc : CleanNames p) (hd : AllDirs fs p)
    (hn : p.length < n) : ∃ m, stat fs n p = some (.dir m) := by
  obtain ⟨k, rfl⟩ : ∃ k, n = p.length + (k + 1) := ⟨n - p.length - 1, by omega⟩
  have h := resolve_all fs (k + 1) p [] hc hd
  rw [List.append_nil] at h
  unfold stat
  rw [h]
  simp only [resolve]
  cases p with
  | nil => exact absurd rfl hne
  | cons a p => exact hd _ (by simp) (List.prefix_refl _)

theorem stat_snoc (fs : Files) (n : Nat) (q : List Str) (c : Str) (hc : CleanNames (q ++ [c])) (hd : AllDirs fs q)
    (hn : q.length + 1 < n) (hl : ∀ t, fs (q ++ [c]) ≠ some (.link t)) : stat fs n (q ++ [c]) = fs (q ++ [c]) := by
  obtain ⟨k, rfl⟩ : ∃ k, n = q.length + (k + 1 + 1) := ⟨n - q.length - 2, by omega⟩
  have h := resolve_all fs (k + 1 + 1) q [c] (fun x hx => hc x (by simp [hx])) hd
  obtain ⟨h1, h2⟩ := hc c (by simp)
  have hne : q ++ [c] ≠ [] := by simp
  unfold stat
  rw [h]
  simp only [resolve, if_neg h1, if_neg h2]
  cases hx : fs (q ++ [c]) with
  | none => rfl
  | some x =>
    cases x with
    | link t => exact absurd hx (hl t)
    | dir m =>
      simp only
      cases hq : q ++ [c] with
      | nil => exact absurd hq hne
      | cons a b => rw [← hq]; exact hx
    | file a b =>
      simp only [if_true]
      cases hq : q ++ [c] with
      | nil => exact absurd hq hne
      | cons a b => rw [← hq]; exact hx

theorem place_all (fs : Files) (n : Nat) (q : List Str) (c : Str) (hc : CleanNames (q ++ [c])) (hd : AllDirs fs q)
    (hn : q.length < n) : place fs n (q ++ [c]) = some (q ++ [c]) := by
  obtain ⟨k, rfl⟩ : ∃ k, n = q.length + (k + 1) := ⟨n - q.length - 1, by omega⟩
  have h := resolve_all fs (k + 1) q [] (fun x hx => hc x (by simp [hx])) hd
  rw [List.append_nil] at h
  obtain ⟨h1, h2⟩ := hc c (by simp)
  have hat : dirAt fs q = true := by
    unfold dirAt
    by_cases e : q = []
    · rw [if_pos e]
    · rw [if_neg e]
      obtain ⟨m, hm⟩ := hd q e (List.prefix_refl _)
      rw [hm]
  unfold place
  simp only [List.getLast?_append, List.getLast?_singleton, Option.some_or, List.dropLast_concat]
  rw [if_neg (by simp [h1, h2]), h]
  simp only [resolve]
  rw [if_pos hat]

theorem mkdir_succ (n : Nat) (q : List Str) (c : Str) (mode : Nat) (s : St) (hc : CleanNames (q ++ [c]))
    (hd : AllDirs s.fs q) (hn : q.length < n) (h0 : s.fs (q ++ [c]) = none) :
    mkdir n (q ++ [c]) mode s = (s.set (q ++ [c]) (some (.dir mode)), true) := by
  unfold mkdir
  rw [place_all s.fs n q c hc hd hn]
  simp [h0]

/-- Only missing entries on the way to `p` were changed, into directories. -/
def Makes (p : List Str) (s s' : St) : Prop :=
  ∀ l, s'.fs l = s.fs l ∨ (l <+: p ∧ s.fs l = none ∧ ∃ m, s'.fs l = some (.dir m))

theorem allDirs_snoc {fs : Files} {q : List Str} {c : Str} (h : AllDirs fs q) (hc : ∃ m, fs (q ++ [c]) = some (.dir m)) :
    AllDirs fs (q ++ [c]) := by
  intro r hr hp
  rcases List.prefix_concat_iff.1 hp with h1 | h1
  · rw [h1]; exact hc
  · exact h r hr h1

theorem allDirs_mono {p : List Str} {s s' : St} (hm : Makes p s s') {q : List Str} (h : AllDirs s.fs q) :
    AllDirs s'.fs q := by
  intro r hr hp
  obtain ⟨m, hx⟩ := h r hr hp
  rcases hm r with h1 | ⟨_, h1, _⟩
  · exact ⟨m, h1.trans hx⟩
  · rw [h1] at hx; cases hx

theorem makes_trans {p : List Str} {a b c : St} (h1 : Makes p a b) (h2 : Makes p b c) : Makes p a c := by
  intro l
  rcases h1 l with e1 | ⟨x1, x2, m, x3⟩
  · rcases h2 l with e2 | ⟨y1, y2, y3⟩
    · exact .inl (e2.trans e1)
    · exact .inr ⟨y1, e1 ▸ y2, y3⟩
  · rcases h2 l with e2 | ⟨y1, y2, y3⟩
    · exact .inr ⟨x1, x2, m, e2.trans x3⟩
    · rw [x3] at y2; cases y2

theorem makes_mkdir {p q : List Str} {s : St} (mode : Nat) (hq : q <+: p) (h0 : s.fs q = none) :
    Makes p s (s.set q (some (.dir mode))) := by
  intro l
  by_cases e : l = q
  · subst e; exact .inr ⟨hq, h0, mode, by simp [St.set]⟩
  · exact .inl (by simp [St.set, e])

theorem makedirs_succ (n : Nat) (mode : Nat) (cs : List Str) : ∀ (done : List Str) (s : St), cs ≠ [] →
    CleanNames (done ++ cs) → AllDirs s.fs done →
    (∀ r, r ≠ [] → r <+: cs → s.fs (done ++ r) = none ∨ ∃ m, s.fs (done ++ r) = some (.dir m)) →
    s.fs (done ++ cs) = none → (done ++ cs).length < n →
    ∃ s', makedirs n done cs mode s = (s', true) ∧ AllDirs s'.fs (done ++ cs) ∧ Makes (done ++ cs) s s' ∧
      s'.fs (done ++ cs) = some (.dir mode) := by
  induction cs with
  | nil => intro _ _ h; exact absurd rfl h
  | cons c cs ih =>
    intro done s _ hc hd hr h0 hn
    simp only [List.length_append, List.length_cons] at hn
    cases cs with
    | nil =>
      unfold makedirs
      refine ⟨_, mkdir_succ n done c mode s hc hd (by omega) h0, ?_, makes_mkdir _ (List.prefix_refl _) h0, by simp [St.set]⟩
      exact allDirs_snoc (allDirs_mono (makes_mkdir _ (List.prefix_refl _) h0) hd) ⟨mode, by simp [St.set]⟩
    | cons d ds =>
      have hc1 : CleanNames (done ++ [c]) := fun x hx => hc x (by
        rcases List.mem_append.1 hx with hx | hx
        · exact List.mem_append_left _ hx
        · exact List.mem_append_right _ (by simp at hx; simp [hx]))
      have e : done ++ [c] ++ (d :: ds) = done ++ (c :: d :: ds) := by simp
      have hpre : done ++ [c] <+: done ++ (c :: d :: ds) := by rw [← e]; exact List.prefix_append _ _
      simp only [List.length_cons] at hn
      have hlink : ∀ t, s.fs (done ++ [c]) ≠ some (.link t) := by
        intro t ht
        rcases hr [c] (by simp) (by simp) with h | ⟨m, h⟩ <;> (rw [h] at ht; cases ht)
      have hst := stat_snoc s.fs n done c hc1 hd (by omega) hlink
      unfold makedirs
      rcases hr [c] (by simp) (by simp) with hx | hx
      · rw [hst, if_neg (by simp [hx]), mkdir_succ n done c 493 s hc1 hd (by omega) hx]
        have hm := makes_mkdir (s := s) 493 hpre hx
        have hne : ∀ r, r ≠ [] → done ++ [c] ++ r ≠ done ++ [c] := by
          intro r hr' e'
          exact hr' (List.append_cancel_left (e'.trans (List.append_nil _).symm))
        obtain ⟨s', h1, h2, h3, h4⟩ := ih (done ++ [c]) (s.set (done ++ [c]) (some (.dir 493))) (by simp) (by rw [e]; exact hc)
          (allDirs_snoc (allDirs_mono hm hd) ⟨493, by simp [St.set]⟩)
          (by
            intro r hr' hp
            have := hr (c :: r) (by simp) (by simpa using hp)
            simp only [St.set, if_neg (hne r hr')]
            simpa using this)
          (by
            simp only [St.set, if_neg (hne _ (List.cons_ne_nil d ds))]
            rw [e]; exact h0)
          (by rw [e]; simp only [List.length_append, List.length_cons]; omega)
        rw [e] at h2 h3 h4
        exact ⟨s', h1, h2, makes_trans hm h3, h4⟩
      · have : (stat s.fs n (done ++ [c])).isSome = true := by
          obtain ⟨m, hx⟩ := hx
          rw [hst, hx]; rfl
        rw [if_pos this]
        obtain ⟨s', h1, h2, h3, h4⟩ := ih (done ++ [c]) s (by simp) (by rw [e]; exact hc) (allDirs_snoc hd hx)
          (by
            intro r hr' hp
            have := hr (c :: r) (by simp) (by simpa using hp)
            simpa using this)
          (by rw [e]; exact h0)
          (by rw [e]; simp only [List.length_append, List.length_cons]; omega)
        rw [e] at h2 h3 h4
        exact ⟨s', h1, h2, h3, h4⟩

/-- What holds between the members: below the target there is a tree, the places `D` are missing or directories, the
places `F` are not directories. -/
structure Inv (T : Loc) (D F : List Str → Prop) (s : St) : Prop where
  real : AllDirs s.fs T
  tree : ∀ q c, q ≠ [] → (s.fs (T ++ (q ++ [c]))).isSome → ∃ m, s.fs (T ++ q) = some (.dir m)
  dirs : ∀ q, D q → s.fs (T ++ q) = none ∨ ∃ m, s.fs (T ++ q) = some (.dir m)
  files : ∀ q, F q → ∀ x, s.fs (T ++ q) ≠ some (.dir x)

section Steps
variable {T : Loc} {D F : List Str → Prop}

/-- What is there has directories above it. -/
theorem tree_up {s : St} (h : Inv T D F s) (q : List Str) (hq : (s.fs (T ++ q)).isSome) : AllDirs s.fs (T ++ q.dropLast) := by
  have key : ∀ (k : Nat) (q : List Str), q.length = k → (s.fs (T ++ q)).isSome → AllDirs s.fs (T ++ q.dropLast) := by
    intro k
    induction k with
    | zero =>
      intro q hk _
      have := List.length_eq_zero_iff.1 hk
      subst this
      simpa using h.real
    | succ k ih =>
      intro q hk hs
      rcases List.eq_nil_or_concat q with e | ⟨r, c, e⟩
      · subst e; simp at hk
      · rw [List.concat_eq_append] at e
        subst e
        rw [List.dropLast_concat]
        by_cases hr : r = []
        · subst hr; simpa using h.real
        · have hdir := h.tree r c hr hs
          have := ih r (by simpa using hk) (by obtain ⟨m, hm⟩ := hdir; rw [hm]; rfl)
          obtain ⟨r', d, rfl⟩ : ∃ r' d, r = r' ++ [d] := by
            rcases List.eq_nil_or_concat r with e | ⟨a, b, e⟩
            · exact absurd e hr
            · exact ⟨a, b, by rw [e, List.concat_eq_append]⟩
          rw [List.dropLast_concat] at this
          have h2 := allDirs_snoc this (c := d) (by simpa using hdir)
          simpa using h2
  exact key _ q rfl hq

/-- Making directories on the way to a place `D`. -/
theorem inv_makes {s s' : St} (hT0 : T ≠ []) (hDF : ∀ q, F q → ¬ D q) (hD : ∀ q r, D q → r ≠ [] → r <+: q → D r)
    (h : Inv T D F s) {q : List Str} (hq : D q) (hm : Makes (T ++ q) s s') (ha : AllDirs s'.fs (T ++ q)) :
    Inv T D F s' := by
  refine ⟨allDirs_mono hm h.real, fun r c hr hs => ?_, fun r hr => ?_, fun r hr x hx => ?_⟩
  · rcases hm (T ++ (r ++ [c])) with e | ⟨hp, _, _⟩
    · rw [e] at hs
      obtain ⟨m, hd⟩ := h.tree r c hr hs
      rcases hm (T ++ r) with e' | ⟨_, e', _⟩
      · exact ⟨m, e'.trans hd⟩
      · rw [e'] at hd; cases hd
    · refine ha (T ++ r) (by simp [hr]) ?_
      exact (show T ++ r <+: T ++ (r ++ [c]) by
        rw [← List.append_assoc]; exact List.prefix_append _ _).trans hp
  · rcases hm (T ++ r) with e | ⟨_, _, e⟩
    · rw [e]; exact h.dirs r hr
    · exact .inr e
  · rcases hm (T ++ r) with e | ⟨hp, h0, _⟩
    · rw [e] at hx; exact h.files r hr x hx
    · have hp' := (List.prefix_append_right_inj T).1 hp
      by_cases e : r = []
      · subst e
        rw [List.append_nil] at h0
        obtain ⟨m, hm'⟩ := h.real T hT0 (List.prefix_refl _)
        rw [hm'] at h0; cases h0
      · exact hDF r hr (hD q r hq e hp')

/-- `check_dir` on the target or on a place `D`, of a name that does not end in white space. -/
theorem checkDir_succ {n : Nat} {q : List Str} {s : St} (hT0 : T ≠ []) (hT : CleanNames T)
    (hD : ∀ q r, D q → r ≠ [] → r <+: q → D r) (hDc : ∀ q, D q → CleanNames q) (hDF : ∀ q, F q → ¬ D q)
    (hq : q = [] ∨ D q) (hs : stripDir (T ++ q) = T ++ q) (hn : (T ++ q).length < n) (h : Inv T D F s) :
    ∃ s', checkDir n (T ++ q) s = (s', true) ∧ AllDirs s'.fs (T ++ q) ∧ Inv T D F s' := by
  have hne : T ++ q ≠ [] := by simp [hT0]
  have hcl : CleanNames (T ++ q) := by
    intro c hc
    rcases List.mem_append.1 hc with hc | hc
    · exact hT c hc
    · rcases hq with rfl | hq
      · cases hc
      · exact hDc q hq c hc
  unfold checkDir
  rw [hs, if_neg hne]
  have hall : (s.fs (T ++ q)).isSome → AllDirs s.fs (T ++ q) := by
    intro hsome
    have hup := tree_up h q hsome
    rcases List.eq_nil_or_concat q with e | ⟨r, c, e⟩
    · subst e; simpa using hup
    · rw [List.concat_eq_append] at e
      subst e
      rcases hq with e | hq
      · simp at e
      · rcases h.dirs _ hq with e | hdir
        · rw [e] at hsome; cases hsome
        · rw [List.dropLast_concat] at hup
          have := allDirs_snoc hup (c := c) (by simpa using hdir)
          simpa using this
  by_cases hx : (s.fs (T ++ q)).isSome
  · obtain ⟨m, hm⟩ := stat_all s.fs n (T ++ q) hne hcl (hall hx) hn
    rw [hm]
    exact ⟨s, rfl, hall hx, h⟩
  · have h0 : s.fs (T ++ q) = none := by simpa using hx
    have hst : ¬ (stat s.fs n (T ++ q)).isSome = true := by
      intro hst
      have hplain : Plain s.fs (T ++ q) := by
        refine ⟨hcl, fun r hr hp t ht => ?_⟩
        rcases prefix_append_cases hp with hp | ⟨r', rfl, hp⟩
        · obtain ⟨m, hm⟩ := h.real r hr hp
          rw [hm] at ht; cases ht
        · rcases hq with rfl | hq
          · have : r' = [] := List.prefix_nil.1 ((List.prefix_append_right_inj T).1 hp)
            subst this
            rw [List.append_nil] at ht
            obtain ⟨m, hm⟩ := h.real T hT0 (List.prefix_refl _)
            rw [hm] at ht; cases ht
          · by_cases e : r' = []
            · subst e
              rw [List.append_nil] at ht
              obtain ⟨m, hm⟩ := h.real T hT0 (List.prefix_refl _)
              rw [hm] at ht; cases ht
            · rcases h.dirs r' (hD q r' hq e ((List.prefix_append_right_inj T).1 hp)) with e | ⟨m, e⟩ <;> (rw [e] at ht; cases ht)
      unfold stat at hst
      cases hr : resolve s.fs n [] (T ++ q) with
      | none => rw [hr] at hst; cases hst
      | some l =>
        have := resolve_root s.fs n _ hplain l hr
        subst this
        rw [hr] at hst
        cases hTq : T ++ q with
        | nil => exact hne hTq
        | cons a b => rw [hTq] at hst h0; simp only [h0] at hst; cases hst
    rw [if_neg hst]
    rcases hq with rfl | hq
    · rw [List.append_nil] at h0
      obtain ⟨m, hm⟩ := h.real T hT0 (List.prefix_refl _)
      rw [hm] at h0; cases h0
    · obtain ⟨s', h1, h2, h3, _⟩ := makedirs_succ n 493 (T ++ q) [] s hne (by simpa using hcl)
        (by intro r hr hp; exact absurd (List.prefix_nil.1 hp) hr) (by
          intro r hr hp
          rw [List.nil_append]
          rcases prefix_append_cases hp with hp | ⟨r', rfl, hp⟩
          · exact .inr (h.real r hr hp)
          · by_cases e : r' = []
            · subst e
              rw [List.append_nil]
              exact .inr (h.real T hT0 (List.prefix_refl _))
            · exact h.dirs r' (hD q r' hq e ((List.prefix_append_right_inj T).1 hp))) (by simpa using h0) (by simpa using hn)
      rw [List.nil_append] at h2 h3
      exact ⟨s', h1, h2, inv_makes hT0 hDF hD h hq h3 h2⟩

/-- Removing something that is not a directory. -/
theorem inv_none {s : St} (h : Inv T D F s) {q : List Str} (hq : q ≠ [])
    (hnd : ∀ x, s.fs (T ++ q) ≠ some (.dir x)) : Inv T D F (s.set (T ++ q) none) := by
  refine ⟨fun r hr hp => ?_, fun r c hr hs => ?_, fun r hr => ?_, fun r hr x hx => ?_⟩
  · have : r ≠ T ++ q := by
      rintro rfl
      have := hp.length_le
      have h2 : 0 < q.length := List.length_pos_iff.2 hq
      simp at this; omega
    simp only [St.set, if_neg this]
    exact h.real r hr hp
  · simp only [St.set] at hs ⊢
    by_cases e : T ++ (r ++ [c]) = T ++ q
    · rw [if_pos e] at hs; cases hs
    · rw [if_neg e] at hs
      obtain ⟨m, hm⟩ := h.tree r c hr hs
      have : T ++ r ≠ T ++ q := fun e => hnd m (e ▸ hm)
      rw [if_neg this]
      exact ⟨m, hm⟩
  · simp only [St.set]
    split
    · exact .inl rfl
    · exact h.dirs r hr
  · simp only [St.set] at hx
    split at hx
    · cases hx
    · exact h.files r hr x hx

theorem inv_cut {s : St} (h : Inv T D F s) {q : List Str} (hq : q ≠ []) : Inv T D F (s.cut (T ++ q)) := by
  refine ⟨fun r hr hp => ?_, fun r c hr hs => ?_, fun r hr => ?_, fun r hr x hx => ?_⟩
  · have : ¬ T ++ q <+: r := below_not_prefix ⟨q, hq, rfl⟩ hp
    simp only [St.cut, if_neg this]
    exact h.real r hr hp
  · simp only [St.cut] at hs ⊢
    by_cases e : T ++ q <+: T ++ (r ++ [c])
    · rw [if_pos e] at hs; cases hs
    · rw [if_neg e] at hs
      have : ¬ T ++ q <+: T ++ r := fun e' => e (e'.trans (by
        rw [← List.append_assoc]; exact List.prefix_append _ _))
      rw [if_neg this]
      exact h.tree r c hr hs
  · simp only [St.cut]
    split
    · exact .inl rfl
    · exact h.dirs r hr
  · simp only [St.cut] at hx
    split at hx
    · cases hx
    · exact h.files r hr x hx

/-- Putting a file or link in a directory where nothing is. -/
theorem inv_put {s : St} (h : Inv T D F s) {q : List Str} {c : Str} {x : Node}
    (hx : ∀ m, x ≠ .dir m) (hd : ¬ D (q ++ [c])) (ha : AllDirs s.fs (T ++ q)) (h0 : s.fs (T ++ (q ++ [c])) = none) :
    Inv T D F (s.set (T ++ (q ++ [c])) (some x)) := by
  refine ⟨fun r hr hp => ?_, fun r d hr hs => ?_, fun r hr => ?_, fun r hr y hy => ?_⟩
  · have : r ≠ T ++ (q ++ [c]) := by
      rintro rfl
      have := hp.length_le
      simp at this; omega
    simp only [St.set, if_neg this]
    exact h.real r hr hp
  · simp only [St.set] at hs ⊢
    by_cases e : T ++ (r ++ [d]) = T ++ (q ++ [c])
    · have e' := List.append_cancel_left e
      have hrq : r = q := by
        have := congrArg List.dropLast e'
        simpa using this
      subst hrq
      have : T ++ r ≠ T ++ (r ++ [c]) := by
        intro e2
        have := congrArg List.length (List.append_cancel_left e2)
        simp at this
      rw [if_neg this]
      exact ha (T ++ r) (by simp [hr]) (List.prefix_refl _)
    · rw [if_neg e] at hs
      obtain ⟨m, hm⟩ := h.tree r d hr hs
      have : T ++ r ≠ T ++ (q ++ [c]) := by
        intro e2; rw [e2, h0] at hm; cases hm
      rw [if_neg this]
      exact ⟨m, hm⟩
  · simp only [St.set]
    split
    · rename_i e
      exact absurd (List.append_cancel_left e ▸ hr) hd
    · exact h.dirs r hr
  · simp only [St.set] at hy
    split at hy
    · exact hx y (Option.some.inj hy)
    · exact h.files r hr y hy

/-- A file or link member. -/
theorem fileMember_succ {n : Nat} {q : List Str} {c : Str} {m : Member} {s : St} (hT0 : T ≠ []) (hT : CleanNames T)
    (hD : ∀ q r, D q → r ≠ [] → r <+: q → D r) (hDc : ∀ q, D q → CleanNames q) (hDF : ∀ q, F q → ¬ D q)
    (hq : q = [] ∨ D q) (hc : c ≠ dot ∧ c ≠ dotdot) (hs : stripDir (T ++ q) = T ++ q)
    (hd : ¬ D (q ++ [c])) (hF : m.attr ≠ symmagic → F (q ++ [c])) (hn : (T ++ (q ++ [c])).length < n) (h : Inv T D F s) :
    ∃ s', unpackFileMember n (T ++ (q ++ [c])) m s = (s', true) ∧ Inv T D F s' := by
  have hcl : CleanNames (T ++ q ++ [c]) := by
    intro d hdd
    rcases List.mem_append.1 hdd with hdd | hdd
    · rcases List.mem_append.1 hdd with hdd | hdd
      · exact hT d hdd
      · rcases hq with rfl | hq
        · cases hdd
        · exact hDc q hq d hdd
    · rw [List.mem_singleton.1 hdd]; exact hc
  have hass : T ++ (q ++ [c]) = T ++ q ++ [c] := by simp
  have hn' : (T ++ q).length + 1 < n := by simpa [Nat.add_assoc] using hn
  obtain ⟨s1, e1, a1, i1⟩ := checkDir_succ (n := n) hT0 hT hD hDc hDF hq hs (by omega) h
  unfold unpackFileMember
  have hdl : (T ++ (q ++ [c])).dropLast = T ++ q := by rw [hass, List.dropLast_concat]
  rw [hdl, e1]
  have hne : q ++ [c] ≠ [] := by simp
  -- the old entry
  have step2 : ∃ s2, clearOld n (T ++ (q ++ [c])) s1 = (s2, true) ∧ Inv T D F s2 ∧ AllDirs s2.fs (T ++ q) ∧
      (s2.fs (T ++ (q ++ [c])) = none ∨ ∃ x, s2.fs (T ++ (q ++ [c])) = some (.dir x)) := by
    have hpl := place_all s1.fs n (T ++ q) c hcl a1 (by omega)
    rw [← hass] at hpl
    have keep : (∀ x, s1.fs (T ++ (q ++ [c])) ≠ some (.dir x)) → AllDirs (s1.set (T ++ (q ++ [c])) none).fs (T ++ q) := by
      intro _ r hr hp
      have : r ≠ T ++ (q ++ [c]) := by
        rintro rfl
        have := hp.length_le
        simp at this; omega
      simp only [St.set, if_neg this]
      exact a1 r hr hp
    have gone : (∀ x, s1.fs (T ++ (q ++ [c])) ≠ some (.dir x)) →
        (isFile s1.fs n (T ++ (q ++ [c])) = true ∨ isLink s1.fs n (T ++ (q ++ [c])) = true) →
        ∃ s2, clearOld n (T ++ (q ++ [c])) s1 = (s2, true) ∧ Inv T D F s2 ∧ AllDirs s2.fs (T ++ q) ∧
          (s2.fs (T ++ (q ++ [c])) = none ∨ ∃ x, s2.fs (T ++ (q ++ [c])) = some (.dir x)) := by
      intro hnd hcond
      refine ⟨_, ?_, inv_none i1 hne hnd, keep hnd, .inl (by simp [St.set])⟩
      unfold clearOld
      rw [if_pos hcond, hpl]
    have stay : (s1.fs (T ++ (q ++ [c])) = none ∨ ∃ x, s1.fs (T ++ (q ++ [c])) = some (.dir x)) →
        ∃ s2, clearOld n (T ++ (q ++ [c])) s1 = (s2, true) ∧ Inv T D F s2 ∧ AllDirs s2.fs (T ++ q) ∧
          (s2.fs (T ++ (q ++ [c])) = none ∨ ∃ x, s2.fs (T ++ (q ++ [c])) = some (.dir x)) := by
      intro hcase
      refine ⟨s1, ?_, i1, a1, hcase⟩
      have hnl : ∀ t, s1.fs (T ++ q ++ [c]) ≠ some (.link t) := by
        intro t ht
        rw [← hass] at ht
        rcases hcase with e | ⟨x, e⟩ <;> (rw [e] at ht; cases ht)
      have hst := stat_snoc s1.fs n (T ++ q) c hcl a1 hn' hnl
      rw [← hass] at hst
      unfold clearOld
      rw [if_neg]
      rintro (hf | hl)
      · unfold isFile at hf
        rw [hst] at hf
        rcases hcase with e | ⟨x, e⟩ <;> (rw [e] at hf; cases hf)
      · unfold isLink at hl
        rw [hpl] at hl
        rcases hcase with e | ⟨x, e⟩ <;> (simp only [e] at hl; cases hl)
    cases hx : s1.fs (T ++ (q ++ [c])) with
    | none => exact stay (.inl hx)
    | some x =>
      cases x with
      | dir m => exact stay (.inr ⟨m, hx⟩)
      | link t =>
        refine gone (fun y hy => by rw [hx] at hy; cases hy) (.inr ?_)
        unfold isLink
        rw [hpl]
        simp only [hx]
      | file a b =>
        refine gone (fun y hy => by rw [hx] at hy; cases hy) (.inl ?_)
        have hst := stat_snoc s1.fs n (T ++ q) c hcl a1 hn' (by
          intro t ht; rw [← hass, hx] at ht; cases ht)
        unfold isFile
        rw [hass, hst, ← hass, hx]
  obtain ⟨s2, e2, i2, a2, c2⟩ := step2
  have hpl2 := place_all s2.fs n (T ++ q) c hcl a2 (by omega)
  rw [← hass] at hpl2
  simp only [andThen, if_true, e2]
  by_cases ha : m.attr = symmagic
  · rw [if_pos ha]
    have step3 : ∃ s3, clearDir n (T ++ (q ++ [c])) s2 = (s3, true) ∧ Inv T D F s3 ∧ AllDirs s3.fs (T ++ q) ∧
        s3.fs (T ++ (q ++ [c])) = none := by
      have hst := stat_snoc s2.fs n (T ++ q) c hcl a2 hn' (by
        intro t ht
        rw [← hass] at ht
        rcases c2 with e | ⟨x, e⟩ <;> (rw [e] at ht; cases ht))
      rw [← hass] at hst
      rcases c2 with e | ⟨x, e⟩
      · refine ⟨s2, ?_, i2, a2, e⟩
        unfold clearDir isDir
        rw [hst, e]
        rfl
      · refine ⟨s2.cut (T ++ (q ++ [c])), ?_, inv_cut i2 hne, ?_, by simp [St.cut]⟩
        · unfold clearDir isDir
          rw [hst, e, hpl2]
          rfl
        · intro r hr hp
          have : ¬ T ++ (q ++ [c]) <+: r := by
            intro hp'
            have := (hp'.trans hp).length_le
            simp at this; omega
          simp only [St.cut, if_neg this]
          exact a2 r hr hp
    obtain ⟨s3, e3, i3, a3, c3⟩ := step3
    have hpl3 := place_all s3.fs n (T ++ q) c hcl a3 (by omega)
    rw [← hass] at hpl3
    simp only [e3, if_true]
    unfold symlink
    rw [hpl3]
    simp only [c3, Option.isSome_none, Bool.false_eq_true, if_false]
    exact ⟨_, rfl, inv_put i3 (fun m => by simp) hd a3 c3⟩
  · rw [if_neg ha]
    have c3 : s2.fs (T ++ (q ++ [c])) = none := by
      rcases c2 with e | ⟨x, e⟩
      · exact e
      · exact absurd e (i2.files _ (hF ha) x)
    unfold writeFile
    rw [hpl2]
    simp only [c3]
    exact ⟨_, rfl, inv_put i2 (fun m => by simp) hd a2 c3⟩

/-- A directory member. -/
theorem dirMember_succ {n : Nat} {q : List Str} {m : Member} {s : St} (hT0 : T ≠ []) (hT : CleanNames T)
    (hD : ∀ q r, D q → r ≠ [] → r <+: q → D r) (hDc : ∀ q, D q → CleanNames q) (hDF : ∀ q, F q → ¬ D q)
    (hq : D q) (hn : (T ++ q).length < n) (h : Inv T D F s) :
    ∃ s', unpackDirMember n (T ++ q) m s = (s', true) ∧ Inv T D F s' := by
  have hne : T ++ q ≠ [] := by simp [hT0]
  have hcl : CleanNames (T ++ q) := by
    intro c hc
    rcases List.mem_append.1 hc with hc | hc
    · exact hT c hc
    · exact hDc q hq c hc
  have hpre : ∀ r, r ≠ [] → r <+: T ++ q → s.fs r = none ∨ ∃ m, s.fs r = some (.dir m) := by
    intro r hr hp
    rcases prefix_append_cases hp with hp | ⟨r', rfl, hp⟩
    · exact .inr (h.real r hr hp)
    · by_cases e : r' = []
      · subst e
        rw [List.append_nil]
        exact .inr (h.real T hT0 (List.prefix_refl _))
      · exact h.dirs r' (hD q r' hq e ((List.prefix_append_right_inj T).1 hp))
  unfold unpackDirMember
  by_cases hi : isDir s.fs n (T ++ q) = true
  · rw [if_pos hi]; exact ⟨s, rfl, h⟩
  · rw [if_neg hi]
    have h0 : s.fs (T ++ q) = none := by
      rcases h.dirs q hq with e | ⟨x, e⟩
      · exact e
      · exfalso
        apply hi
        have hup := tree_up h q (by rw [e]; rfl)
        have hall : AllDirs s.fs (T ++ q) := by
          rcases List.eq_nil_or_concat q with e' | ⟨r, c, e'⟩
          · subst e'; simpa using hup
          · rw [List.concat_eq_append] at e'
            subst e'
            rw [List.dropLast_concat] at hup
            have := allDirs_snoc hup (c := c) ⟨x, by simpa using e⟩
            simpa using this
        obtain ⟨y, hy⟩ := stat_all s.fs n (T ++ q) hne hcl hall hn
        unfold isDir
        rw [hy]
    obtain ⟨s', h1, h2, h3, _⟩ := makedirs_succ n (dirPerm m.attr) (T ++ q) [] s hne (by simpa using hcl)
      (by intro r hr hp; exact absurd (List.prefix_nil.1 hp) hr) (by simpa using hpre) (by simpa using h0) (by simpa using hn)
    rw [List.nil_append] at h2 h3
    exact ⟨s', h1, inv_makes hT0 hDF hD h hq h3 h2⟩

end Steps

theorem segs_noempty (p : Str) : [] ∉ segs p := by
  rw [segs_eq]; simp

/-- The state when an archive can be unpacked. -/
theorem unpackable_inv (fs : Files) (T : Loc) (ms : List Member) (hT : RealDir fs T) (hu : Unpackable fs T ms)
    (log : List Loc) :
    Inv T (DirPlace ms) (fun q => ∃ m ∈ ms, m.isDir = false ∧ m.attr ≠ symmagic ∧ q = segs m.name) ⟨fs, log⟩ :=
  ⟨hT.1, hu.tree, hu.dirs, by rintro q ⟨m, hm, hd, ha, rfl⟩ x; exact hu.files m hm hd ha x⟩

theorem unpackable_of_inv (fs : Files) (T : Loc) (ms : List Member) (hu : Unpackable fs T ms) (s : St)
    (h : Inv T (DirPlace ms) (fun q => ∃ m ∈ ms, m.isDir = false ∧ m.attr ≠ symmagic ∧ q = segs m.name) s) :
    Unpackable s.fs T ms :=
  ⟨h.tree, hu.apart, h.dirs, fun m hm hd ha x => h.files _ ⟨m, hm, hd, ha, rfl⟩ x, hu.names⟩

theorem unpack_inv (n : Nat) (T : Loc) (fs : Files) (ms : List Member) (hT0 : T ≠ []) (hT : RealDir fs T)
    (hc : ∀ m ∈ ms, CleanName m.name ∧ segs m.name ≠ []) (hu : Unpackable fs T ms)
    (hn : ∀ m ∈ ms, T.length + (segs m.name).length < n) (ks : List Member) (hks : ∀ k ∈ ks, k ∈ ms) (s : St)
    (h : Inv T (DirPlace ms) (fun q => ∃ m ∈ ms, m.isDir = false ∧ m.attr ≠ symmagic ∧ q = segs m.name) s) :
    ∃ s', unpackAll n T ks s = (s', true) ∧
      Inv T (DirPlace ms) (fun q => ∃ m ∈ ms, m.isDir = false ∧ m.attr ≠ symmagic ∧ q = segs m.name) s' := by
  have hTc : CleanNames T := fun c hc' => ⟨(hT.2.1 c hc').1, (hT.2.1 c hc').2.1⟩
  have hD : ∀ q r, DirPlace ms q → r ≠ [] → r <+: q → DirPlace ms r := by
    rintro q r ⟨_, m, hm, hp, hx⟩ hr hrq
    refine ⟨hr, m, hm, hrq.trans hp, fun hd e => hx hd ?_⟩
    subst e
    exact (hp.eq_of_length_le hrq.length_le)
  have hclean : ∀ m ∈ ms, CleanNames (segs m.name) := by
    intro m hm c hcm
    obtain ⟨⟨_, h2, h3⟩, _⟩ := hc m hm
    exact ⟨fun e => h2 (e ▸ hcm), fun e => h3 (e ▸ hcm)⟩
  have hDc : ∀ q, DirPlace ms q → CleanNames q := by
    rintro q ⟨_, m, hm, hp, _⟩ c hcq
    exact hclean m hm c (hp.subset hcq)
  have hDF : ∀ q, (∃ m ∈ ms, m.isDir = false ∧ m.attr ≠ symmagic ∧ q = segs m.name) → ¬ DirPlace ms q := by
    rintro q ⟨m, hm, hd, _, rfl⟩
    exact hu.apart m hm hd
  induction ks generalizing s with
  | nil => exact ⟨s, rfl, h⟩
  | cons k ks ih =>
    have hk := hks k (by simp)
    have hrel : isAbs k.name = false := by
      cases hx : isAbs k.name with
      | false => rfl
      | true => exact absurd ((isAbs_iff _).1 hx) (hc k hk).1.1
    have step : ∃ s1, unpackMember n (fun _ => true) [] T k s = (s1, true) ∧
        Inv T (DirPlace ms) (fun q => ∃ m ∈ ms, m.isDir = false ∧ m.attr ≠ symmagic ∧ q = segs m.name) s1 := by
      have e : ofile T k.name = T ++ segs k.name := by simp [ofile, hrel, names_segs]
      have eu : unpackMember n (fun _ => true) [] T k s =
          if k.isDir then unpackDirMember n (T ++ segs k.name) k s else unpackFileMember n (T ++ segs k.name) k s := by
        simp [unpackMember, outpath, e]
      rw [eu]
      by_cases hd : k.isDir = true
      · rw [if_pos hd]
        exact dirMember_succ hT0 hTc hD hDc hDF ⟨(hc k hk).2, k, hk, List.prefix_refl _, fun h => by rw [hd] at h; cases h⟩
          (by have := hn k hk; simpa using this) h
      · rw [if_neg hd]
        have hd' : k.isDir = false := by simpa using hd
        obtain ⟨q, c, hqc⟩ : ∃ q c, segs k.name = q ++ [c] := by
          rcases List.eq_nil_or_concat (segs k.name) with e | ⟨a, b, e⟩
          · exact absurd e (hc k hk).2
          · exact ⟨a, b, by rw [e, List.concat_eq_append]⟩
        have hq : q = [] ∨ DirPlace ms q := by
          by_cases e : q = []
          · exact .inl e
          · refine .inr ⟨e, k, hk, by rw [hqc]; exact List.prefix_append _ _, fun _ e' => ?_⟩
            have := congrArg List.length (e'.trans hqc)
            simp at this
        have hstrip : stripDir (T ++ q) = T ++ q := by
          unfold stripDir
          have hlast : ∀ c, (T ++ q).getLast? = some c → c.getLast?.all (fun x => ¬ isSpace x) ∧ c ≠ [] := by
            intro c hlc
            by_cases e : q = []
            · subst e
              rw [List.append_nil] at hlc
              refine ⟨hT.2.2 c hlc, ?_⟩
              exact (hT.2.1 c (List.mem_of_getLast? hlc)).2.2
            · have hqc' : q.getLast? = some c := by
                rcases List.eq_nil_or_concat q with e' | ⟨a, b, e'⟩
                · exact absurd e' e
                · rw [List.concat_eq_append] at e'
                  subst e'
                  rw [← List.append_assoc, List.getLast?_concat] at hlc
                  rw [List.getLast?_concat]; exact hlc
              refine ⟨hu.names k hk hd' c (by rw [hqc, List.dropLast_concat]; exact hqc'), ?_⟩
              rintro rfl
              exact segs_noempty k.name (by rw [hqc]; exact List.mem_append_left _ (List.mem_of_getLast? hqc'))
          cases hg : (T ++ q).getLast? with
          | none => simpa using (List.getLast?_eq_none_iff.1 hg).symm
          | some c =>
            obtain ⟨h1, h2⟩ := hlast c hg
            simp only [rstrip_none c h1, if_neg h2]
            rcases List.eq_nil_or_concat (T ++ q) with e' | ⟨a, b, e'⟩
            · rw [e'] at hg; cases hg
            · rw [List.concat_eq_append] at e'
              rw [e', List.getLast?_concat] at hg
              cases hg
              rw [e', List.dropLast_concat]
        rw [hqc]
        refine fileMember_succ hT0 hTc hD hDc hDF hq (hclean k hk c (by rw [hqc]; simp)) hstrip
          (hqc ▸ hu.apart k hk hd') (fun ha => ⟨k, hk, hd', ha, hqc.symm⟩) ?_ h
        have := hn k hk
        rw [hqc] at this
        simpa using this
    obtain ⟨s1, e1, i1⟩ := step
    obtain ⟨s2, e2, i2⟩ := ih (fun k hk => hks k (by simp [hk])) s1 i1
    refine ⟨s2, ?_, i2⟩
    unfold unpackAll at e2 ⊢
    unfold unpackCond andThen
    rw [e1]
    exact e2

/-- C79: an archive that agrees with what is in the target can be unpacked. -/
theorem unpack_succeeds (n : Nat) (T : Loc) (fs : Files) (ms : List Member) (hT0 : T ≠ []) (hT : RealDir fs T)
    (hc : ∀ m ∈ ms, CleanName m.name ∧ segs m.name ≠ []) (hu : Unpackable fs T ms)
    (hn : ∀ m ∈ ms, T.length + (segs m.name).length < n) : (unpackAll n T ms ⟨fs, []⟩).2 = true := by
  obtain ⟨s', e, _⟩ := unpack_inv n T fs ms hT0 hT hc hu hn ms (fun _ h => h) ⟨fs, []⟩ (unpackable_inv fs T ms hT hu [])
  rw [e]

theorem unpackable_aside (fs : Files) (T : Loc) (hT0 : T ≠ []) (hT : RealDir fs T) (ms : List Member)
    (hc : ∀ m ∈ ms, segs m.name ≠ []) (hu : Unpackable fs T ms) : LinksAside fs T [] ms ∧ NoneBelowLinks ms := by
  constructor
  · intro q t hq m hm hp
    have hp' : q <+: segs m.name := hp
    show q = segs m.name
    apply Classical.byContradiction
    intro hne
    by_cases e : q = []
    · subst e
      rw [List.append_nil] at hq
      obtain ⟨x, hx⟩ := hT.1 T hT0 (List.prefix_refl _)
      rw [hx] at hq; cases hq
    · rcases hu.dirs q ⟨e, m, hm, hp', fun _ => hne⟩ with h | ⟨x, h⟩ <;> (rw [h] at hq; cases hq)
  · intro m hm k hk hl hp
    apply Classical.byContradiction
    intro hne
    exact hu.apart k hk hl.1 ⟨hc k hk, m, hm, hp, fun _ => hne⟩

/-- C79: after that it can be unpacked again, over the files and links of the first time, and every file and link is there
as archived. -/
theorem unpack_again (n : Nat) (T : Loc) (fs : Files) (ms : List Member) (hT0 : T ≠ []) (hT : RealDir fs T)
    (hc : ∀ m ∈ ms, CleanName m.name ∧ segs m.name ≠ []) (hu : Unpackable fs T ms)
    (hd : ms.Pairwise (fun a b => segs a.name ≠ segs b.name))
    (hn : ∀ m ∈ ms, T.length + (segs m.name).length < n) :
    let s1 := (unpackAll n T ms ⟨fs, []⟩).1
    (unpackAll n T ms ⟨s1.fs, []⟩).2 = true ∧ ∀ m ∈ ms, m.isDir = false →
      (unpackAll n T ms ⟨s1.fs, []⟩).1.fs (T ++ segs m.name) =
        some (if m.attr = symmagic then .link m.content else .file m.content (filePerm m.attr)) := by
  obtain ⟨s', e, i⟩ := unpack_inv n T fs ms hT0 hT hc hu hn ms (fun _ h => h) ⟨fs, []⟩ (unpackable_inv fs T ms hT hu [])
  have hu' := unpackable_of_inv fs T ms hu s' i
  have hT' : RealDir s'.fs T := ⟨i.real, hT.2⟩
  intro s1
  have hs1 : s1 = s' := by simp [s1, e]
  rw [hs1]
  have hok := unpack_succeeds n T s'.fs ms hT0 hT' hc hu' hn
  obtain ⟨ha, hb⟩ := unpackable_aside s'.fs T hT0 hT' ms (fun m hm => (hc m hm).2) hu'
  exact ⟨hok, fun m hm hf => unpack_content n T s'.fs ms hT' ha (fun m hm => ⟨(hc m hm).1, fun _ => (hc m hm).2⟩) hb hd hok
    m hm hf⟩

/-- A target with a dangling link where the file goes and a directory, with a file in it, where the link goes. -/
def demoOld : Files := fun q => if q = [['t']] then some (.dir 0o755) else if q = [['t'], ['d']] then some (.dir 0o755)
  else if q = [['t'], ['d'], ['f']] then some (.link ['n', 'o']) else if q = [['t'], ['l']] then some (.dir 0o755)
  else if q = [['t'], ['l'], ['x']] then some (.file ['o'] 0o644) else none

example :
    let ms : List Member := [⟨['d', '/'], 0o40700 <<< 16, []⟩, ⟨['d', '/', 'f'], 0o104755 <<< 16, ['x']⟩,
      ⟨['l'], symmagic, ['d']⟩]
    RealDir demoOld [['t']] ∧ Unpackable demoOld [['t']] ms ∧ (∀ m ∈ ms, CleanName m.name ∧ segs m.name ≠ []) ∧
    ms.Pairwise (fun a b => segs a.name ≠ segs b.name) ∧ (∀ m ∈ ms, 1 + (segs m.name).length < 9) ∧
    (unpackAll 9 [['t']] ms ⟨demoOld, []⟩).1.fs [['t'], ['l']] = some (.link ['d']) := by
  intro ms
  refine ⟨⟨?_, by decide, ?_⟩, ⟨?_, ?_, ?_, ?_, ?_⟩, ?_, by decide, by decide, by decide +kernel⟩
  · intro q hq hp
    have : q = [['t']] := by
      cases q with
      | nil => exact absurd rfl hq
      | cons a b =>
        obtain ⟨rfl, hb⟩ := List.cons_prefix_cons.1 hp
        rw [List.prefix_nil.1 hb]
    subst this
    exact ⟨_, rfl⟩
  · intro c hc
    simp at hc
    subst hc
    decide
  · intro q c hq hs
    by_cases h1 : q = [['d']]
    · subst h1; exact ⟨_, rfl⟩
    · by_cases h2 : q = [['l']]
      · subst h2; exact ⟨_, rfl⟩
      · exfalso
        rcases q with _ | ⟨a, _ | ⟨b, l⟩⟩
        · exact hq rfl
        · have h1' : a ≠ ['d'] := fun e => h1 (by rw [e])
          have h2' : a ≠ ['l'] := fun e => h2 (by rw [e])
          simp [demoOld, h1', h2'] at hs
        · simp [demoOld] at hs
  · have hf : ∀ m ∈ ms, m.isDir = false → ∀ k ∈ ms, segs m.name <+: segs k.name → segs m.name = segs k.name ∧ k.isDir = false := by
      decide +kernel
    rintro m hm hd ⟨_, k, hk, hp, hx⟩
    obtain ⟨h1, h2⟩ := hf m hm hd k hk hp
    exact hx h2 h1
  · rintro q ⟨hq, m, hm, hp, hx⟩
    have : q = [['d']] := by
      simp [ms] at hm
      rcases hm with rfl | rfl | rfl
      · have hp : q <+: [['d']] := hp
        rcases q with _ | ⟨a, l⟩
        · exact absurd rfl hq
        · obtain ⟨rfl, hb⟩ := List.cons_prefix_cons.1 hp
          rw [List.prefix_nil.1 hb]
      · have hp : q <+: [['d'], ['f']] := hp
        have hx : q ≠ [['d'], ['f']] := hx rfl
        rcases q with _ | ⟨a, _ | ⟨b, l⟩⟩
        · exact absurd rfl hq
        · obtain ⟨rfl, hb⟩ := List.cons_prefix_cons.1 hp
          rfl
        · obtain ⟨rfl, hb⟩ := List.cons_prefix_cons.1 hp
          obtain ⟨rfl, hb2⟩ := List.cons_prefix_cons.1 hb
          rw [List.prefix_nil.1 hb2] at hx
          exact absurd rfl hx
      · have hp : q <+: [['l']] := hp
        have hx : q ≠ [['l']] := hx rfl
        rcases q with _ | ⟨a, l⟩
        · exact absurd rfl hq
        · obtain ⟨rfl, hb⟩ := List.cons_prefix_cons.1 hp
          rw [List.prefix_nil.1 hb] at hx
          exact absurd rfl hx
    subst this
    exact .inr ⟨_, rfl⟩
  · intro m hm hd ha x
    simp [ms] at hm
    rcases hm with rfl | rfl | rfl
    · cases hd
    · intro h; cases h
    · exact absurd rfl ha
  · intro m hm hd c hc
    simp [ms] at hm
    rcases hm with rfl | rfl | rfl
    · cases hd
    · have : c = ['d'] := by
        have h : some ['d'] = some c := hc
        exact (Option.some.inj h).symm
      subst this
      decide
    · cases hc
  · intro m hm
    simp [ms] at hm
    rcases hm with rfl | rfl | rfl <;> simp [CleanName, IsAbs] <;> decide

end Pisi.Unpack
