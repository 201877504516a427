import Verif.Lemmas.ActionsInside

/-! # Exact effects on a file system without symbolic links -/
namespace Pisi.Act
open Pisi.Path (joinPath joinStep lstripSlash)

theorem walk_way {fs : FS} (h : LinkFree fs) (f : Bool) (n : Nat) : ∀ (cs : List Str) (cur p : Loc),
    walk fs f n cur cs = some p → dotdot ∉ cs → ∀ q, q <+: cs → q ≠ [] → q ≠ cs → look fs (cur ++ q) = some .dir := by
  intro cs
  induction cs with
  | nil => intro cur p _ _ q hq hq0 _; simp at hq; exact absurd hq hq0
  | cons c r ih =>
    intro cur p hw hd q hq hq0 hqc
    rw [walk_cons] at hw
    have hc : c ≠ dotdot := fun e => hd (e ▸ List.mem_cons_self)
    rw [if_neg hc] at hw
    have hr : dotdot ∉ r := fun e => hd (List.mem_cons_of_mem _ e)
    obtain ⟨x, q, rfl⟩ : ∃ x q', q = x :: q' := by
      cases q with
      | nil => exact absurd rfl hq0
      | cons x q => exact ⟨x, q, rfl⟩
    rw [List.cons_prefix_cons] at hq
    obtain ⟨rfl, hq⟩ := hq
    have hqr : q ≠ r := fun e => hqc (by rw [e])
    have hrn : r ≠ [] := by rintro rfl; simp at hq; exact hqr hq
    cases hl : look fs (cur ++ [x]) with
    | none => rw [hl] at hw; simp [hrn] at hw
    | some y =>
      rw [hl] at hw
      cases y with
      | link t => exact absurd hl (look_not_link h _ _)
      | file b => simp [hrn] at hw
      | dir =>
        by_cases hqn : q = []
        · subst hqn; exact hl
        · have := ih _ _ hw hr q hq hqn hqr
          simpa using this

theorem resolve_iff {fs : FS} (h : LinkFree fs) {cs : List Str} (hd : dotdot ∉ cs) (p : Loc) :
    resolve fs cs = some p ↔ p = cs ∧ Reached fs cs := by
  constructor
  · intro hr
    refine ⟨resolve_eq h hd hr, fun q hq hne => ?_⟩
    by_cases hq0 : q = []
    · subst hq0; rfl
    · simpa using walk_way h _ _ _ _ _ hr hd q hq hq0 hne
  · rintro ⟨rfl, hr⟩
    exact (stat_reached hd hr (look_not_link h _)).2.1

theorem lresolve_iff {fs : FS} (h : LinkFree fs) {cs : List Str} (hd : dotdot ∉ cs) (p : Loc) :
    lresolve fs cs = some p ↔ p = cs ∧ Reached fs cs := by
  constructor
  · intro hr
    refine ⟨lresolve_eq h hd hr, fun q hq hne => ?_⟩
    by_cases hq0 : q = []
    · subst hq0; rfl
    · simpa using walk_way h _ _ _ _ _ hr hd q hq hq0 hne
  · rintro ⟨rfl, hr⟩
    exact (stat_reached hd hr (look_not_link h _)).2.2

theorem stat_iff {fs : FS} (h : LinkFree fs) {cs : List Str} (hd : dotdot ∉ cs) (n : Node) :
    stat fs cs = some n ↔ Reached fs cs ∧ look fs cs = some n := by
  unfold stat
  constructor
  · intro hs
    obtain ⟨p, hp, hl⟩ := Option.bind_eq_some_iff.mp hs
    obtain ⟨rfl, hr⟩ := (resolve_iff h hd p).mp hp
    exact ⟨hr, hl⟩
  · rintro ⟨hr, hl⟩
    rw [(resolve_iff h hd cs).mpr ⟨rfl, hr⟩]; exact hl

theorem lstat_iff {fs : FS} (h : LinkFree fs) {cs : List Str} (hd : dotdot ∉ cs) (n : Node) :
    lstat fs cs = some n ↔ Reached fs cs ∧ look fs cs = some n := by
  unfold lstat
  constructor
  · intro hs
    obtain ⟨p, hp, hl⟩ := Option.bind_eq_some_iff.mp hs
    obtain ⟨rfl, hr⟩ := (lresolve_iff h hd p).mp hp
    exact ⟨hr, hl⟩
  · rintro ⟨hr, hl⟩
    rw [(lresolve_iff h hd cs).mpr ⟨rfl, hr⟩]; exact hl

theorem isDirC_iff {fs : FS} (h : LinkFree fs) {cs : List Str} (hd : dotdot ∉ cs) :
    isDirC fs cs = true ↔ Reached fs cs ∧ look fs cs = some .dir := by
  unfold isDirC
  rw [decide_eq_true_eq]; exact stat_iff h hd _

theorem isFileC_iff {fs : FS} (h : LinkFree fs) {cs : List Str} (hd : dotdot ∉ cs) :
    isFileC fs cs = true ↔ Reached fs cs ∧ ∃ c, look fs cs = some (.file c) := by
  unfold isFileC
  constructor
  · intro hs
    split at hs
    · rename_i c hc
      obtain ⟨h1, h2⟩ := (stat_iff h hd _).mp hc
      exact ⟨h1, c, h2⟩
    · cases hs
  · rintro ⟨hr, c, hc⟩
    rw [(stat_iff h hd _).mpr ⟨hr, hc⟩]

theorem isLinkC_false {fs : FS} (h : LinkFree fs) (cs : List Str) : isLinkC fs cs = false := by
  unfold isLinkC
  split
  · rename_i t ht; exact absurd ht (lstat_not_link h cs t)
  · rfl

theorem mkdirC_ok {fs fs' : FS} {cs : List Str} (h : LinkFree fs) (hd : dotdot ∉ cs) (hm : mkdirC cs fs = .ok fs') :
    Reached fs cs ∧ look fs cs = none ∧ fs' = fs.put cs .dir := by
  unfold mkdirC at hm
  split at hm
  · rename_i p hp
    obtain ⟨rfl, hr⟩ := (lresolve_iff h hd p).mp hp
    split at hm
    · cases hm
    · rename_i hn
      simp only [Except.ok.injEq] at hm
      exact ⟨hr, by simpa using hn, hm.symm⟩
  · cases hm

theorem look_put {fs : FS} {p : Loc} (hp : p ≠ []) (n : Node) (q : Loc) :
    look (fs.put p n) q = if q = p then some n else look fs q := by
  unfold look
  by_cases hq : q = []
  · subst hq; simp [Ne.symm hp]
  · rw [if_neg hq, if_neg hq, Dict.get_put]
    by_cases he : p = q
    · simp [he]
    · simp [he, Ne.symm he]

theorem look_del {fs : FS} {p : Loc} (hp : p ≠ []) (q : Loc) : look (fs.del p) q = if q = p then none else look fs q := by
  unfold look
  by_cases hq : q = []
  · subst hq; simp [Ne.symm hp]
  · rw [if_neg hq, if_neg hq, Dict.get_del]
    by_cases he : p = q
    · simp [he]
    · simp [he, Ne.symm he]

theorem linkFree_put {fs : FS} (h : LinkFree fs) (p : Loc) {n : Node} (hn : ∀ t, n ≠ .link t) : LinkFree (fs.put p n) := by
  intro x hx t
  rcases List.mem_cons.mp hx with rfl | hx
  · exact hn t
  · exact h x (List.mem_filter.mp hx).1 t

theorem linkFree_filter {fs : FS} (h : LinkFree fs) (P : Loc × Node → Bool) : LinkFree (fs.filter P) :=
  fun x hx => h x (List.mem_filter.mp hx).1

/-- What `os.makedirs` leaves: directories where nothing was on the way. -/
theorem makedirsC_exact : ∀ (rest : List Str) (pre : List Str) (fs fs' : FS), LinkFree fs → dotdot ∉ pre ++ rest →
    makedirsC pre rest fs = (fs', .ok ()) → LinkFree fs' ∧ ∀ q, look fs' q =
      if (pre <+: q ∧ q ≠ pre ∧ q <+: pre ++ rest) ∧ look fs q = none then some .dir else look fs q := by
  intro rest
  induction rest with
  | nil => intro pre fs fs' _ _ hm; simp [makedirsC] at hm
  | cons c rest ih =>
    intro pre fs fs' h hd hm
    have hne : pre ++ [c] ≠ [] := by simp
    have hd1 : dotdot ∉ pre ++ [c] := by
      intro hx; apply hd
      rcases List.mem_append.mp hx with hx | hx
      · exact List.mem_append_left _ hx
      · simp at hx; simp [hx]
    have between : ∀ q : Loc, pre <+: q → q ≠ pre → q <+: pre ++ [c] → q = pre ++ [c] := by
      rintro q ⟨t, rfl⟩ hq hqp
      rw [List.prefix_append_right_inj] at hqp
      cases t with
      | nil => simp at hq
      | cons y ys =>
        rw [List.cons_prefix_cons] at hqp
        have : ys = [] := by simpa using hqp.2
        rw [this, hqp.1]
    cases rest with
    | nil =>
      unfold makedirsC call at hm
      split at hm
      · rename_i f hf
        obtain ⟨_, hn, rfl⟩ := mkdirC_ok h hd1 hf
        simp only [Prod.mk.injEq, and_true] at hm
        subst hm
        refine ⟨linkFree_put h _ (by simp), fun q => ?_⟩
        rw [look_put hne]
        by_cases hq : q = pre ++ [c]
        · subst hq
          rw [if_pos rfl, if_pos]
          exact ⟨⟨List.prefix_append _ _, by simp, List.prefix_rfl⟩, hn⟩
        · rw [if_neg hq, if_neg]
          rintro ⟨⟨h1, h2, h3⟩, _⟩
          exact hq (between q h1 h2 h3)
      · simp at hm
    | cons c' r =>
      have hd2 : dotdot ∉ (pre ++ [c]) ++ (c' :: r) := by simpa using hd
      -- the part before the next component is a directory
      have step : ∀ f f' : FS, LinkFree f → (∀ q, look f q = if q = pre ++ [c] ∧ look fs q = none then some .dir else look fs q) →
          (f' = fs' → makedirsC (pre ++ [c]) (c' :: r) f = (f', .ok ())) → f' = fs' → LinkFree fs' ∧ ∀ q, look fs' q =
          if (pre <+: q ∧ q ≠ pre ∧ q <+: pre ++ (c :: c' :: r)) ∧ look fs q = none then some .dir else look fs q := by
        rintro f f' hf hl hmk rfl
        obtain ⟨i1, i2⟩ := ih (pre ++ [c]) f f' hf hd2 (hmk rfl)
        refine ⟨i1, fun q => ?_⟩
        rw [i2 q, hl q]
        have e1 : pre ++ [c] ++ c' :: r = pre ++ c :: c' :: r := by simp
        rw [e1]
        by_cases hq : q = pre ++ [c]
        · subst hq
          have : ¬ (pre ++ [c] <+: pre ++ [c] ∧ pre ++ [c] ≠ pre ++ [c] ∧ pre ++ [c] <+: pre ++ c :: c' :: r) := fun h => h.2.1 rfl
          rw [if_neg (fun h => this h.1)]
          have h3 : pre ++ [c] <+: pre ++ c :: c' :: r := ⟨c' :: r, by simp⟩
          simp only [true_and]
          by_cases hn : look fs (pre ++ [c]) = none
          · rw [if_pos hn, if_pos]
            exact ⟨⟨List.prefix_append _ _, by simp, h3⟩, hn⟩
          · rw [if_neg hn, if_neg (fun h => hn h.2)]
        · have e2 : (if q = pre ++ [c] ∧ look fs q = none then some Node.dir else look fs q) = look fs q := if_neg (fun h => hq h.1)
          rw [e2]
          have : (pre ++ [c] <+: q ∧ q ≠ pre ++ [c] ∧ q <+: pre ++ c :: c' :: r) ↔
              (pre <+: q ∧ q ≠ pre ∧ q <+: pre ++ c :: c' :: r) := by
            constructor
            · rintro ⟨h1, h2, h3⟩
              refine ⟨(List.prefix_append _ _).trans h1, ?_, h3⟩
              rintro rfl
              have := h1.length_le; simp at this; omega
            · rintro ⟨⟨t, rfl⟩, h2, h3⟩
              rw [List.prefix_append_right_inj] at h3
              cases t with
              | nil => simp at h2
              | cons y ys =>
                rw [List.cons_prefix_cons] at h3
                obtain ⟨rfl, h3⟩ := h3
                refine ⟨⟨ys, by simp⟩, hq, ?_⟩
                rw [List.prefix_append_right_inj, List.cons_prefix_cons]
                exact ⟨rfl, h3⟩
          simp only [this]
      unfold makedirsC at hm
      split at hm
      · rename_i hex
        refine step fs fs' h (fun q => ?_) (fun _ => hm) rfl
        by_cases hq : q = pre ++ [c] ∧ look fs q = none
        · exfalso
          unfold existsC at hex
          obtain ⟨n, hn⟩ := Option.isSome_iff_exists.mp hex
          have := ((stat_iff h hd1 n).mp hn).2
          rw [hq.1] at hq
          rw [hq.2] at this; cases this
        · rw [if_neg hq]
      · rename_i hnex
        split at hm
        · rename_i f hf
          obtain ⟨_, hn, rfl⟩ := mkdirC_ok h hd1 hf
          refine step _ fs' (linkFree_put h _ (by simp)) (fun q => ?_) (fun _ => hm) rfl
          rw [look_put hne]
          by_cases hq : q = pre ++ [c]
          · subst hq; simp [hn]
          · simp [hq]
        · split at hm
          · rename_i hlx
            exfalso
            apply hnex
            unfold lexistsC at hlx
            obtain ⟨n, hn⟩ := Option.isSome_iff_exists.mp hlx
            have h2 := (lstat_iff h hd1 n).mp hn
            unfold existsC
            rw [(stat_iff h hd1 n).mpr h2]; rfl
          · simp at hm

variable {e : Env}

theorem catching_ok {p : Err → Bool} {a b : Act} {fs fs' : FS} (hb : ∀ f f', b f ≠ (f', .ok ()))
    (h : catching p a b fs = (fs', .ok ())) : a fs = (fs', .ok ()) := by
  unfold catching at h
  cases hr : a fs with
  | mk f r =>
    rw [hr] at h
    cases r with
    | ok _ => exact h
    | error x =>
      dsimp only at h
      split at h
      · exact absurd h (hb _ _)
      · simp at h

theorem error_ne (hi : e.ignore = false) (f f' : FS) : error e f ≠ (f', .ok ()) := by
  unfold error fail; rw [hi]; simp

/-- What `makedirs` leaves. -/
theorem makedirs_exact {d : Str} {fs fs' : FS} (h : LinkFree fs) (hd : dotdot ∉ e.cs d) (hi : e.ignore = false)
    (hm : makedirs e d fs = (fs', .ok ())) : LinkFree fs' ∧ ∀ q, look fs' q =
      if q <+: e.cs d ∧ look fs q = none then some .dir else look fs q := by
  have := catching_ok (error_ne hi) hm
  split at this
  · rename_i hex
    simp only [Prod.mk.injEq, and_true] at this
    subst this
    refine ⟨h, fun q => ?_⟩
    rw [if_neg]
    rintro ⟨hq, hn⟩
    unfold existsC at hex
    obtain ⟨n, hs⟩ := Option.isSome_iff_exists.mp hex
    obtain ⟨h1, h2⟩ := (stat_iff h hd n).mp hs
    by_cases he : q = e.cs d
    · rw [he, h2] at hn; cases hn
    · rw [h1 q hq he] at hn; cases hn
  · obtain ⟨h1, h2⟩ := makedirsC_exact _ [] fs fs' h (by simpa using hd) this
    refine ⟨h1, fun q => ?_⟩
    rw [h2 q]
    by_cases hq : q = []
    · subst hq; simp [look]
    · simp [hq]

/-- `makedirs` leads to a directory, or to a file that was there before. -/
theorem makedirs_reached {d : Str} {fs fs' : FS} (h : LinkFree fs) (hd : dotdot ∉ e.cs d) (hi : e.ignore = false)
    (hm : makedirs e d fs = (fs', .ok ())) : Reached fs' (e.cs d) := by
  have h2 := makedirs_exact h hd hi hm
  have := catching_ok (error_ne hi) hm
  split at this
  · rename_i hex
    simp only [Prod.mk.injEq, and_true] at this
    subst this
    unfold existsC at hex
    obtain ⟨n, hs⟩ := Option.isSome_iff_exists.mp hex
    exact ((stat_iff h hd n).mp hs).1
  · -- the last directory has been made, so everything before it is there
    have key : ∀ (rest pre : List Str) (f f' : FS), LinkFree f → dotdot ∉ pre ++ rest → makedirsC pre rest f = (f', .ok ()) →
        Reached f' (pre ++ rest) := by
      intro rest
      induction rest with
      | nil => intro pre f f' _ _ hm; simp [makedirsC] at hm
      | cons c rest ih =>
        intro pre f f' hf hdd hm
        have hd1 : dotdot ∉ pre ++ [c] := by
          intro hx; apply hdd
          rcases List.mem_append.mp hx with hx | hx
          · exact List.mem_append_left _ hx
          · simp at hx; simp [hx]
        cases rest with
        | nil =>
          unfold makedirsC call at hm
          split at hm
          · rename_i f1 hf1
            obtain ⟨hr, hn, rfl⟩ := mkdirC_ok hf hd1 hf1
            simp only [Prod.mk.injEq, and_true] at hm
            subst hm
            intro q hq hne
            rw [look_put (by simp), if_neg hne]
            exact hr q hq hne
          · simp at hm
        | cons c' r =>
          have hd2 : dotdot ∉ (pre ++ [c]) ++ (c' :: r) := by simpa using hdd
          have e1 : pre ++ [c] ++ c' :: r = pre ++ c :: c' :: r := by simp
          unfold makedirsC at hm
          split at hm
          · have := ih _ _ _ hf hd2 hm; rwa [e1] at this
          · split at hm
            · rename_i f1 hf1
              obtain ⟨_, _, rfl⟩ := mkdirC_ok hf hd1 hf1
              have := ih _ _ _ (linkFree_put hf _ (by simp)) hd2 hm
              rwa [e1] at this
            · split at hm
              · have := ih _ _ _ hf hd2 hm; rwa [e1] at this
              · simp at hm
    have := key _ [] fs fs' h (by simpa using hd) this
    simpa using this

end Pisi.Act
