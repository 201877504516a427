import Verif.Model.DestDir
import Verif.Spec.DestDir
import Verif.Props.UnpackSucceeds

/-!
# C235: the directory given with `--destdir`
-/
namespace Pisi.DestDir
open Pisi.Unpack Pisi.PathSpec

theorem resolve_leads (fs : Files) (n : Nat) (cur : Loc) (cs : List Str) (l : Loc) (h : resolve fs n cur cs = some l) :
    Leads fs cur cs l := by
  induction n generalizing cur cs with
  | zero => cases h
  | succ n ih =>
    cases cs with
    | nil => simp only [resolve, Option.some.injEq] at h; subst h; exact .here _
    | cons c cs =>
      unfold resolve at h
      by_cases h1 : c = dot
      · rw [if_pos h1] at h; subst h1; exact .dot (ih _ _ h)
      · rw [if_neg h1] at h
        by_cases h2 : c = dotdot
        · rw [if_pos h2] at h; subst h2; exact .up (ih _ _ h)
        · rw [if_neg h2] at h
          cases hx : fs (cur ++ [c]) with
          | none => rw [hx] at h; cases h
          | some x =>
            rw [hx] at h
            cases x with
            | dir m => exact .dir h1 h2 hx (ih _ _ h)
            | file t m =>
              simp only at h
              by_cases e : cs = []
              · subst e
                simp only [if_true, Option.some.injEq] at h
                subst h; exact .file h1 h2 hx
              · rw [if_neg e] at h; cases h
            | link t =>
              refine .link h1 h2 hx ?_
              have := ih _ _ h
              simpa [isAbs] using this

theorem real_snoc {fs : Files} {l : Loc} {c : Str} {m : Nat} (h : Real fs l) (hx : fs (l ++ [c]) = some (.dir m)) :
    Real fs (l ++ [c]) := allDirs_snoc h ⟨m, hx⟩

theorem real_dropLast {fs : Files} {l : Loc} (h : Real fs l) : Real fs l.dropLast :=
  fun q hq hp => h q hq (hp.trans (List.dropLast_prefix l))

theorem real_nil (fs : Files) : Real fs [] := fun _ hq hp => absurd (List.prefix_nil.1 hp) hq

/-- What a path leads to is reached through directories only, and is a directory or a file. -/
theorem leads_real {fs : Files} {cur : Loc} {cs : List Str} {l : Loc} (h : Leads fs cur cs l) (hc : Real fs cur) :
    Real fs l.dropLast ∧ (Real fs l ∨ ∃ t m, fs l = some (.file t m)) := by
  induction h with
  | here cur => exact ⟨real_dropLast hc, .inl hc⟩
  | dot _ ih => exact ih hc
  | up _ ih => exact ih (real_dropLast hc)
  | dir _ _ hx _ ih => exact ih (real_snoc hc hx)
  | @file cur c t m _ _ hx => exact ⟨by simpa using hc, .inr ⟨_, _, hx⟩⟩
  | @link cur c cs t l _ _ hx _ ih =>
    refine ih ?_
    split
    · exact real_nil fs
    · exact hc

theorem resolve_grow {fs fs' : Files} (hg : ∀ q x, fs q = some x → fs' q = some x) (k n : Nat) (cur : Loc) (cs : List Str)
    (l : Loc) (h : resolve fs n cur cs = some l) : resolve fs' (n + k) cur cs = some l := by
  induction n generalizing cur cs with
  | zero => cases h
  | succ n ih =>
    rw [Nat.add_right_comm]
    cases cs with
    | nil => simpa [resolve] using h
    | cons c cs =>
      unfold resolve at h ⊢
      by_cases h1 : c = dot
      · rw [if_pos h1] at h ⊢; exact ih _ _ h
      · rw [if_neg h1] at h ⊢
        by_cases h2 : c = dotdot
        · rw [if_pos h2] at h ⊢; exact ih _ _ h
        · rw [if_neg h2] at h ⊢
          cases hx : fs (cur ++ [c]) with
          | none => rw [hx] at h; cases h
          | some x =>
            rw [hx] at h
            rw [hg _ _ hx]
            cases x with
            | dir m => exact ih _ _ h
            | file t m => exact h
            | link t => exact ih _ _ h

/-- One more name, to a directory. -/
theorem resolve_snoc {fs : Files} (n : Nat) (cur : Loc) (cs : List Str) (d : Loc) (c : Str) (m : Nat)
    (h : resolve fs n cur cs = some d) (hd : d ≠ [] → ∀ t m, fs d ≠ some (.file t m)) (h1 : c ≠ dot) (h2 : c ≠ dotdot)
    (hx : fs (d ++ [c]) = some (.dir m)) : resolve fs (n + 1) cur (cs ++ [c]) = some (d ++ [c]) := by
  induction n generalizing cur cs with
  | zero => cases h
  | succ n ih =>
    cases cs with
    | nil =>
      simp only [resolve, Option.some.injEq] at h
      subst h
      simp [resolve, h1, h2, hx]
    | cons a cs =>
      unfold resolve at h
      rw [List.cons_append]
      unfold resolve
      by_cases k1 : a = dot
      · rw [if_pos k1] at h ⊢; exact ih _ _ h
      · rw [if_neg k1] at h ⊢
        by_cases k2 : a = dotdot
        · rw [if_pos k2] at h ⊢; exact ih _ _ h
        · rw [if_neg k2] at h ⊢
          cases hy : fs (cur ++ [a]) with
          | none => rw [hy] at h; cases h
          | some x =>
            rw [hy] at h
            cases x with
            | dir m => exact ih _ _ h
            | file t m =>
              simp only at h
              by_cases e : cs = []
              · subst e
                simp only [if_true, Option.some.injEq] at h
                subst h
                exact absurd hy (hd (by simp) _ _)
              · rw [if_neg e] at h; cases h
            | link t =>
              have := ih _ _ h
              simpa using this

theorem onlyDirs_refl (fs : Files) : OnlyDirs fs fs := fun _ => .inl rfl

theorem onlyDirs_trans {a b c : Files} (h1 : OnlyDirs a b) (h2 : OnlyDirs b c) : OnlyDirs a c := by
  intro q
  rcases h1 q with e | ⟨e1, e2⟩
  · rcases h2 q with f | ⟨f1, f2⟩
    · exact .inl (f.trans e)
    · exact .inr ⟨e ▸ f1, f2⟩
  · rcases h2 q with f | ⟨f1, f2⟩
    · exact .inr ⟨e1, f.trans e2⟩
    · rw [e2] at f1; cases f1

theorem onlyDirs_grow {a b : Files} (h : OnlyDirs a b) (q : Loc) (x : Node) (hx : a q = some x) : b q = some x := by
  rcases h q with e | ⟨e, _⟩
  · rw [e]; exact hx
  · rw [e] at hx; cases hx

theorem mkdir_only (n : Nat) (p : List Str) (s : St) :
    OnlyDirs s.fs (mkdir n p 493 s).1.fs ∧ ((mkdir n p 493 s).2 = true →
      ∃ l, resolve (mkdir n p 493 s).1.fs (n + 1) [] p = some l ∧ (mkdir n p 493 s).1.fs l = some (.dir 493) ∧
        s.fs l = none) := by
  unfold mkdir
  cases hl : place s.fs n p with
  | none => exact ⟨onlyDirs_refl _, fun h => by cases h⟩
  | some l =>
    simp only
    by_cases hs : (s.fs l).isSome = true
    · rw [if_pos hs]; exact ⟨onlyDirs_refl _, fun h => by cases h⟩
    · rw [if_neg hs]
      have hn : s.fs l = none := by cases hx : s.fs l with
        | none => rfl
        | some y => rw [hx] at hs; exact absurd rfl hs
      have ho : OnlyDirs s.fs (s.set l (some (.dir 493))).fs := by
        intro q
        by_cases e : q = l
        · subst e; exact .inr ⟨hn, by simp [St.set]⟩
        · exact .inl (by simp [St.set, e])
      refine ⟨ho, fun _ => ⟨l, ?_, by simp [St.set], hn⟩⟩
      unfold place at hl
      cases hg : p.getLast? with
      | none => rw [hg] at hl; cases hl
      | some c =>
        rw [hg] at hl
        simp only at hl
        by_cases hc : c = dot ∨ c = dotdot
        · rw [if_pos hc] at hl; cases hl
        · rw [if_neg hc] at hl
          cases hr : resolve s.fs n [] p.dropLast with
          | none => rw [hr] at hl; cases hl
          | some d =>
            rw [hr] at hl
            simp only at hl
            by_cases hd : dirAt s.fs d = true
            · rw [if_pos hd] at hl
              simp only [Option.some.injEq] at hl
              obtain ⟨q, rfl⟩ := List.getLast?_eq_some_iff.1 hg
              rw [List.dropLast_concat] at hr
              subst hl
              have h1 := resolve_grow (onlyDirs_grow ho) 0 _ _ _ _ hr
              refine resolve_snoc n [] q d c 493 h1 ?_ (fun e => hc (.inl e)) (fun e => hc (.inr e)) (by simp [St.set])
              intro e t m ht
              have : d ≠ d ++ [c] := fun e => by simp at e
              simp only [St.set, if_neg this] at ht
              unfold dirAt at hd
              rw [if_neg e, ht] at hd; cases hd
            · rw [if_neg hd] at hl; cases hl

theorem makedirs_only (n : Nat) (cs : List Str) : ∀ (done : List Str) (s : St),
    OnlyDirs s.fs (makedirs n done cs 493 s).1.fs ∧ ((makedirs n done cs 493 s).2 = true →
      ∃ l, resolve (makedirs n done cs 493 s).1.fs (n + 1) [] (done ++ cs) = some l ∧
        (makedirs n done cs 493 s).1.fs l = some (.dir 493) ∧ s.fs l = none) := by
  induction cs with
  | nil => intro done s; unfold makedirs; exact ⟨onlyDirs_refl _, fun h => by cases h⟩
  | cons c cs ih =>
    intro done s
    cases cs with
    | nil =>
      unfold makedirs
      exact mkdir_only n _ s
    | cons d ds =>
      have e : done ++ c :: d :: ds = (done ++ [c]) ++ d :: ds := by simp
      rw [e]
      unfold makedirs
      by_cases hs : (stat s.fs n (done ++ [c])).isSome = true
      · rw [if_pos hs]; exact ih _ s
      · rw [if_neg hs]
        have h1 := mkdir_only n (done ++ [c]) s
        rcases hm : mkdir n (done ++ [c]) 493 s with ⟨s', b⟩
        rw [hm] at h1
        cases b with
        | false => exact ⟨h1.1, fun h => by cases h⟩
        | true =>
          have h2 := ih (done ++ [c]) s'
          refine ⟨onlyDirs_trans h1.1 h2.1, fun h => ?_⟩
          obtain ⟨l, a, b, h3⟩ := h2.2 h
          refine ⟨l, a, b, ?_⟩
          rcases h1.1 l with e | ⟨e, _⟩
          · rw [← e]; exact h3
          · exact e

/-- Names along which there are directories lead to the location with these names. -/
theorem leads_skip {fs : Files} (q : List Str) {cur : Loc} {cs : List Str} {l : Loc} (h : Leads fs cur (q ++ cs) l)
    (hc : ∀ c ∈ q, c ≠ ['.'] ∧ c ≠ ['.', '.']) (hd : ∀ r, r ≠ [] → r <+: q → ∃ m, fs (cur ++ r) = some (.dir m)) :
    Leads fs (cur ++ q) cs l := by
  induction q generalizing cur with
  | nil => simpa using h
  | cons c q ih =>
    obtain ⟨m, hm⟩ := hd [c] (by simp) (by simp)
    obtain ⟨h1, h2⟩ := hc c (by simp)
    have hgo : Leads fs (cur ++ [c]) (q ++ cs) l := by
      rw [List.cons_append] at h
      generalize hw : q ++ cs = w at h ⊢
      cases h with
      | dot _ => exact absurd rfl h1
      | up _ => exact absurd rfl h2
      | dir _ _ _ h' => exact h'
      | file _ _ hx => rw [hm] at hx; cases hx
      | link _ _ hx _ => rw [hm] at hx; cases hx
    have := ih hgo (fun x hx => hc x (by simp [hx])) (fun r hr hp => by
      have := hd (c :: r) (by simp) (by simpa using hp)
      simpa using this)
    simpa using this

theorem destPath_leads {fs : Files} {cwd : Loc} {d : Str} {l : Loc} (h : Leads fs [] (destPath cwd d) l) (hr : Real fs cwd)
    (hc : ∀ c ∈ cwd, c ≠ ['.'] ∧ c ≠ ['.', '.']) : LeadsFrom fs cwd d l := by
  unfold destPath at h
  constructor
  · intro ha
    rw [if_pos ((isAbs_iff d).2 ha), names_segs] at h
    exact h
  · intro ha
    rw [if_neg (fun e => ha ((isAbs_iff d).1 e)), names_segs] at h
    have := leads_skip cwd h hc (fun r h1 h2 => by simpa using hr r h1 h2)
    simpa using this

theorem onlyDirs_real {a b : Files} (h : OnlyDirs a b) {l : Loc} (hr : Real a l) : Real b l := fun q hq hp => by
  obtain ⟨m, hm⟩ := hr q hq hp
  exact ⟨m, onlyDirs_grow h q _ hm⟩

/-- C235, full statement: a command that goes on works in a directory that is reached through directories only and to which
the given name leads; nothing was changed but by making directories. -/
def DestDirFull : Prop := ∀ (n : Nat) (cwd : Loc) (d : Str) (fs : Files) (s' : St) (l : Loc),
  Real fs cwd → (∀ c ∈ cwd, c ≠ ['.'] ∧ c ≠ ['.', '.']) → processOpts n cwd (some d) ⟨fs, []⟩ = (s', some (some l)) →
    LeadsFrom s'.fs cwd d l ∧ Real s'.fs l ∧ OnlyDirs fs s'.fs

theorem process_cases (n : Nat) (cwd : Loc) (d : Str) (fs : Files) (s' : St) (l : Loc)
    (h : processOpts n cwd (some d) ⟨fs, []⟩ = (s', some (some l))) :
    resolve s'.fs (n + 1) [] (destPath cwd d) = some l ∧ OnlyDirs fs s'.fs ∧
      (s'.fs = fs ∨ fs l = none ∧ s'.fs l = some (.dir 493)) := by
  cases d with
  | nil => simp [processOpts] at h
  | cons a d =>
    simp only [processOpts] at h
    by_cases hs : (stat fs n (destPath cwd (a :: d))).isSome = true
    · simp only [if_pos hs, if_true] at h
      cases hr : resolve fs (n + 1) [] (destPath cwd (a :: d)) with
      | none => rw [hr] at h; simp at h
      | some l' =>
        rw [hr] at h
        simp only [Prod.mk.injEq, Option.some.injEq] at h
        obtain ⟨rfl, rfl⟩ := h
        exact ⟨hr, onlyDirs_refl _, .inl rfl⟩
    · simp only [if_neg hs] at h
      have hm := makedirs_only n (destPath cwd (a :: d)) [] ⟨fs, []⟩
      rcases e : makedirs n [] (destPath cwd (a :: d)) 493 ⟨fs, []⟩ with ⟨s1, b⟩
      rw [e] at h hm
      cases b with
      | false => simp at h
      | true =>
        obtain ⟨l1, h1, h2, h3⟩ := hm.2 rfl
        simp only [List.nil_append] at h1
        simp only [if_true, h1, Prod.mk.injEq, Option.some.injEq] at h
        obtain ⟨rfl, rfl⟩ := h
        exact ⟨h1, hm.1, .inr ⟨h3, h2⟩⟩

/-- C235, unless the name leads to a file: the command works in the directory to which the name leads, the recorded path
leads through directories only, and nothing was changed but by making directories. -/
theorem destdir_partial (n : Nat) (cwd : Loc) (d : Str) (fs : Files) (s' : St) (l : Loc) (hw : Real fs cwd)
    (hc : ∀ c ∈ cwd, c ≠ ['.'] ∧ c ≠ ['.', '.'])
    (h : processOpts n cwd (some d) ⟨fs, []⟩ = (s', some (some l))) (hf : ∀ l, LeadsFrom fs cwd d l → ∀ t m, fs l ≠ some (.file t m)) :
    LeadsFrom s'.fs cwd d l ∧ Real s'.fs l ∧ OnlyDirs fs s'.fs := by
  obtain ⟨h1, h2, h3⟩ := process_cases n cwd d fs s' l h
  have hl := resolve_leads _ _ _ _ _ h1
  refine ⟨destPath_leads hl (onlyDirs_real h2 hw) hc, ?_, h2⟩
  rcases (leads_real hl (real_nil _)).2 with hr | ⟨t, m, hx⟩
  · exact hr
  · rcases h3 with e | ⟨_, e⟩
    · rw [e] at hl hx; exact absurd hx (hf l (destPath_leads hl hw hc) t m)
    · rw [e] at hx; cases hx

/-- C235: a directory that is there is used as it is, wherever links lead. -/
theorem destdir_there (n : Nat) (cwd : Loc) (d : Str) (fs : Files) (l : Loc) (hd : d ≠ [])
    (h : resolve fs n [] (destPath cwd d) = some l) :
    processOpts n cwd (some d) ⟨fs, []⟩ = (⟨fs, []⟩, some (some l)) := by
  cases d with
  | nil => exact absurd rfl hd
  | cons a d =>
    have hs : (stat fs n (destPath cwd (a :: d))).isSome = true := by
      unfold stat
      rw [h]
      cases l with
      | nil => rfl
      | cons c q =>
        rcases (leads_real (resolve_leads _ _ _ _ _ h) (real_nil _)).2 with hr | ⟨t, m, hx⟩
        · obtain ⟨m, hm⟩ := hr _ (by simp) (List.prefix_refl _)
          simp [hm]
        · simp [hx]
    have h1 := resolve_grow (fs' := fs) (fun _ _ h => h) 1 n [] _ _ h
    simp only [processOpts, if_pos hs, if_true, h1]

/-- C235: a directory that is not there is made with all that is missing above it, if there are only directories on the way
and the name is without `.` and `..`. -/
theorem destdir_made (n : Nat) (cwd : Loc) (d : Str) (fs : Files) (hd : d ≠ []) (hp : destPath cwd d ≠ [])
    (hc : ∀ c ∈ destPath cwd d, c ≠ ['.'] ∧ c ≠ ['.', '.']) (h0 : fs (destPath cwd d) = none)
    (hr : ∀ q, q ≠ [] → q <+: destPath cwd d → fs q = none ∨ ∃ m, fs q = some (.dir m))
    (hn : (destPath cwd d).length < n) :
    ∃ s', processOpts n cwd (some d) ⟨fs, []⟩ = (s', some (some (destPath cwd d))) ∧ Real s'.fs (destPath cwd d) := by
  cases d with
  | nil => exact absurd rfl hd
  | cons a d =>
    obtain ⟨s', h1, h2, h3, h4⟩ := makedirs_succ n 493 (destPath cwd (a :: d)) [] ⟨fs, []⟩ hp hc
      (fun r hr hp => absurd (List.prefix_nil.1 hp) hr) (by simpa using hr) (by simpa using h0) (by simpa using hn)
    simp only [List.nil_append] at h2
    have hs : ¬ (stat fs n (destPath cwd (a :: d))).isSome = true := by
      intro hs
      unfold stat at hs
      cases hx : resolve fs n [] (destPath cwd (a :: d)) with
      | none => rw [hx] at hs; cases hs
      | some l =>
        have e := resolve_root fs n _ ⟨hc, fun q hq hq' t ht => by
          rcases hr q hq hq' with k | ⟨m, k⟩ <;> (rw [k] at ht; cases ht)⟩ l hx
        subst e
        rw [hx] at hs
        revert hs
        cases hq : destPath cwd (a :: d) with
        | nil => exact absurd hq hp
        | cons b q => intro hs; rw [hq] at h0; simp [h0] at hs
    obtain ⟨l, k1, _⟩ := (makedirs_only n (destPath cwd (a :: d)) [] ⟨fs, []⟩).2 (by rw [h1])
    rw [h1, List.nil_append] at k1
    have e : l = destPath cwd (a :: d) := resolve_root _ _ _ ⟨hc, fun q hq hq' t ht => by
      obtain ⟨m, hm⟩ := h2 q hq hq'
      rw [hm] at ht; cases ht⟩ l k1
    subst e
    exact ⟨s', by simp only [processOpts, if_neg hs, h1, if_true, k1], h2⟩

/-- C235 also when the command ends there: nothing was changed but by making directories; and with a name that is not empty
the command never goes on without a destination. -/
theorem destdir_only (n : Nat) (cwd : Loc) (d : Str) (fs : Files) (hd : d ≠ []) :
    OnlyDirs fs (processOpts n cwd (some d) ⟨fs, []⟩).1.fs ∧ (processOpts n cwd (some d) ⟨fs, []⟩).2 ≠ some none := by
  cases d with
  | nil => exact absurd rfl hd
  | cons a d =>
    have hm := (makedirs_only n (destPath cwd (a :: d)) [] ⟨fs, []⟩).1
    have hr : ∀ r : St × Bool, OnlyDirs fs r.1.fs →
        OnlyDirs fs (if r.2 then match resolve r.1.fs (n + 1) [] (destPath cwd (a :: d)) with
          | some l => (r.1, some (some l))
          | none => (r.1, none)
        else (r.1, none) : St × Option (Option Loc)).1.fs ∧
        (if r.2 then match resolve r.1.fs (n + 1) [] (destPath cwd (a :: d)) with
          | some l => (r.1, some (some l))
          | none => (r.1, none)
        else (r.1, none) : St × Option (Option Loc)).2 ≠ some none := by
      intro r h
      by_cases hb : r.2 = true
      · rw [if_pos hb]
        cases resolve r.1.fs (n + 1) [] (destPath cwd (a :: d)) with
        | none => exact ⟨h, by simp⟩
        | some l => exact ⟨h, by simp⟩
      · rw [if_neg hb]; exact ⟨h, by simp⟩
    simp only [processOpts]
    refine hr _ ?_
    split
    · exact onlyDirs_refl _
    · exact hm

/-- C235: without the option, or with an empty name, nothing is changed and there is no other destination. -/
theorem destdir_none (n : Nat) (cwd : Loc) (fs : Files) : processOpts n cwd none ⟨fs, []⟩ = (⟨fs, []⟩, some none) ∧
    processOpts n cwd (some []) ⟨fs, []⟩ = (⟨fs, []⟩, some none) := ⟨rfl, rfl⟩

theorem leads_names {fs : Files} {cur : Loc} {cs : List Str} {l : Loc} (h : Leads fs cur cs l)
    (hc : ∀ c ∈ cur, c ≠ ['.'] ∧ c ≠ ['.', '.'] ∧ c ≠ []) (hs : [] ∉ cs) : ∀ c ∈ l, c ≠ ['.'] ∧ c ≠ ['.', '.'] ∧ c ≠ [] := by
  have hsnoc : ∀ {cur : Loc} {c : Str}, (∀ c ∈ cur, c ≠ ['.'] ∧ c ≠ ['.', '.'] ∧ c ≠ []) → c ≠ ['.'] → c ≠ ['.', '.'] → c ≠ [] →
      ∀ x ∈ cur ++ [c], x ≠ ['.'] ∧ x ≠ ['.', '.'] ∧ x ≠ [] := by
    intro cur c h h1 h2 h3 x hx
    rcases List.mem_append.1 hx with hx | hx
    · exact h x hx
    · simp only [List.mem_singleton] at hx
      subst hx; exact ⟨h1, h2, h3⟩
  induction h with
  | here cur => exact hc
  | dot _ ih => exact ih hc (fun e => hs (by simp [e]))
  | up _ ih => exact ih (fun c h => hc c (List.dropLast_subset _ h)) (fun e => hs (by simp [e]))
  | dir h1 h2 _ _ ih => exact ih (hsnoc hc h1 h2 (fun e => hs (by simp [e]))) (fun e => hs (by simp [e]))
  | file h1 h2 _ => exact hsnoc hc h1 h2 (fun e => hs (by simp [e]))
  | @link cur c cs t l _ _ _ _ ih =>
    refine ih ?_ ?_
    · split
      · simp
      · exact hc
    · intro e
      rcases List.mem_append.1 e with e | e
      · simp [names] at e
      · exact hs (by simp [e])

/-- C235 with C48: a package archive with clean names, unpacked into the destination, changes nothing outside the directory to
which the given name leads.  (The name of that directory must not end in white space, which `check_dir` would cut off.) -/
theorem destdir_confines (n : Nat) (cwd : Loc) (d : Str) (fs : Files) (s' : St) (l : Loc) (hw : Real fs cwd)
    (hc : ∀ c ∈ cwd, c ≠ ['.'] ∧ c ≠ ['.', '.'] ∧ c ≠ [])
    (h : processOpts n cwd (some d) ⟨fs, []⟩ = (s', some (some l))) (hf : ∀ l, LeadsFrom fs cwd d l → ∀ t m, fs l ≠ some (.file t m))
    (hsp : ∀ c, l.getLast? = some c → c.getLast?.all (fun x => ¬ isSpace x)) (k : Nat) (ms : List Member)
    (hn : LinksAside s'.fs l [] ms) (hm : ∀ m ∈ ms, CleanName m.name ∧ (m.isDir = false → segs m.name ≠ []))
    (hb : NoneBelowLinks ms) :
    ∀ q, ¬ l <+: q → (unpackAll k l ms ⟨s'.fs, []⟩).1.fs q = s'.fs q := by
  obtain ⟨h1, h2, h3⟩ := destdir_partial n cwd d fs s' l hw (fun c h => ⟨(hc c h).1, (hc c h).2.1⟩) h hf
  have hl : ∀ c ∈ l, c ≠ ['.'] ∧ c ≠ ['.', '.'] ∧ c ≠ [] := by
    have hs : [] ∉ segs d := by rw [← names_segs]; simp [names]
    by_cases ha : IsAbs d
    · exact leads_names (h1.1 ha) (by simp) hs
    · exact leads_names (h1.2 ha) hc hs
  intro q hq
  refine (confined_partial k l s'.fs ms ⟨h2, hl, hsp⟩ hn hm hb).2 q ?_
  rintro ⟨r, _, rfl⟩
  exact hq (List.prefix_append _ _)

/-- A file system with a directory, a link to it, a file and a link that leads nowhere. -/
def demoFs : Files := fun q => if q = [['s']] then some (.dir 493) else if q = [['l']] then some (.link ['s'])
  else if q = [['f']] then some (.file [] 420) else if q = [['x']] then some (.link ['n', 'o']) else none

/-- C235 is false of the code: a file is taken as the destination directory. -/
theorem destdir_refuted : ¬ DestDirFull := by
  intro h
  have hp := destdir_there 5 [] ['/', 'f'] demoFs [['f']] (by simp) (by decide)
  obtain ⟨m, hm⟩ := (h 5 [] ['/', 'f'] demoFs _ _ (real_nil _) (by simp) hp).2.1 [['f']] (by simp) (List.prefix_refl _)
  exact absurd hm (by simp [demoFs])

/-- A link that leads nowhere as the destination directory ends the command. -/
theorem destdir_dangling : (processOpts 5 [] (some ['/', 'x']) ⟨demoFs, []⟩).2 = none := by decide

/-- `--destdir l/a/b` from the root: the directories are made behind the link. -/
example : ∃ s', processOpts 9 [] (some ['l', '/', 'a', '/', 'b']) ⟨demoFs, []⟩ = (s', some (some [['s'], ['a'], ['b']])) ∧
    ∀ l, LeadsFrom demoFs [] ['l', '/', 'a', '/', 'b'] l → ∀ t m, demoFs l ≠ some (.file t m) := by
  refine ⟨_, Prod.ext rfl (by decide), ?_⟩
  intro l h
  exfalso
  have : ∀ l, ¬ Leads demoFs [['s']] [['a'], ['b']] l := by
    intro l h
    cases h with
    | dir _ _ hx _ => simp [demoFs] at hx
    | link _ _ hx _ => simp [demoFs] at hx
  have e : segs ['l', '/', 'a', '/', 'b'] = [['l'], ['a'], ['b']] := by decide
  have h := h.2 (by simp [IsAbs])
  rw [e] at h
  cases h with
  | dir _ _ hx _ => simp [demoFs] at hx
  | link _ _ hx h' =>
    simp [demoFs] at hx
    subst hx
    have e : names ['s'] ++ [['a'], ['b']] = [['s'], ['a'], ['b']] := by decide
    rw [e] at h'
    cases h' with
    | dir _ _ _ h2 => exact this _ h2
    | link _ _ hx _ => simp [demoFs] at hx

/-- A relative name, from a directory. -/
example : (processOpts 9 [['s']] (some ['n']) ⟨demoFs, []⟩).2 = some (some [['s'], ['n']]) ∧ Real demoFs [['s']] := by
  refine ⟨by decide, fun q hq hp => ?_⟩
  rcases q with _ | ⟨a, q⟩
  · exact absurd rfl hq
  · simp at hp
    obtain ⟨rfl, rfl⟩ := hp
    exact ⟨493, by decide⟩

example : ∃ s', processOpts 5 [] (some ['/', 's', '/', 'n', '/']) ⟨demoFs, []⟩ = (s', some (some [['s'], ['n']])) ∧
    Real s'.fs [['s'], ['n']] := by
  have e : destPath [] ['/', 's', '/', 'n', '/'] = [['s'], ['n']] := by decide
  have := destdir_made 5 [] ['/', 's', '/', 'n', '/'] demoFs (by simp) (by rw [e]; simp) (by rw [e]; decide) (by rw [e]; decide)
    (by
      rw [e]
      intro q hq hp
      rcases q with _ | ⟨a, _ | ⟨b, q⟩⟩
      · exact absurd rfl hq
      · simp at hp; subst hp; exact .inr ⟨493, by decide⟩
      · simp at hp
        obtain ⟨rfl, rfl, rfl⟩ := hp
        exact .inl (by decide))
    (by rw [e]; decide)
  rwa [e] at this

end Pisi.DestDir
