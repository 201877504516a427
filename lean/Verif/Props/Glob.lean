import Verif.Model.ActionsFS
import Verif.Spec.Glob

/-!
# What patterns select
-/
namespace Pisi.Act
open Pisi.GlobSpec

theorem inClass_iff (b : Str) (c : Char) : inClass b c = true ↔ InSet b c := by
  fun_induction inClass b c with
  | case1 c a b r ih =>
    simp only [Bool.or_eq_true, Bool.and_eq_true, decide_eq_true_eq, ih]
    constructor
    · rintro (⟨h1, h2⟩ | h)
      · exact .range h1 h2
      · exact .afterRange h
    · intro h
      cases h with
      | range h1 h2 => exact Or.inl ⟨h1, h2⟩
      | afterRange h => exact Or.inr h
      | one hr => exact absurd rfl (hr _ _)
      | afterOne hr h => exact absurd rfl (hr _ _)
  | case2 c a r hr ih =>
    simp only [Bool.or_eq_true, decide_eq_true_eq, ih]
    constructor
    · rintro (rfl | h)
      · exact .one fun b r' e => hr b r' (by rw [e])
      · exact .afterOne (fun b r' e => hr b r' (by rw [e])) h
    · intro h
      cases h with
      | range h1 h2 => exact absurd rfl (hr _ _)
      | afterRange h => exact absurd rfl (hr _ _)
      | one hr => exact Or.inl rfl
      | afterOne hr h => exact Or.inr h
  | case3 => 
    simp only [Bool.false_eq_true, false_iff]
    intro h; cases h

theorem first_bracket (a r : Str) (ha : ']' ∉ a) :
    (a ++ ']' :: r).dropWhile (fun x => decide (x ≠ ']')) = ']' :: r ∧
    (a ++ ']' :: r).takeWhile (fun x => decide (x ≠ ']')) = a := by
  induction a with
  | nil => simp
  | cons x a ih =>
    simp only [List.mem_cons, not_or] at ha
    have hx : x ≠ ']' := fun e => ha.1 e.symm
    simpa [hx] using ih ha.2

theorem bracket_cases (l : Str) : (']' ∉ l ∧ l.dropWhile (fun x => decide (x ≠ ']')) = []) ∨
    ∃ a r, ']' ∉ a ∧ l = a ++ ']' :: r := by
  induction l with
  | nil => simp
  | cons x l ih =>
    by_cases hx : x = ']'
    · subst hx; exact Or.inr ⟨[], l, by simp, rfl⟩
    · rcases ih with ⟨h1, h2⟩ | ⟨a, r, h1, rfl⟩
      · left
        refine ⟨by simp only [List.mem_cons, not_or]; exact ⟨fun e => hx e.symm, h1⟩, ?_⟩
        simpa [hx] using h2
      · exact Or.inr ⟨x :: a, r, by simp only [List.mem_cons, not_or]; exact ⟨fun e => hx e.symm, h1⟩, rfl⟩

/-- The end of a set is found. -/
theorem classSplit_some (q b p : Str) : classSplit q = some (b, p) ↔ SetBody b ∧ q = b ++ ']' :: p := by
  cases q with
  | nil => 
    simp only [classSplit, List.dropWhile_nil, reduceCtorEq, false_iff, not_and]
    intro _ h
    cases b <;> simp at h
  | cons x q =>
    by_cases hx : x = ']'
    · subst hx
      simp only [classSplit]
      rcases bracket_cases q with ⟨h1, h2⟩ | ⟨a, r, ha, rfl⟩
      · rw [h2]
        simp only [reduceCtorEq, false_iff, not_and]
        intro hb h
        cases b with
        | nil => exact hb.elim
        | cons y b =>
          simp only [List.cons_append, List.cons.injEq] at h
          rw [h.2] at h1
          simp at h1
      · rw [(first_bracket a r ha).1, (first_bracket a r ha).2]
        simp only [Option.some.injEq, Prod.mk.injEq, List.cons_append, List.nil_append]
        constructor
        · rintro ⟨rfl, rfl⟩; exact ⟨ha, rfl⟩
        · rintro ⟨hb, h⟩
          cases b with
          | nil => exact hb.elim
          | cons y b =>
            simp only [List.cons_append, List.cons.injEq] at h
            obtain ⟨rfl, h⟩ := h
            have e1 := first_bracket b p hb
            rw [← h, (first_bracket a r ha).1, (first_bracket a r ha).2] at e1
            simp only [List.cons.injEq, true_and] at e1
            exact ⟨by rw [e1.2], e1.1⟩
    · have hs : classSplit (x :: q) = match (x :: q).dropWhile (fun x => decide (x ≠ ']')) with
          | _ :: rest => some ([] ++ (x :: q).takeWhile (fun x => decide (x ≠ ']')), rest)
          | [] => none := by
        unfold classSplit
        split
        · rename_i h
          split at h
          · rename_i h'; simp only [List.cons.injEq] at h'; exact absurd h'.1 hx
          · simp only [Prod.mk.injEq] at h
            obtain ⟨rfl, rfl⟩ := h
            rfl
      rw [hs]
      rcases bracket_cases (x :: q) with ⟨h1, h2⟩ | ⟨a, r, ha, he⟩
      · rw [h2]
        simp only [reduceCtorEq, false_iff, not_and]
        intro hb h
        rw [h] at h1
        simp at h1
      · rw [he, (first_bracket a r ha).1, (first_bracket a r ha).2]
        simp only [List.nil_append, Option.some.injEq, Prod.mk.injEq]
        constructor
        · rintro ⟨rfl, rfl⟩
          refine ⟨?_, rfl⟩
          cases a with
          | nil => simp at he; exact hx he.1
          | cons y a => simp only [List.mem_cons, not_or] at ha; exact ha.2
        · rintro ⟨hb, h⟩
          have hb' : ']' ∉ b := by
            cases b with
            | nil => exact hb.elim
            | cons y b =>
              have : x = y := by rw [← he] at h; simpa using (List.cons.inj h).1
              subst this
              simp only [List.mem_cons, not_or]
              exact ⟨fun e => hx e.symm, hb⟩
          have e1 := first_bracket b p hb'
          rw [← h, (first_bracket a r ha).1, (first_bracket a r ha).2] at e1
          simp only [List.cons.injEq, true_and] at e1
          exact ⟨e1.2, e1.1⟩

theorem matches_star (p s : Str) : Matches ('*' :: p) s ↔ Matches p s ∨ ∃ c t, s = c :: t ∧ Matches ('*' :: p) t := by
  constructor
  · intro h
    cases h with
    | star t h =>
      cases t with
      | nil => exact Or.inl h
      | cons c t => exact Or.inr ⟨c, _, rfl, .star t h⟩
    | plain h1 => exact absurd rfl h1
  · rintro (h | ⟨c, t, rfl, h⟩)
    · exact .star [] h
    · cases h with
      | star u h => exact .star (c :: u) h
      | plain h1 => exact absurd rfl h1

theorem setBody_head {b p q : Str} (hb : SetBody b) (he : q = b ++ ']' :: p) : q.head? = b.head? := by
  cases b with
  | nil => exact hb.elim
  | cons y b => rw [he]; rfl

theorem matches_bang (r s : Str) : Matches ('[' :: '!' :: r) s ↔
    ∃ c t, s = c :: t ∧
      match classSplit r with
      | some (b, rest) => ¬ InSet b c ∧ Matches rest t
      | none => c = '[' ∧ Matches ('!' :: r) t := by
  constructor
  · intro h
    generalize he : '[' :: '!' :: r = pat at h
    cases h with
    | done => cases he
    | star t h => simp at he
    | any c h => simp at he
    | set hb hn hc h =>
      simp only [List.cons.injEq, true_and] at he
      exact absurd (setBody_head hb he).symm hn
    | @notSet b p t c hb hc h =>
      simp only [List.cons.injEq, true_and] at he
      refine ⟨c, t, rfl, ?_⟩
      rw [(classSplit_some _ b p).mpr ⟨hb, he⟩]
      exact ⟨hc, h⟩
    | @bracket p t hp hp' h =>
      simp only [List.cons.injEq, true_and] at he
      subst he
      refine ⟨_, t, rfl, ?_⟩
      cases hc : classSplit r with
      | none => exact ⟨rfl, h⟩
      | some bp =>
        obtain ⟨b, p⟩ := bp
        obtain ⟨h1, rfl⟩ := (classSplit_some _ b p).mp hc
        exact absurd rfl (hp' b p h1)
    | plain h1 h2 h3 => simp only [List.cons.injEq] at he; exact absurd he.1.symm h3
  · rintro ⟨c, t, rfl, h⟩
    cases hc : classSplit r with
    | none =>
      rw [hc] at h
      obtain ⟨rfl, h⟩ := h
      refine .bracket ?_ ?_ h
      · intro b q hb hn he
        exact hn (setBody_head hb he).symm
      · intro b q hb he
        simp only [List.cons.injEq, true_and] at he
        rw [(classSplit_some r b q).mpr ⟨hb, he⟩] at hc
        cases hc
    | some bp =>
      obtain ⟨b, p⟩ := bp
      rw [hc] at h
      obtain ⟨h1, rfl⟩ := (classSplit_some _ b p).mp hc
      exact .notSet h1 h.1 h.2

theorem matches_bracket (q s : Str) (hq : q.head? ≠ some '!') : Matches ('[' :: q) s ↔
    ∃ c t, s = c :: t ∧
      match classSplit q with
      | some (b, rest) => InSet b c ∧ Matches rest t
      | none => c = '[' ∧ Matches q t := by
  constructor
  · intro h
    generalize he : '[' :: q = pat at h
    cases h with
    | done => cases he
    | star t h => simp at he
    | any c h => simp at he
    | @set b p t c hb hn hc h =>
      simp only [List.cons.injEq, true_and] at he
      refine ⟨c, t, rfl, ?_⟩
      rw [(classSplit_some _ b p).mpr ⟨hb, he⟩]
      exact ⟨hc, h⟩
    | @notSet b p t c hb hc h =>
      simp only [List.cons.injEq, true_and] at he
      subst he
      exact absurd rfl hq
    | @bracket p t hp hp' h =>
      simp only [List.cons.injEq, true_and] at he
      subst he
      refine ⟨_, t, rfl, ?_⟩
      cases hc : classSplit q with
      | none => exact ⟨rfl, h⟩
      | some bp =>
        obtain ⟨b, p⟩ := bp
        obtain ⟨h1, rfl⟩ := (classSplit_some _ b p).mp hc
        refine absurd rfl (hp b p h1 ?_)
        rw [← setBody_head h1 rfl]; exact hq
    | plain h1 h2 h3 => simp only [List.cons.injEq] at he; exact absurd he.1.symm h3
  · rintro ⟨c, t, rfl, h⟩
    cases hc : classSplit q with
    | none =>
      rw [hc] at h
      obtain ⟨rfl, h⟩ := h
      refine .bracket ?_ ?_ h
      · intro b p hb hn he
        rw [(classSplit_some q b p).mpr ⟨hb, he⟩] at hc
        cases hc
      · intro b p hb he
        rw [he] at hq; exact hq rfl
    | some bp =>
      obtain ⟨b, p⟩ := bp
      rw [hc] at h
      obtain ⟨h1, rfl⟩ := (classSplit_some _ b p).mp hc
      refine .set h1 ?_ h.1 h.2
      rw [← setBody_head h1 rfl]; exact hq

theorem classSplit_length {q b p : Str} (h : classSplit q = some (b, p)) : p.length < q.length := by
  obtain ⟨_, rfl⟩ := (classSplit_some q b p).mp h
  simp; omega

theorem fnmatchN_bang (n : Nat) (q s : Str) : fnmatchN (n + 1) ('[' :: '!' :: q) s = (match classSplit q with
    | some (b, rest) => (match s with
      | [] => false
      | c :: s => (inClass b c != true) && fnmatchN n rest s)
    | none => (match s with
      | [] => false
      | c :: s => c = '[' && fnmatchN n ('!' :: q) s)) := rfl
theorem fnmatchN_open (n : Nat) (p s : Str) : fnmatchN (n + 1) ('[' :: p) s = 
    (let (neg, q) := match p with
      | '!' :: q => (true, q)
      | q => (false, q)
    match classSplit q with
    | some (b, rest) => (match s with
      | [] => false
      | c :: s => (inClass b c != neg) && fnmatchN n rest s)
    | none => (match s with
      | [] => false
      | c :: s => c = '[' && fnmatchN n p s)) := rfl
theorem fnmatchN_bracket (n : Nat) (p s : Str) (hb : p.head? ≠ some '!') :
    fnmatchN (n + 1) ('[' :: p) s = (match classSplit p with
    | some (b, rest) => (match s with
      | [] => false
      | c :: s => (inClass b c != false) && fnmatchN n rest s)
    | none => (match s with
      | [] => false
      | c :: s => c = '[' && fnmatchN n p s)) := by
  rw [fnmatchN_open]
  split
  rename_i neg q h
  split at h
  · exact absurd rfl hb
  · simp only [Prod.mk.injEq] at h
    obtain ⟨rfl, rfl⟩ := h
    rfl

/-- `fnmatch` computes what patterns mean. -/
theorem fnmatchN_iff : ∀ (n : Nat) (p s : Str), p.length + s.length < n → (fnmatchN n p s = true ↔ Matches p s) := by
  intro n
  induction n with
  | zero => intro p s h; omega
  | succ n ih =>
    intro p s hlen
    cases p with
    | nil =>
      cases s with
      | nil => simp [fnmatchN]; exact .done
      | cons c s =>
        simp [fnmatchN]
        intro h; cases h
    | cons x p =>
      simp only [List.length_cons] at hlen
      by_cases h1 : x = '*'
      · subst h1
        rw [matches_star]
        cases s with
        | nil =>
          have : fnmatchN (n + 1) ('*' :: p) [] = (fnmatchN n p [] || false) := rfl
          rw [this, Bool.or_false, ih p [] (by omega)]
          simp
        | cons c s =>
          simp only [List.length_cons] at hlen
          have : fnmatchN (n + 1) ('*' :: p) (c :: s) = (fnmatchN n p (c :: s) || fnmatchN n ('*' :: p) s) := rfl
          rw [this, Bool.or_eq_true, ih p _ (by simp; omega), ih _ s (by simp; omega)]
          refine or_congr Iff.rfl ⟨fun h => ⟨c, s, rfl, h⟩, ?_⟩
          rintro ⟨_, _, h, h'⟩
          rw [(List.cons.inj h).2]
          exact h'
      · by_cases h2 : x = '?'
        · subst h2
          cases s with
          | nil =>
            have : fnmatchN (n + 1) ('?' :: p) [] = false := rfl
            rw [this]
            simp only [Bool.false_eq_true, false_iff]
            intro h; cases h
          | cons c s =>
            simp only [List.length_cons] at hlen
            have : fnmatchN (n + 1) ('?' :: p) (c :: s) = fnmatchN n p s := rfl
            rw [this, ih p s (by omega)]
            constructor
            · exact .any c
            · intro h
              cases h with
              | any _ h => exact h
              | plain _ h2 => exact absurd rfl h2
        · by_cases h3 : x = '['
          · subst h3
            by_cases hb : p.head? = some '!'
            · obtain ⟨q, rfl⟩ : ∃ q, p = '!' :: q := by
                cases p with
                | nil => simp at hb
                | cons y q => simp only [List.head?_cons, Option.some.injEq] at hb; exact ⟨q, by rw [hb]⟩
              rw [fnmatchN_bang, matches_bang]
              cases s with
              | nil => cases classSplit q <;> simp
              | cons c s =>
                simp only [List.length_cons] at hlen
                cases hc : classSplit q with
                | none =>
                  simp only [Bool.and_eq_true, decide_eq_true_eq, ih ('!' :: q) s (by simp; omega)]
                  constructor
                  · rintro ⟨rfl, h⟩; exact ⟨_, _, rfl, rfl, h⟩
                  · rintro ⟨_, _, h, rfl, h'⟩
                    simp only [List.cons.injEq] at h
                    obtain ⟨rfl, rfl⟩ := h
                    exact ⟨rfl, h'⟩
                | some bp =>
                  obtain ⟨b, rest⟩ := bp
                  have := classSplit_length hc
                  simp only [Bool.and_eq_true, ih rest s (by omega), bne_iff_ne, ne_eq, inClass_iff]
                  constructor
                  · rintro ⟨h, h'⟩; exact ⟨_, _, rfl, h, h'⟩
                  · rintro ⟨_, _, h, h', h''⟩
                    simp only [List.cons.injEq] at h
                    obtain ⟨rfl, rfl⟩ := h
                    exact ⟨h', h''⟩
            · rw [fnmatchN_bracket n p s hb, matches_bracket p s hb]
              cases s with
              | nil => cases classSplit p <;> simp
              | cons c s =>
                simp only [List.length_cons] at hlen
                cases hc : classSplit p with
                | none =>
                  simp only [Bool.and_eq_true, decide_eq_true_eq, ih p s (by omega)]
                  constructor
                  · rintro ⟨rfl, h⟩; exact ⟨_, _, rfl, rfl, h⟩
                  · rintro ⟨_, _, h, rfl, h'⟩
                    simp only [List.cons.injEq] at h
                    obtain ⟨rfl, rfl⟩ := h
                    exact ⟨rfl, h'⟩
                | some bp =>
                  obtain ⟨b, rest⟩ := bp
                  have := classSplit_length hc
                  have hbf : (inClass b c != false) = inClass b c := by cases inClass b c <;> rfl
                  simp only [Bool.and_eq_true, ih rest s (by omega), hbf, inClass_iff]
                  constructor
                  · rintro ⟨h, h'⟩; exact ⟨_, _, rfl, h, h'⟩
                  · rintro ⟨_, _, h, h', h''⟩
                    simp only [List.cons.injEq] at h
                    obtain ⟨rfl, rfl⟩ := h
                    exact ⟨h', h''⟩
          · cases s with
            | nil =>
              have : fnmatchN (n + 1) (x :: p) [] = false := by
                rw [fnmatchN.eq_def]; split <;> simp_all
              rw [this]
              simp only [Bool.false_eq_true, false_iff]
              intro h
              generalize he : x :: p = pat at h
              generalize hs : ([] : Str) = s at h
              cases h <;> simp_all
            | cons c s =>
              simp only [List.length_cons] at hlen
              have : fnmatchN (n + 1) (x :: p) (c :: s) = (decide (c = x) && fnmatchN n p s) := by
                rw [fnmatchN.eq_def]; split <;> simp_all
              rw [this, Bool.and_eq_true, decide_eq_true_eq, ih p s (by omega)]
              constructor
              · rintro ⟨rfl, h⟩; exact .plain h1 h2 h3 h
              · intro h
                generalize he : x :: p = pat at h
                generalize hs : c :: s = str at h
                cases h with
                | done => cases he
                | plain _ _ _ h =>
                  simp only [List.cons.injEq] at he hs
                  obtain ⟨rfl, rfl⟩ := he
                  obtain ⟨rfl, rfl⟩ := hs
                  exact ⟨rfl, h⟩
                | star _ _ => exact absurd (List.cons.inj he).1 h1
                | any _ _ => exact absurd (List.cons.inj he).1 h2
                | set _ _ _ _ => exact absurd (List.cons.inj he).1 h3
                | notSet _ _ _ => exact absurd (List.cons.inj he).1 h3
                | bracket _ _ _ => exact absurd (List.cons.inj he).1 h3

/-- **C114, C148.** A name matches a pattern exactly when it can be read off it. -/
theorem fnmatch_iff (p s : Str) : fnmatch p s = true ↔ Matches p s := fnmatchN_iff _ p s (by omega)

/-- The names of a directory are those under which something is in it. -/
theorem namesAt_iff (fs : FS) (p : Loc) (n : Str) : n ∈ namesAt fs p ↔ ∃ x, (p ++ [n], x) ∈ fs := by
  unfold namesAt
  rw [List.mem_filterMap]
  constructor
  · rintro ⟨k, hk, h⟩
    split at h
    · rename_i hp
      obtain ⟨⟨k', x⟩, hx, rfl⟩ := List.mem_map.mp hk
      simp only at h hp
      refine ⟨x, ?_⟩
      rw [← hp.2]
      have : k'.dropLast ++ [n] = k' := by
        have h' := List.dropLast_concat_getLast hp.1
        rw [List.getLast?_eq_some_getLast hp.1, Option.some.injEq] at h
        rw [← h]; exact h'
      rwa [this]
    · cases h
  · rintro ⟨x, hx⟩
    refine ⟨p ++ [n], List.mem_map.mpr ⟨_, hx, rfl⟩, ?_⟩
    rw [if_pos (by simp)]
    simp

/-- A pattern without directories selects the names matching it that are not hidden. -/
theorem glob1_iff (fs : FS) (cwd d pat n : Str) : n ∈ glob1 fs cwd d pat ↔
    (∃ p, resolve fs (absComps cwd d) = some p ∧ look fs p = some .dir ∧ ∃ x, (p ++ [n], x) ∈ fs) ∧
    (n.head? = some '.' → pat.head? = some '.') ∧ Matches pat n := by
  unfold glob1 listdirC
  rw [List.mem_filter]
  simp only [Bool.and_eq_true, Bool.or_eq_true, decide_eq_true_eq, fnmatch_iff]
  have hh : (pat.head? = some '.' ∨ n.head? ≠ some '.') ↔ (n.head? = some '.' → pat.head? = some '.') := by
    by_cases h : n.head? = some '.' <;> simp [h]
  rw [hh]
  refine and_congr ?_ Iff.rfl
  cases hr : resolve fs (absComps cwd d) with
  | none => simp
  | some p =>
    by_cases hd : look fs p = some .dir
    · simp [hd, namesAt_iff]
    · simp [hd]

/-- A name without wildcards below a pattern is selected when there is anything under it, be it a link that leads nowhere. -/
theorem glob0_iff (fs : FS) (cwd d base r : Str) (hb : base ≠ []) : r ∈ glob0 fs cwd d base ↔
    r = base ∧ ∃ p x, lresolve fs (absComps cwd (osJoin d base)) = some p ∧ look fs p = some x := by
  unfold glob0
  rw [if_neg hb]
  have : lexistsC fs (absComps cwd (osJoin d base)) = true ↔
      ∃ p x, lresolve fs (absComps cwd (osJoin d base)) = some p ∧ look fs p = some x := by
    unfold lexistsC lstat
    cases lresolve fs (absComps cwd (osJoin d base)) with
    | none => simp
    | some p =>
      cases hl : look fs p <;> simp [hl]
  by_cases h : lexistsC fs (absComps cwd (osJoin d base)) = true
  · rw [if_pos h, List.mem_singleton]; exact ⟨fun e => ⟨e, this.mp h⟩, fun e => e.1⟩
  · rw [if_neg h]
    simp only [List.not_mem_nil, false_iff, not_and]
    intro _ h'
    exact h (this.mpr h')

/-- A pattern in a directory named without wildcards selects the paths of the matching names that are not hidden. -/
theorem glob_dir_iff (fs : FS) (cwd s r : Str) (hd : hasMagic (FS.dirname s) = false) (hne : FS.dirname s ≠ [])
    (hb : hasMagic (basename s) = true) :
    r ∈ glob fs cwd s ↔ ∃ n, r = osJoin (FS.dirname s) n ∧
      (∃ p, resolve fs (absComps cwd (FS.dirname s)) = some p ∧ look fs p = some .dir ∧ ∃ x, (p ++ [n], x) ∈ fs) ∧
      (n.head? = some '.' → (basename s).head? = some '.') ∧ Matches (basename s) n := by
  have hs : hasMagic s = true := by
    unfold hasMagic basename at *
    rw [List.any_eq_true] at hb ⊢
    obtain ⟨c, hc, hm⟩ := hb
    refine ⟨c, ?_, hm⟩
    rw [List.mem_reverse] at hc
    exact List.mem_reverse.mp (List.takeWhile_subset _ hc)
  unfold glob globN
  simp only [hs, hd, hb, hne, Bool.true_eq_false, Bool.false_eq_true, and_false, if_false, if_true, List.flatMap_cons,
    List.flatMap_nil, List.append_nil, List.mem_map, glob1_iff]
  constructor
  · rintro ⟨n, h, rfl⟩; exact ⟨n, rfl, h⟩
  · rintro ⟨n, rfl, h⟩; exact ⟨n, h, rfl⟩

/-- `a[0-9]*.c` matches `a1b.c` and not `ab.c`. -/
example : Matches ['a', '[', '0', '-', '9', ']', '*', '.', 'c'] ['a', '1', 'b', '.', 'c'] ∧
    ¬ Matches ['a', '[', '0', '-', '9', ']', '*', '.', 'c'] ['a', 'b', '.', 'c'] := by
  rw [← fnmatch_iff, ← fnmatch_iff]
  decide +kernel

/-- `[!a]` and an open bracket. -/
example : Matches ['[', '!', 'a', ']'] ['b'] ∧ ¬ Matches ['[', '!', 'a', ']'] ['a'] ∧ Matches ['[', 'a'] ['[', 'a'] := by
  rw [← fnmatch_iff, ← fnmatch_iff, ← fnmatch_iff]
  decide +kernel

end Pisi.Act
