import Verif.Spec.Index
import Verif.Props.Path
import Verif.Lemmas.ListAux

/-!
# Lemmas on indices: the URIs of items
-/
set_option linter.unusedSectionVars false

namespace Pisi.Indexing
open Pisi.DB Pisi.IndexSpec Pisi.Path
variable {α : Type} [DecidableEq α]

theorem splitOn_ne_nil (c : Char) (s : Str) : splitOn c s ≠ [] := by
  cases s with
  | nil => simp [splitOn]
  | cons x xs =>
    unfold splitOn
    split
    · simp
    · split <;> simp

theorem splitOn_last {c : Char} : ∀ {s : Str}, (splitOn c s).getLast? = some [] → s = [] ∨ s.getLast? = some c
  | [], _ => Or.inl rfl
  | x :: xs, h => by
    right
    unfold splitOn at h
    split at h
    · rename_i hx
      cases hs : splitOn c xs with
      | nil => exact absurd hs (splitOn_ne_nil c xs)
      | cons a t =>
        rw [hs, List.getLast?_cons_cons, ← hs] at h
        rcases splitOn_last h with rfl | h
        · rw [hx]; rfl
        · cases xs with
          | nil => cases h
          | cons y ys => rw [List.getLast?_cons_cons]; exact h
    · split at h
      · cases h
      · rename_i a t hs
        cases t with
        | nil => cases h
        | cons b t =>
          rw [List.getLast?_cons_cons] at h
          have h' : (splitOn c xs).getLast? = some [] := by rw [hs, List.getLast?_cons_cons]; exact h
          rcases splitOn_last h' with rfl | h'
          · simp [splitOn] at hs
          · cases xs with
            | nil => cases h'
            | cons y ys => rw [List.getLast?_cons_cons]; exact h'

theorem splitOn_name {c : Char} : ∀ {s : Str}, c ∉ s → splitOn c s = [s]
  | [], _ => rfl
  | x :: xs, h => by
    simp only [List.mem_cons, not_or] at h
    unfold splitOn
    rw [if_neg (fun e => h.1 e.symm), splitOn_name h.2]

theorem splitpath_join (r x : Str) (hx : Name x) : splitpath (Pack.osJoin r x) = splitpath r ++ [x] := by
  have hx0 : x.head? ≠ some '/' := by
    intro h
    cases x with
    | nil => cases h
    | cons a x =>
      injection h with h
      exact hx.2 (by rw [h]; exact List.mem_cons_self ..)
  unfold Pack.osJoin
  rw [if_neg hx0]
  by_cases hr : r = []
  · subst hr
    rw [if_pos (Or.inl rfl)]
    simp [splitpath, splitOn_name hx.2, splitOn, hx.1]
  · by_cases hl : r.getLast? = some '/'
    · rw [if_pos (Or.inr hl)]
      obtain ⟨q, rfl⟩ := List.getLast?_eq_some_iff.mp hl
      have h1 : q ++ ['/'] ++ x = q ++ '/' :: x := by simp
      rw [h1]
      unfold splitpath
      rw [splitOn_append, splitOn_append, splitOn_name hx.2]
      simp [splitOn, hx.1]
    · rw [if_neg (by rintro (h | h); exact hr h; exact hl h)]
      unfold splitpath
      rw [splitOn_append, splitOn_name hx.2]
      have : (splitOn '/' r).getLast? ≠ some [] := fun h => (splitOn_last h).elim hr hl
      simp [this, hx.1]

theorem splitpath_root (r : Str) : ∀ (d : List Str), (∀ x ∈ d, Name x) → splitpath (rootOf r d) = splitpath r ++ d := by
  intro d
  induction d using Pisi.snoc_induction with
  | h0 => intro _; simp [rootOf]
  | hs d x ih =>
    intro h
    unfold rootOf at ih ⊢
    rw [List.foldl_append, List.foldl_cons, List.foldl_nil, splitpath_join _ _ (h x (by simp)),
      ih (fun y hy => h y (by simp [hy]))]
    simp

theorem foldl_joinStep : ∀ (cs : List Str) (p : Str), p ≠ [] → p.getLast? ≠ some '/' → (∀ x ∈ cs, Name x) →
    cs.foldl joinStep p = joinWith ['/'] (p :: cs)
  | [], p, _, _, _ => rfl
  | b :: cs, p, h1, h2, h3 => by
    have hb := h3 b (List.mem_cons_self ..)
    have hstep : joinStep p b = p ++ '/' :: b := by
      unfold joinStep
      rw [if_neg (by rintro (h | h); exact h1 h; exact h2 h)]
      cases b with
      | nil => exact absurd rfl hb.1
      | cons a b =>
        have : a ≠ '/' := fun e => hb.2 (by rw [e]; exact List.mem_cons_self ..)
        simp [lstripSlash, this]
    rw [List.foldl_cons, hstep, foldl_joinStep cs _ (by simp) ?_ (fun x hx => h3 x (List.mem_cons_of_mem _ hx))]
    · cases cs with
      | nil => simp [joinWith]
      | cons c cs => simp [joinWith]
    · obtain ⟨hb1, hb2⟩ := hb
      rw [List.getLast?_append]
      cases hl : ('/' :: b).getLast? with
      | none => simp at hl
      | some z =>
        cases b with
        | nil => exact absurd rfl hb1
        | cons a b =>
          rw [List.getLast?_cons_cons] at hl
          intro e
          have : z = '/' := by simpa using e
          exact hb2 (this ▸ List.mem_of_getLast? hl)

/-- The URI of an item is its path below the directory. -/
theorem removepathprefix_root (r : Str) (d : List Str) (fn : Str) (hd : ∀ x ∈ d, Name x) (hf : Name fn) :
    removepathprefix r (Pack.osJoin (rootOf r d) fn) = .ok (relPath (d ++ [fn])) := by
  unfold removepathprefix
  rw [splitpath_join _ _ hf, splitpath_root _ _ hd, List.append_assoc, remove_prefix_append]
  have hall : ∀ x ∈ d ++ [fn], Name x := by
    intro x hx
    rcases List.mem_append.mp hx with h | h
    · exact hd x h
    · simp only [List.mem_singleton] at h; rw [h]; exact hf
  cases hdf : d ++ [fn] with
  | nil => simp at hdf
  | cons c cs =>
    rw [hdf] at hall
    have hc := hall c (List.mem_cons_self ..)
    show Except.ok (joinPath c cs) = _
    unfold joinPath relPath
    rw [foldl_joinStep cs c hc.1 (fun e => hc.2 (List.mem_of_getLast? e)) (fun x hx => hall x (List.mem_cons_of_mem _ hx))]

theorem uriOf_rel {o : Opts} (ho : o.realpath = none) (r : Str) (d : List Str) (fn : Str) (hd : ∀ x ∈ d, Name x)
    (hf : Name fn) : uriOf o r (Pack.osJoin (rootOf r d) fn) = .ok (relPath (d ++ [fn])) := by
  unfold uriOf
  rw [ho, removepathprefix_root r d fn hd hf]

/-! ### Local paths -/

/-- No colon before the first slash. -/
def LocalPath (r : Str) : Prop := ':' ∉ r.takeWhile (· ≠ '/')

theorem takeWhile_append_slash (a b : Str) : (a ++ '/' :: b).takeWhile (· ≠ '/') = a.takeWhile (· ≠ '/') := by
  induction a with
  | nil => simp
  | cons x a ih =>
    by_cases hx : x = '/'
    · simp [hx]
    · simp only [List.cons_append]
      rw [List.takeWhile_cons_of_pos (by simpa using hx), List.takeWhile_cons_of_pos (by simpa using hx), ih]

theorem schemeChar_slash : Uri.schemeChar '/' = false := by decide

/-- A path with no colon before the first slash is a local file. -/
theorem splitScheme_local : ∀ {u : Str}, LocalPath u → Uri.splitScheme u = (Uri.file, u) := by
  intro u h
  unfold Uri.splitScheme
  dsimp only
  cases hd : u.dropWhile (· ≠ ':') with
  | nil => rfl
  | cons x r =>
    dsimp only
    rw [if_neg]
    rintro ⟨_, h2, _⟩
    rw [List.all_eq_true] at h2
    have hx : x = ':' := by
      have := List.head?_dropWhile_not (· ≠ ':') u
      rw [hd] at this
      simpa using this
    have hu : u = u.takeWhile (· ≠ ':') ++ ':' :: r := by
      conv => lhs; rw [← List.takeWhile_append_dropWhile (p := (· ≠ ':')) (l := u), hd, hx]
    have hs : '/' ∉ u.takeWhile (· ≠ ':') := fun hm => by
      have := h2 '/' hm
      rw [schemeChar_slash] at this
      cases this
    apply h
    generalize u.takeWhile (· ≠ ':') = p at hu hs
    rw [hu]
    clear hd h2 h hu
    induction p with
    | nil => simp
    | cons a p ih =>
      simp only [List.mem_cons, not_or] at hs
      simp only [List.cons_append]
      rw [List.takeWhile_cons_of_pos (by simpa using fun e => hs.1 e.symm)]
      exact List.mem_cons_of_mem _ (ih hs.2)

theorem isRemote_local {u : Str} (h : LocalPath u) : Uri.isRemote u = false := by
  unfold Uri.isRemote Uri.scheme
  rw [splitScheme_local h]
  simp

theorem localPath_join {r x : Str} (h : LocalPath r) (hr : r ≠ []) (hx : x.head? ≠ some '/') :
    LocalPath (Pack.osJoin r x) := by
  unfold Pack.osJoin
  rw [if_neg hx]
  by_cases hl : r.getLast? = some '/'
  · rw [if_pos (Or.inr hl)]
    obtain ⟨q, rfl⟩ := List.getLast?_eq_some_iff.mp hl
    have h1 : q ++ ['/'] ++ x = q ++ '/' :: x := by simp
    unfold LocalPath at h ⊢
    rw [h1, takeWhile_append_slash]
    rw [takeWhile_append_slash] at h
    exact h
  · rw [if_neg (by rintro (h | h); exact hr h; exact hl h)]
    unfold LocalPath at h ⊢
    rw [takeWhile_append_slash]
    exact h

theorem name_head {x : Str} (h : Name x) : x.head? ≠ some '/' := by
  intro e
  cases x with
  | nil => cases e
  | cons a x =>
    injection e with e
    exact h.2 (by rw [e]; exact List.mem_cons_self ..)

theorem osJoin_ne_nil {r x : Str} (h : r ≠ []) : Pack.osJoin r x ≠ [] := by
  unfold Pack.osJoin
  split
  · rename_i hx
    intro e
    rw [e] at hx
    cases hx
  · split <;> simp [h]

theorem localPath_root {r : Str} (h : LocalPath r) (hr : r ≠ []) : ∀ d : List Str, (∀ x ∈ d, Name x) →
    LocalPath (rootOf r d) ∧ rootOf r d ≠ [] := by
  intro d
  induction d using Pisi.snoc_induction with
  | h0 => intro _; exact ⟨h, hr⟩
  | hs d x ih =>
    intro hd
    obtain ⟨h1, h2⟩ := ih (fun y hy => hd y (by simp [hy]))
    unfold rootOf at *
    rw [List.foldl_append, List.foldl_cons, List.foldl_nil]
    exact ⟨localPath_join h1 h2 (name_head (hd x (by simp))), osJoin_ne_nil h2⟩

end Pisi.Indexing
