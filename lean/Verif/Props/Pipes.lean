/-
Pipes in actions scripts (C152).
-/
import Verif.Spec.Pipes
import Mathlib.Data.List.Nodup

namespace Pisi.Pipes
open Pisi.PipesSpec

/-! ## cat -/

theorem lines_flatten (s : Str) : (lines s).flatten = s := by
  induction s with
  | nil => rfl
  | cons c s ih =>
    rw [lines]
    by_cases h : c = '\n'
    · rw [if_pos h]; simp [ih, h]
    · rw [if_neg h]
      cases hl : lines s with
      | nil => rw [hl] at ih; simp at ih; simp [← ih]
      | cons l ls => rw [hl] at ih; simpa using ih

/-- `cat(f) | join` is the content of the file. -/
theorem cat_join (s : Str) : join (cat s) = s := lines_flatten s

theorem lines_line (s : Str) : ∀ l ∈ lines s, IsLine l := by
  induction s with
  | nil => intro l h; cases h
  | cons c s ih =>
    rw [lines]
    by_cases h : c = '\n'
    · rw [if_pos h]
      intro l hl
      rcases List.mem_cons.1 hl with rfl | hl
      · exact ⟨[], by simp, Or.inl rfl⟩
      · exact ih l hl
    · rw [if_neg h]
      cases hs : lines s with
      | nil =>
        intro l hl
        rw [List.mem_singleton.1 hl]
        exact ⟨[c], by simpa using fun e => h e.symm, Or.inr ⟨rfl, by simp⟩⟩
      | cons l0 ls =>
        intro l hl
        rw [hs] at ih
        rcases List.mem_cons.1 hl with rfl | hl
        · obtain ⟨b, hb, hh⟩ := ih l0 (List.mem_cons_self ..)
          refine ⟨c :: b, ?_, ?_⟩
          · intro hm
            rcases List.mem_cons.1 hm with e | hm
            · exact h e.symm
            · exact hb hm
          · rcases hh with rfl | ⟨rfl, hne⟩
            · exact Or.inl rfl
            · exact Or.inr ⟨rfl, by simp⟩
        · exact ih l (List.mem_cons_of_mem _ hl)

/-- All lines but the last end with a newline. -/
theorem lines_inner (s : Str) (a : List Str) (l : Str) (b : List Str) (h : lines s = a ++ l :: b) (hb : b ≠ []) :
    l.getLast? = some '\n' := by
  induction s generalizing a l b with
  | nil => cases a <;> cases h
  | cons c s ih =>
    rw [lines] at h
    by_cases hc : c = '\n'
    · rw [if_pos hc] at h
      cases a with
      | nil => simp at h; rw [← h.1]; rfl
      | cons x a => simp at h; exact ih a l b h.2 hb
    · rw [if_neg hc] at h
      cases hs : lines s with
      | nil =>
        rw [hs] at h
        cases a with
        | nil => simp at h; exact absurd h.2 hb
        | cons x a => simp at h
      | cons l0 ls =>
        rw [hs] at h
        cases a with
        | nil =>
          simp at h
          have := ih [] l0 ls (by rw [hs]; rfl) (by rw [h.2]; exact hb)
          rw [← h.1, List.getLast?_cons, this]; rfl
        | cons x a =>
          simp at h
          exact ih (l0 :: a) l b (by rw [hs]; simp [h.2]) hb

/-- Printing the lines of a file writes every newline twice. -/
theorem print_lines (s : Str) :
    printto (cat s) = s.flatMap (fun c => if c = '\n' then ['\n', '\n'] else [c]) ++
      (if s = [] ∨ s.getLast? = some '\n' then [] else ['\n']) := by
  unfold cat printto
  induction s with
  | nil => rfl
  | cons c s ih =>
    rw [lines]
    by_cases h : c = '\n'
    · rw [if_pos h]
      simp only [List.flatMap_cons, ih, h, if_true, List.append_assoc]
      cases s <;> simp [List.getLast?_cons]
    · rw [if_neg h]
      cases hs : lines s with
      | nil =>
        have : s = [] := by have := lines_flatten s; rw [hs] at this; exact this.symm
        subst this
        simp [h]
      | cons l0 ls =>
        have hne : s ≠ [] := by rintro rfl; cases hs
        rw [hs] at ih
        simp only [List.flatMap_cons, h, if_false] at ih ⊢
        simp only [List.cons_append, List.nil_append, List.append_assoc] at ih ⊢
        rw [ih]
        have hl : (c :: s).getLast? = s.getLast? := by
          cases s with
          | nil => exact absurd rfl hne
          | cons x s => simp [List.getLast?_cons]
        simp [hl, hne]

/-- Writing lines without their newlines, as after `tr(lambda l: l[:-1])`,
gives the file again, if it ends with a newline. -/
theorem print_chomped (s : Str) (h : s = [] ∨ s.getLast? = some '\n') :
    printto (tr List.dropLast (cat s)) = s := by
  have key : ∀ ls : List Str, (∀ l ∈ ls, l.getLast? = some '\n') → printto (tr List.dropLast ls) = ls.flatten := by
    intro ls
    induction ls with
    | nil => intro _; rfl
    | cons l ls ih =>
      intro hl
      have h1 := hl l (List.mem_cons_self ..)
      have h2 : l.dropLast ++ ['\n'] = l := by
        rcases List.eq_nil_or_concat l with rfl | ⟨y, z, rfl⟩
        · cases h1
        · have : z = '\n' := by simpa using h1
          simp [this]
      have := ih (fun x hx => hl x (List.mem_cons_of_mem _ hx))
      unfold printto tr at this ⊢
      simp only [List.map_cons, List.flatMap_cons, h2, this, List.flatten_cons]
  unfold cat
  rw [key, lines_flatten]
  intro l hl
  obtain ⟨a, b, hab⟩ := List.append_of_mem hl
  by_cases hb : b = []
  · subst hb
    have e := lines_flatten s
    rw [hab] at e
    have hne : l ≠ [] := by
      obtain ⟨b, _, hh⟩ := lines_line s l hl
      rcases hh with rfl | ⟨rfl, h⟩
      · simp
      · exact h
    rcases h with rfl | h
    · cases hl
    · rw [← e] at h
      rcases List.eq_nil_or_concat l with rfl | ⟨y, z, rfl⟩
      · exact absurd rfl hne
      · simpa using h
  · exact lines_inner s a l b hab hb

/-! ## grep -/

theorem reMatch_iff (L : Str → Bool) (l : Str) : reMatch L l = true ↔ ∃ b c, l = b ++ c ∧ L b = true := by
  unfold reMatch
  rw [List.any_eq_true]
  constructor
  · rintro ⟨n, _, h⟩
    exact ⟨l.take n, l.drop n, (List.take_append_drop n l).symm, h⟩
  · rintro ⟨b, c, rfl, h⟩
    refine ⟨b.length, ?_, ?_⟩
    · rw [List.mem_range, List.length_append]; omega
    · simpa using h

/-- Exactly the lines that begin with a match are kept, in their order. -/
theorem grep_exact (L : Str → Bool) (input : List Str) (l : Str) :
    l ∈ grep L input ↔ l ∈ input ∧ ∃ b c, l = b ++ c ∧ L b = true := by
  unfold grep
  rw [List.mem_filter, reMatch_iff]

theorem grep_order (L : Str → Bool) (input : List Str) : (grep L input).Sublist input := List.filter_sublist

/-- Partial (C152): whatever is kept contains a match, and if the expression
begins with `.*` all lines with a match are kept.  Missing: other expressions
(`pipes_refuted`). -/
theorem grep_partial (L : Str → Bool) (content l : Str)
    (hL : ∀ a b, '\n' ∉ a → L b = true → L (a ++ b) = true) :
    l ∈ grep L (cat content) ↔ l ∈ cat content ∧ Contains L l := by
  rw [grep_exact]
  refine and_congr_right fun hm => ⟨?_, ?_⟩
  · rintro ⟨b, c, rfl, h⟩
    exact ⟨[], b, c, rfl, h⟩
  · rintro ⟨a, b, c, rfl, h⟩
    by_cases ha : '\n' ∈ a
    · obtain ⟨p, hp, hh⟩ := lines_line content _ hm
      have hbc : b = [] := by
        rcases hh with hh | ⟨hh, _⟩
        · obtain ⟨x, y, rfl⟩ := List.append_of_mem ha
          have h2 : x ++ '\n' :: (y ++ b ++ c) = p ++ ['\n'] := by simpa using hh
          have h3 := congrArg List.reverse h2
          rcases List.eq_nil_or_concat (y ++ b ++ c) with h0 | ⟨z, w, h0⟩
          · simp at h0; exact h0.2.1
          · exfalso
            rw [h0] at h2
            have : (x ++ '\n' :: z) ++ [w] = p ++ ['\n'] := by simpa using h2
            have := (List.append_inj' this rfl).1
            exact hp (this ▸ by simp)
        · exfalso
          exact hp (hh ▸ List.mem_append_left _ (List.mem_append_left _ ha))
      exact ⟨[], a ++ b ++ c, rfl, hbc ▸ h⟩
    · exact ⟨a ++ b, c, rfl, hL a b ha h⟩

/-- Whatever is kept contains a match. -/
theorem grep_sound (L : Str → Bool) (input : List Str) (l : Str) (h : l ∈ grep L input) :
    l ∈ input ∧ Contains L l := by
  obtain ⟨h1, b, c, h2, h3⟩ := (grep_exact L input l).1 h
  exact ⟨h1, [], b, c, h2, h3⟩

/-- The expression `.*b`. -/
def dotStarB (s : Str) : Bool := s.getLast? = some 'b' && !s.contains '\n'

example : ∀ a b, '\n' ∉ a → dotStarB b = true → dotStarB (a ++ b) = true := by
  intro a b ha hb
  simp only [dotStarB, Bool.and_eq_true, decide_eq_true_eq, Bool.not_eq_true', List.contains_eq_mem,
    decide_eq_false_iff_not, List.mem_append, not_or] at hb ⊢
  refine ⟨?_, ha, hb.2⟩
  rcases List.eq_nil_or_concat b with rfl | ⟨y, z, rfl⟩
  · cases hb.1
  · simpa using hb.1

example : grep dotStarB (cat "ab\nc\nbc\n".toList) = ["ab\n".toList, "bc\n".toList] := by decide +kernel

/-! ## sort and uniq -/

theorem uniqFrom_skip {α : Type} [DecidableEq α] (a : α) (n : Nat) (l : List α) :
    uniqFrom (some a) (List.replicate n a ++ l) = uniqFrom (some a) l := by
  induction n with
  | zero => rfl
  | succ n ih => rw [List.replicate_succ, List.cons_append, uniqFrom, if_pos rfl, ih]

theorem uniqFrom_fresh {α : Type} [DecidableEq α] (a : α) (l : List α) (h : l.head? ≠ some a) :
    uniqFrom (some a) l = uniqFrom none l := by
  cases l with
  | nil => rfl
  | cons b l =>
    have hb : b ≠ a := by simpa using h
    rw [uniqFrom, uniqFrom, if_neg (by simpa using hb), if_neg (by simp)]

/-- `uniq` replaces every run of equal elements by one of them. -/
theorem uniq_iff {α : Type} [DecidableEq α] (l l' : List α) : Collapsed l l' ↔ uniq l = l' := by
  constructor
  · intro h
    induction h with
    | nil => rfl
    | run a n l l' h _ ih =>
      unfold uniq at ih ⊢
      rw [List.replicate_succ, List.cons_append, uniqFrom, if_neg (by simp), uniqFrom_skip, uniqFrom_fresh a l h, ih]
  · rintro rfl
    have key : ∀ k, ∀ l : List α, l.length ≤ k → Collapsed l (uniq l) := by
      intro k
      induction k with
      | zero =>
        intro l hl
        have : l = [] := List.length_eq_zero_iff.1 (by omega)
        subst this
        exact .nil
      | succ k ih =>
        intro l hl
        cases l with
        | nil => exact .nil
        | cons a l =>
          obtain ⟨n, r, rfl, hr⟩ : ∃ n r, l = List.replicate n a ++ r ∧ r.head? ≠ some a := by
            clear hl ih
            induction l with
            | nil => exact ⟨0, [], rfl, by simp⟩
            | cons b l ih =>
              by_cases hb : b = a
              · obtain ⟨n, r, rfl, hr⟩ := ih
                exact ⟨n + 1, r, by rw [hb, List.replicate_succ]; rfl, hr⟩
              · exact ⟨0, b :: l, rfl, by simpa using hb⟩
          have h1 : uniq (a :: (List.replicate n a ++ r)) = a :: uniq r := by
            unfold uniq
            rw [uniqFrom, if_neg (by simp), uniqFrom_skip, uniqFrom_fresh a r hr]
          rw [h1]
          refine Collapsed.run a n r (uniq r) hr (ih r ?_)
          simp at hl
          omega
    exact key l.length l (Nat.le_refl _)

theorem uniqFrom_mem {α : Type} [DecidableEq α] (p : Option α) (l : List α) (x : α) :
    (x ∈ uniqFrom p l → x ∈ l) ∧ (x ∈ l → x ∈ uniqFrom p l ∨ some x = p) := by
  induction l generalizing p with
  | nil => simp [uniqFrom]
  | cons a l ih =>
    rw [uniqFrom]
    by_cases h : some a = p
    · rw [if_pos h]
      refine ⟨fun hx => List.mem_cons_of_mem _ ((ih p).1 hx), fun hx => ?_⟩
      rcases List.mem_cons.1 hx with rfl | hx
      · exact Or.inr h
      · exact (ih p).2 hx
    · rw [if_neg h]
      refine ⟨fun hx => ?_, fun hx => ?_⟩
      · rcases List.mem_cons.1 hx with rfl | hx
        · exact List.mem_cons_self ..
        · exact List.mem_cons_of_mem _ ((ih _).1 hx)
      · rcases List.mem_cons.1 hx with rfl | hx
        · exact Or.inl (List.mem_cons_self ..)
        · rcases (ih (some a)).2 hx with h1 | h1
          · exact Or.inl (List.mem_cons_of_mem _ h1)
          · rw [Option.some.inj h1]; exact Or.inl (List.mem_cons_self ..)

/-- No element is lost and none is added by `uniq`. -/
theorem uniq_mem {α : Type} [DecidableEq α] (l : List α) (x : α) : x ∈ uniq l ↔ x ∈ l := by
  refine ⟨(uniqFrom_mem none l x).1, fun h => ?_⟩
  rcases (uniqFrom_mem none l x).2 h with h | h
  · exact h
  · cases h

theorem uniqFrom_pairwise {α : Type} [DecidableEq α] (le : α → α → Prop)
    (anti : ∀ a b, le a b → le b a → a = b) (trans : ∀ a b c, le a b → le b c → le a c) (p : Option α) (l : List α)
    (h : l.Pairwise le) (hp : ∀ a, p = some a → ∀ x ∈ l, le a x) :
    (uniqFrom p l).Pairwise (fun a b => le a b ∧ a ≠ b) ∧ ∀ a, p = some a → ∀ x ∈ uniqFrom p l, a ≠ x := by
  induction l generalizing p with
  | nil => simp [uniqFrom]
  | cons a l ih =>
    have hl := List.pairwise_cons.1 h
    rw [uniqFrom]
    by_cases e : some a = p
    · rw [if_pos e]
      exact ih p hl.2 (fun b hb x hx => hp b hb x (List.mem_cons_of_mem _ hx))
    · rw [if_neg e]
      have h1 := ih (some a) hl.2 (fun b hb x hx => by rw [← Option.some.inj hb]; exact hl.1 x hx)
      refine ⟨List.pairwise_cons.2 ⟨fun x hx => ⟨hl.1 x ((uniqFrom_mem _ _ _).1 hx), h1.2 a rfl x hx⟩, h1.1⟩, ?_⟩
      intro b hb x hx
      have hba : b ≠ a := by rintro rfl; exact e hb.symm
      rcases List.mem_cons.1 hx with rfl | hx
      · exact hba
      · intro e2
        subst e2
        have h2 : le b a := hp b hb a (List.mem_cons_self ..)
        have h3 : le a b := hl.1 b ((uniqFrom_mem _ _ _).1 hx)
        exact hba (anti _ _ h2 h3)

/-- `sort | uniq`: every element once, in ascending order. -/
theorem sort_uniq {α : Type} [DecidableEq α] (le : α → α → Bool) (input : List α)
    (trans : ∀ a b c, le a b = true → le b c = true → le a c = true)
    (total : ∀ a b, (le a b || le b a) = true) (anti : ∀ a b, le a b = true → le b a = true → a = b) :
    (uniq (sort le input)).Pairwise (fun a b => le a b = true ∧ a ≠ b) ∧
      (uniq (sort le input)).Nodup ∧ ∀ x, x ∈ uniq (sort le input) ↔ x ∈ input := by
  have hs : (sort le input).Pairwise (fun a b => le a b = true) := List.pairwise_mergeSort trans total input
  have h := (uniqFrom_pairwise (fun a b => le a b = true) anti trans none (sort le input) hs (by simp)).1
  refine ⟨h, ?_, fun x => ?_⟩
  · exact h.imp fun h => h.2
  · rw [uniq_mem]
    exact List.mem_mergeSort

/-- `sort`: the same elements as often, ascending; equal ones keep their
order. -/
theorem sort_exact {α : Type} (le : α → α → Bool) (input : List α)
    (trans : ∀ a b c, le a b = true → le b c = true → le a c = true)
    (total : ∀ a b, (le a b || le b a) = true) :
    (sort le input).Perm input ∧ (sort le input).Pairwise (fun a b => le a b = true) ∧
      ∀ a b, le a b = true → [a, b].Sublist input → [a, b].Sublist (sort le input) :=
  ⟨List.mergeSort_perm .., List.pairwise_mergeSort trans total input,
    fun _ _ hab h => List.pair_sublist_mergeSort trans total hab h⟩

example : uniq (sort (fun a b : Nat => decide (a ≤ b)) [3, 1, 3, 2, 1]) = [1, 2, 3] := by
  simp [sort, List.mergeSort, List.MergeSort.Internal.splitInTwo, List.merge]
  decide
example : uniq [1, 1, 2, 1] = [1, 2, 1] := by decide

/-! ## The rest -/

/-- A dictionary made of pairs has the last value of each key. -/
theorem asdict_last {α β : Type} [DecidableEq α] (a b : List (α × β)) (k : α) (v : β)
    (h : ∀ e ∈ b, e.1 ≠ k) : asdict (a ++ (k, v) :: b) k = some v := by
  have key : ∀ (b : List (α × β)) (d : α → Option β), (∀ e ∈ b, e.1 ≠ k) → d k = some v →
      b.foldl (fun d e k => if k = e.1 then some e.2 else d k) d k = some v := by
    intro b
    induction b with
    | nil => intro d _ h0; exact h0
    | cons e b ih =>
      intro d h h0
      rw [List.foldl_cons]
      refine ih _ (fun x hx => h x (List.mem_cons_of_mem _ hx)) ?_
      show (if k = e.1 then some e.2 else d k) = some v
      rw [if_neg (fun e' => h e (List.mem_cons_self ..) e'.symm)]
      exact h0
  unfold asdict
  rw [List.foldl_append, List.foldl_cons]
  exact key b _ h (by simp)

theorem enum_exact {α : Type} (l : List α) (i : Nat) (x : α) : (i, x) ∈ enum l ↔ l[i]? = some x := by
  unfold enum
  rw [List.mem_iff_getElem?]
  constructor
  · rintro ⟨n, hn⟩
    rw [List.getElem?_zip_eq_some] at hn
    obtain ⟨h1, h2⟩ := hn
    rw [List.getElem?_range (by
      rw [List.getElem?_eq_some_iff] at h2
      exact h2.1)] at h1
    have e : n = i := Option.some.inj h1
    rw [← e]; exact h2
  · intro h
    refine ⟨i, ?_⟩
    rw [List.getElem?_zip_eq_some]
    refine ⟨?_, h⟩
    rw [List.getElem?_range]
    rw [List.getElem?_eq_some_iff] at h
    exact h.1

/-- The full statement is false: `grep("b")` leaves out the line `ab`, and
newlines are doubled when printing. -/
theorem pipes_refuted : ¬ PipesFull := by
  rintro ⟨h, _⟩
  have := (h (fun s => decide (s = ['b'])) ['a','b'] ['a','b']).2
    ⟨by decide, ['a'], ['b'], [], rfl, by decide⟩
  revert this
  decide +kernel

theorem print_refuted : ¬ PipesFull := by
  rintro ⟨_, h⟩
  have := h ['\n']
  revert this
  decide +kernel

end Pisi.Pipes
