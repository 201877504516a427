import Verif.Model.Version

/-! Helper lemmas about the version model. -/

namespace Pisi.Version
open Pisi

/-- Component `n` of a version, `0` beyond its end. -/
def comp (l : List Item) (n : Nat) : Item := l.getD n zeroItem

theorem Kw.rank_inj : ∀ a b : Kw, a.rank = b.rank → a = b := by
  intro a b; cases a <;> cases b <;> simp [Kw.rank]

theorem char_toNat_inj (a b : Char) (h : a.toNat = b.toNat) : a = b := by
  apply Char.ext; apply UInt32.toNat_inj.mp; exact h

theorem Item.gt_eq (a b : Item) : a.gt b = b.lt a := by
  cases a with | mk ka va => cases b with | mk kb vb =>
  simp only [Item.gt, Item.lt, gt_iff_lt]
  by_cases h : kb.rank < ka.rank
  · simp [h]
  · simp only [h, if_false]
    by_cases h2 : ka.rank = kb.rank
    · simp only [h2, if_true]
      cases va <;> cases vb <;> simp [Val.gt, Val.lt]
    · simp only [h2, if_false, Ne.symm h2]

theorem Item.lt_irrefl (a : Item) : a.lt a = false := by
  cases a with | mk k v => cases v <;> simp [Item.lt, Val.lt]

theorem Item.eq_of_not_lt (a b : Item) (h1 : a.lt b = false) (h2 : b.lt a = false) : a = b := by
  cases a with | mk ka va => cases b with | mk kb vb =>
  simp only [Item.lt] at h1 h2
  have hr : ka.rank = kb.rank := by
    by_cases h : ka.rank < kb.rank
    · simp [h] at h1
    · by_cases h' : kb.rank < ka.rank
      · simp [h'] at h2
      · omega
  have hk := Kw.rank_inj _ _ hr
  subst hk
  simp only [Nat.lt_irrefl, if_false, if_true] at h1 h2
  cases va <;> cases vb <;> simp [Val.lt] at h1 h2
  · congr 2; omega
  · congr 2; exact char_toNat_inj _ _ (by omega)

theorem Item.lt_trans (a b c : Item) (h1 : a.lt b = true) (h2 : b.lt c = true) : a.lt c = true := by
  cases a with | mk ka va => cases b with | mk kb vb => cases c with | mk kc vc =>
  simp only [Item.lt] at *
  split at h1
  · split at h2
    · rw [if_pos (by omega)]
    · split at h2
      · rw [if_pos (by omega)]
      · simp at h2
  · split at h1
    · split at h2
      · rw [if_pos (by omega)]
      · split at h2
        · rw [if_neg (by omega), if_pos (by omega)]
          cases va <;> cases vb <;> cases vc <;> simp [Val.lt] at * <;> omega
        · simp at h2
    · simp at h1

theorem comp_nil (n : Nat) : comp [] n = zeroItem := by simp [comp]

theorem comp_cons_zero (a : Item) (l : List Item) : comp (a :: l) 0 = a := by simp [comp]
theorem comp_cons_succ (a : Item) (l : List Item) (n : Nat) :
    comp (a :: l) (n + 1) = comp l n := by simp [comp]

theorem comp_append_replicate (l : List Item) (k n : Nat) :
    comp (l ++ List.replicate k zeroItem) n = comp l n := by
  induction l generalizing n with
  | nil =>
    simp only [comp, List.nil_append, List.getD_eq_getElem?_getD, List.getElem?_replicate]
    split <;> simp
  | cons a l ih =>
    cases n with
    | zero => simp [comp]
    | succ n => simpa [comp] using ih n

theorem comp_pad (l : List Item) (k n : Nat) : comp (pad l k) n = comp l n := by
  unfold pad; split
  · exact comp_append_replicate _ _ _
  · rfl

theorem pad_length (l : List Item) (k : Nat) : (pad l k).length = max l.length k := by
  unfold pad; split
  · simp; omega
  · omega

/-- Lexicographic order on components, position by position. -/
def SeqLt (l r : List Item) : Prop :=
  ∃ n, (∀ m, m < n → comp l m = comp r m) ∧ (comp l n).lt (comp r n) = true

def SeqEq (l r : List Item) : Prop := ∀ n, comp l n = comp r n

theorem SeqLt_cons (a b : Item) (l r : List Item) :
    SeqLt (a :: l) (b :: r) ↔ a.lt b = true ∨ (a = b ∧ SeqLt l r) := by
  constructor
  · rintro ⟨n, h1, h2⟩
    cases n with
    | zero => left; simpa [comp] using h2
    | succ n =>
      right
      refine ⟨by simpa [comp] using h1 0 (by omega), n, ?_, by simpa [comp] using h2⟩
      intro m hm
      simpa [comp] using h1 (m+1) (by omega)
  · rintro (h | ⟨rfl, n, h1, h2⟩)
    · exact ⟨0, by intro m hm; omega, by simpa [comp] using h⟩
    · refine ⟨n+1, ?_, by simpa [comp] using h2⟩
      intro m hm
      cases m with
      | zero => simp [comp]
      | succ m => simpa [comp] using h1 m (by omega)

theorem SeqEq_cons (a b : Item) (l r : List Item) :
    SeqEq (a :: l) (b :: r) ↔ a = b ∧ SeqEq l r := by
  constructor
  · intro h
    refine ⟨by simpa [comp] using h 0, fun n => by simpa [comp] using h (n+1)⟩
  · rintro ⟨rfl, h⟩ n
    cases n with
    | zero => simp [comp]
    | succ n => simpa [comp] using h n

theorem cmpLoop_spec (l r : List Item) (hlen : l.length = r.length) :
    (SeqLt l r ∧ cmpLoop l r = -1) ∨ (SeqEq l r ∧ cmpLoop l r = 0) ∨
    (SeqLt r l ∧ cmpLoop l r = 1) := by
  induction l generalizing r with
  | nil =>
    cases r with
    | nil => right; left; exact ⟨fun _ => rfl, rfl⟩
    | cons => simp at hlen
  | cons a l ih =>
    cases r with
    | nil => simp at hlen
    | cons b r =>
      have ih := ih r (by simpa using hlen)
      simp only [cmpLoop, SeqLt_cons, SeqEq_cons, Item.gt_eq]
      by_cases h1 : a.lt b = true
      · simp [h1]
      · by_cases h2 : b.lt a = true
        · right; right; simp [h1, h2]
        · have : a = b := Item.eq_of_not_lt a b (by simpa using h1) (by simpa using h2)
          subst this
          simpa [h1] using ih

theorem SeqLt_pad (l r : List Item) (i j : Nat) : SeqLt (pad l i) (pad r j) ↔ SeqLt l r := by
  simp [SeqLt, comp_pad]
theorem SeqEq_pad (l r : List Item) (i j : Nat) : SeqEq (pad l i) (pad r j) ↔ SeqEq l r := by
  simp [SeqEq, comp_pad]

theorem compare_spec (l r : List Item) :
    (SeqLt l r ∧ compare l r = -1) ∨ (SeqEq l r ∧ compare l r = 0) ∨
    (SeqLt r l ∧ compare l r = 1) := by
  have h := cmpLoop_spec (pad l r.length) (pad r l.length) (by simp [pad_length]; omega)
  simp only [SeqLt_pad, SeqEq_pad] at h
  exact h

theorem SeqLt_irrefl_of_eq (l r : List Item) (h : SeqEq l r) : ¬ SeqLt l r := by
  rintro ⟨n, _, h2⟩
  rw [h n, Item.lt_irrefl] at h2; simp at h2

theorem SeqEq.symm {l r : List Item} (h : SeqEq l r) : SeqEq r l := fun n => (h n).symm
theorem SeqEq.trans {l r s : List Item} (h : SeqEq l r) (h' : SeqEq r s) : SeqEq l s :=
  fun n => (h n).trans (h' n)

theorem SeqLt.trans {l r s : List Item} (h : SeqLt l r) (h' : SeqLt r s) : SeqLt l s := by
  obtain ⟨n, h1, h2⟩ := h
  obtain ⟨m, h3, h4⟩ := h'
  rcases Nat.lt_trichotomy n m with hnm | hnm | hnm
  · refine ⟨n, fun k hk => (h1 k hk).trans (h3 k (by omega)), ?_⟩
    rw [← h3 n hnm]; exact h2
  · subst hnm
    exact ⟨n, fun k hk => (h1 k hk).trans (h3 k hk), Item.lt_trans _ _ _ h2 h4⟩
  · refine ⟨m, fun k hk => (h1 k (by omega)).trans (h3 k hk), ?_⟩
    rw [h1 m hnm]; exact h4

theorem SeqLt.asymm {l r : List Item} (h : SeqLt l r) : ¬ SeqLt r l := fun h' =>
  SeqLt_irrefl_of_eq l l (fun _ => rfl) (h.trans h')

theorem SeqLt_of_eq_left {l l' r : List Item} (e : SeqEq l l') (h : SeqLt l r) : SeqLt l' r := by
  obtain ⟨n, h1, h2⟩ := h
  exact ⟨n, fun m hm => (e m).symm.trans (h1 m hm), by rw [← e n]; exact h2⟩
theorem SeqLt_of_eq_right {l r r' : List Item} (e : SeqEq r r') (h : SeqLt l r) : SeqLt l r' := by
  obtain ⟨n, h1, h2⟩ := h
  exact ⟨n, fun m hm => (h1 m hm).trans (e m), by rw [← e n]; exact h2⟩

theorem compare_lt_iff (l r : List Item) : compare l r = -1 ↔ SeqLt l r := by
  rcases compare_spec l r with ⟨h, e⟩ | ⟨h, e⟩ | ⟨h, e⟩
  · simp [h, e]
  · simp only [e]; constructor
    · intro h'; omega
    · intro h'; exact absurd h' (SeqLt_irrefl_of_eq _ _ h)
  · simp only [e]; constructor
    · intro h'; omega
    · intro h'; exact absurd h' h.asymm

theorem compare_eq_iff (l r : List Item) : compare l r = 0 ↔ SeqEq l r := by
  rcases compare_spec l r with ⟨h, e⟩ | ⟨h, e⟩ | ⟨h, e⟩
  · simp only [e]; constructor
    · intro h'; omega
    · intro h'; exact absurd h (SeqLt_irrefl_of_eq _ _ h')
  · simp [h, e]
  · simp only [e]; constructor
    · intro h'; omega
    · intro h'; exact absurd h (SeqLt_irrefl_of_eq _ _ h'.symm)

theorem compare_gt_iff (l r : List Item) : compare l r = 1 ↔ SeqLt r l := by
  rcases compare_spec l r with ⟨h, e⟩ | ⟨h, e⟩ | ⟨h, e⟩
  · simp only [e]; constructor
    · intro h'; omega
    · intro h'; exact absurd h' h.asymm
  · simp only [e]; constructor
    · intro h'; omega
    · intro h'; exact absurd h' (SeqLt_irrefl_of_eq _ _ h.symm)
  · simp [h, e]

theorem compare_range (l r : List Item) : compare l r = -1 ∨ compare l r = 0 ∨ compare l r = 1 := by
  rcases compare_spec l r with ⟨_, e⟩ | ⟨_, e⟩ | ⟨_, e⟩ <;> simp [e]

theorem vlt_iff (l r : List Item) : vlt l r = true ↔ SeqLt l r := by
  rw [← compare_lt_iff]; have := compare_range l r; simp [vlt]; omega
theorem vgt_iff (l r : List Item) : vgt l r = true ↔ SeqLt r l := by
  rw [← compare_gt_iff]; have := compare_range l r; simp [vgt]; omega
theorem veq_iff (l r : List Item) : veq l r = true ↔ SeqEq l r := by
  rw [← compare_eq_iff]; simp [veq]
theorem vle_iff (l r : List Item) : vle l r = true ↔ SeqLt l r ∨ SeqEq l r := by
  rw [← compare_lt_iff, ← compare_eq_iff]; have := compare_range l r; simp [vle]; omega
theorem vge_iff (l r : List Item) : vge l r = true ↔ SeqLt r l ∨ SeqEq l r := by
  rw [← compare_gt_iff, ← compare_eq_iff]; have := compare_range l r; simp [vge]; omega

theorem compare_congr {l l' r r' : List Item} (h : SeqEq l l') (h' : SeqEq r r') :
    compare l r = compare l' r' := by
  rcases compare_spec l r with ⟨h1, e⟩ | ⟨h1, e⟩ | ⟨h1, e⟩
  · rw [e, ((compare_lt_iff l' r').mpr (SeqLt_of_eq_right h' (SeqLt_of_eq_left h h1)))]
  · rw [e, ((compare_eq_iff l' r').mpr (h.symm.trans (h1.trans h')))]
  · rw [e, ((compare_gt_iff l' r').mpr (SeqLt_of_eq_right h (SeqLt_of_eq_left h' h1)))]

end Pisi.Version
