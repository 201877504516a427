import Verif.Lemmas.VersionParse

/-!
# Properties C01-C04: version strings

Specification: `Verif/Spec/Version.lean` (grammar, component order, `Older`, `Same`).
-/

namespace Pisi.Version
open Pisi Pisi.Version.Spec

/-! ## Bridge between the specification order and the helper order -/

theorem nth_eq_comp (l : List Item) (n : Nat) : nth l n = comp l n := by
  induction l generalizing n with
  | nil => cases n <;> rfl
  | cons a l ih => cases n with
    | zero => rfl
    | succ n => rw [comp_cons_succ, ← ih]; rfl

theorem itemBefore_iff (a b : Item) : ItemBefore a b ↔ a.lt b = true := by
  have hidx : ∀ k : Kw, kwOrder.idxOf k = k.rank := by intro k; cases k <;> decide
  cases a with | mk ka va => cases b with | mk kb vb =>
  simp only [ItemBefore, hidx, Item.lt]
  constructor
  · rintro (h | ⟨rfl, h⟩)
    · simp [h]
    · simp only [Nat.lt_irrefl, if_false, if_true]
      cases h with
      | num a b h => simpa [Val.lt] using h
      | mixed => rfl
      | letter c d h => simp only [Val.lt, decide_eq_true_eq]; exact Char.lt_def.mp h
  · intro h
    split at h
    · left; assumption
    · split at h
      · rename_i he
        right
        refine ⟨Kw.rank_inj _ _ he, ?_⟩
        cases va <;> cases vb <;> simp [Val.lt] at h
        · exact ValBefore.num _ _ h
        · exact ValBefore.mixed _ _
        · exact ValBefore.letter _ _ h
      · simp at h

theorem older_iff (l r : List Item) : Older l r ↔ SeqLt l r := by
  simp only [Older, SeqLt, nth_eq_comp, itemBefore_iff]

theorem same_iff (l r : List Item) : Same l r ↔ SeqEq l r := by
  simp only [Same, SeqEq, nth_eq_comp]

/-! ## C01 -/

/-- **C01** (operators).  The five comparison operators of two `Version` objects agree with the
specification: `<` is "older", `==` is "same", and the others are the corresponding unions. -/
theorem version_operators (l r : List Item) :
    (vlt l r = true ↔ Older l r) ∧
    (vgt l r = true ↔ Older r l) ∧
    (veq l r = true ↔ Same l r) ∧
    (vle l r = true ↔ Older l r ∨ Same l r) ∧
    (vge l r = true ↔ Older r l ∨ Same l r) := by
  simp only [older_iff, same_iff]
  exact ⟨vlt_iff l r, vgt_iff l r, veq_iff l r, vle_iff l r, vge_iff l r⟩

/-- **C01** (trichotomy on strings).  Of any two accepted version strings exactly one is true:
the first is older, they are equal, the first is newer. -/
theorem version_trichotomy (a b : Str) (va vb : List Item)
    (_ha : parse a = some va) (_hb : parse b = some vb) :
    (vlt va vb = true ∧ veq va vb = false ∧ vgt va vb = false) ∨
    (vlt va vb = false ∧ veq va vb = true ∧ vgt va vb = false) ∨
    (vlt va vb = false ∧ veq va vb = false ∧ vgt va vb = true) := by
  rcases compare_range va vb with h | h | h <;> simp [vlt, veq, vgt, h]

/-- **C01** (total preorder on strings).  On accepted version strings `<=` is reflexive, transitive and
total; `<` is the strict part of `<=`; `==` is the symmetric part; `>=`/`>` are the converses. -/
theorem version_total_preorder (a b c : Str) (va vb vc : List Item)
    (_ha : parse a = some va) (_hb : parse b = some vb) (_hc : parse c = some vc) :
    vle va va = true ∧
    (vle va vb = true → vle vb vc = true → vle va vc = true) ∧
    (vle va vb = true ∨ vle vb va = true) ∧
    (vlt va vb = true ↔ vle va vb = true ∧ vle vb va = false) ∧
    (veq va vb = true ↔ vle va vb = true ∧ vle vb va = true) ∧
    (vge va vb = vle vb va) ∧ (vgt va vb = vlt vb va) := by
  have asym : ∀ x y : List Item, compare x y = - compare y x := by
    intro x y
    rcases compare_spec x y with ⟨h, e⟩ | ⟨h, e⟩ | ⟨h, e⟩
    · rw [e, (compare_gt_iff y x).mpr h]
    · rw [e, (compare_eq_iff y x).mpr h.symm]; rfl
    · rw [e, (compare_lt_iff y x).mpr h]; rfl
  refine ⟨?_, ?_, ?_, ?_, ?_, ?_, ?_⟩
  · rw [vle_iff]; right; exact fun _ => rfl
  · rw [vle_iff, vle_iff, vle_iff]
    rintro (h1 | h1) (h2 | h2)
    · exact Or.inl (h1.trans h2)
    · exact Or.inl (SeqLt_of_eq_right h2 h1)
    · exact Or.inl (SeqLt_of_eq_left h1.symm h2)
    · exact Or.inr (h1.trans h2)
  · have := asym va vb; simp [vle]; omega
  · have := asym va vb; have := compare_range va vb; simp [vlt, vle]; omega
  · have := asym va vb; have := compare_range va vb; simp [veq, vle]; omega
  · have := asym va vb; simp only [vge, vle]; rw [decide_eq_decide]; omega
  · have := asym va vb; simp only [vgt, vlt]; rw [decide_eq_decide]; omega

/-- Strict order is transitive, also mixed with equality (used by every caller that sorts). -/
theorem version_lt_trans (va vb vc : List Item) (h1 : vlt va vb = true) (h2 : vlt vb vc = true) :
    vlt va vc = true := by
  rw [vlt_iff] at *; exact h1.trans h2

-- non-vacuity: accepted strings in all three relations
example : (parse "1.2.10-3".toList).isSome ∧ (parse "1.2_rc1".toList).isSome ∧
    (parse "2.11a".toList).isSome := by decide
example : ∃ va vb, parse "1.2_rc1".toList = some va ∧ parse "1.2".toList = some vb ∧
    vlt va vb = true := ⟨_, _, rfl, rfl, by decide⟩
example : ∃ va vb, parse "2.11a".toList = some va ∧ parse "2.11".toList = some vb ∧
    vgt va vb = true := ⟨_, _, rfl, rfl, by decide⟩

/-! ## C02 -/

theorem compareObj_inv (h h' : Heap) (i j : Nat) (z : Int) (hc : compareObj h i j = some (z, h')) :
    h'.length = h.length ∧
    ∀ (k : Nat) (l : List Item), h[k]? = some l → ∃ l', h'[k]? = some l' ∧ SeqEq l l' := by
  simp only [compareObj] at hc
  split at hc
  · rename_i l r hl hr
    simp at hc
    obtain ⟨_, rfl⟩ := hc
    refine ⟨by simp, ?_⟩
    intro k x hx
    rw [List.getElem?_set, List.getElem?_set]
    have hk : k < h.length := (List.getElem?_eq_some_iff.mp hx).1
    by_cases hjk : j = k
    · subst hjk
      simp [hk]
      rw [hr] at hx; cases hx
      exact fun n => (comp_pad _ _ _).symm
    · by_cases hik : i = k
      · subst hik
        simp [hjk, hk]
        rw [hl] at hx; cases hx
        exact fun n => (comp_pad _ _ _).symm
      · simp [hjk, hik, hx]
        exact fun n => rfl
  · simp at hc

theorem compareHist_inv (h : Heap) (ops : List (Nat × Nat)) :
    (compareHist h ops).length = h.length ∧
    ∀ (k : Nat) (l : List Item), h[k]? = some l → ∃ l', (compareHist h ops)[k]? = some l' ∧ SeqEq l l' := by
  induction ops generalizing h with
  | nil => exact ⟨rfl, fun k l hl => ⟨l, hl, fun _ => rfl⟩⟩
  | cons op ops ih =>
    obtain ⟨i, j⟩ := op
    simp only [compareHist]
    split
    · rename_i z h' hc
      obtain ⟨h1, h2⟩ := compareObj_inv h h' i j z hc
      obtain ⟨h3, h4⟩ := ih h'
      refine ⟨by omega, fun k l hl => ?_⟩
      obtain ⟨l', hl', e⟩ := h2 k l hl
      obtain ⟨l'', hl'', e'⟩ := h4 k l' hl'
      exact ⟨l'', hl'', e.trans e'⟩
    · exact ih h

/-- **C02** (history independence).  `compare` pads its operands in place.  After any history of
comparisons among a pool of version objects, comparing objects `i` and `j` yields exactly the
result of comparing the original objects. -/
theorem compare_history_independent (h : Heap) (ops : List (Nat × Nat)) (i j : Nat) :
    (compareObj (compareHist h ops) i j).map Prod.fst = (compareObj h i j).map Prod.fst := by
  obtain ⟨hlen, hinv⟩ := compareHist_inv h ops
  rcases hi : h[i]? with _ | l
  · have : (compareHist h ops)[i]? = none := by
      rw [List.getElem?_eq_none_iff] at *; omega
    simp [compareObj, hi, this]
  · rcases hj : h[j]? with _ | r
    · have : (compareHist h ops)[j]? = none := by
        rw [List.getElem?_eq_none_iff] at *; omega
      simp [compareObj, hj, this]
    · obtain ⟨l', hl', e1⟩ := hinv i l hi
      obtain ⟨r', hr', e2⟩ := hinv j r hj
      simp only [compareObj, hi, hj, hl', hr', Option.map_some]
      exact congrArg some (compare_congr e1 e2).symm

/-- **C02** (trailing zeros).  Appending `.0` components (with any of the separators) to an accepted
version string yields an equal version. -/
theorem version_trailing_zeros (s : Str) (v : List Item) (hv : parse s = some v)
    (c : Char) (hc : c = '.' ∨ c = '-' ∨ c = '_') :
    ∃ w, parse (s ++ [c, '0']) = some w ∧ veq v w = true := by
  obtain ⟨ps, h1, h2⟩ := (parse_iff s v).mp hv
  refine ⟨v ++ [zeroItem], ?_, ?_⟩
  · apply (parse_iff _ _).mpr
    have h3 : Splits Spec.Sep ['0'] [['0']] := Splits.last _ (by simp [Spec.Sep])
    have h4 := Splits.append c hc h1 h3
    refine ⟨_, h4, ?_⟩
    have hz : PiecesG [['0']] [zeroItem] := (parsePieces_iff _ _).mp (by decide)
    clear h1 h3 h4 hv
    induction h2 with
    | nil => simpa using hz
    | cons p ps a b h hs ih => simpa using PiecesG.cons p (ps ++ [['0']]) a (b ++ [zeroItem]) h ih
  · rw [veq_iff]
    intro n
    have := comp_append_replicate v 1 n
    simpa using this.symm

-- non-vacuity: a store in which a comparison really changes an object
example : compareHist [[⟨.nokey, .num 1⟩], [⟨.nokey, .num 1⟩, ⟨.nokey, .num 2⟩]] [(0, 1)] =
    [[⟨.nokey, .num 1⟩, zeroItem], [⟨.nokey, .num 1⟩, ⟨.nokey, .num 2⟩]] := by decide

/-! ## C03 -/

/-- Appending a separator and one more piece appends that piece's components. -/
theorem parse_snoc (b p : Str) (v w : List Item) (c : Char) (hc : c = '.' ∨ c = '-' ∨ c = '_')
    (hb : parse b = some v) (hp : ∀ x ∈ p, ¬ Spec.Sep x) (hw : PieceG p w) :
    parse (b ++ c :: p) = some (v ++ w) := by
  obtain ⟨ps, h1, h2⟩ := (parse_iff b v).mp hb
  apply (parse_iff _ _).mpr
  refine ⟨ps ++ [p], Splits.append c hc h1 (Splits.last p hp), ?_⟩
  clear h1 hb
  induction h2 with
  | nil => simpa using PiecesG.cons p [] w [] hw PiecesG.nil
  | cons q qs a b h hs ih => simpa using PiecesG.cons q (qs ++ [p]) a (b ++ w) h ih

theorem number_of_digits (ds : Str) (n : Nat) (hne : ds ≠ []) (hd : DecVal ds n) : Number ds n :=
  ⟨[], [], ds, [], n, by simp, by simp, by simp, hne, hd, Or.inl ⟨rfl, rfl⟩⟩

theorem digits_noSep (ds : Str) (n : Nat) (hd : DecVal ds n) : ∀ x ∈ ds, ¬ Spec.Sep x := by
  intro x hx
  obtain ⟨d, hd', rfl⟩ := (isDigit_iff x).mp (((decVal_iff ds n).mp hd).1 x hx)
  have : ∀ d, d < 10 → ¬ (Char.ofNat (48 + d) = '.' ∨ Char.ofNat (48 + d) = '-' ∨
    Char.ofNat (48 + d) = '_') := by decide
  exact this d hd'

theorem parse_suffix (b : Str) (v : List Item) (c : Char) (hc : c = '.' ∨ c = '-' ∨ c = '_')
    (hb : parse b = some v) (k : Kw) (w : String) (hk : kwSpelling k = some w)
    (ds : Str) (n : Nat) (hne : ds ≠ []) (hd : DecVal ds n) :
    parse (b ++ c :: (w.toList ++ ds)) = some (v ++ [⟨k, .num n⟩]) := by
  apply parse_snoc b _ v _ c hc hb
  · intro x hx
    rcases List.mem_append.mp hx with hx | hx
    · rw [(kwSpelling_str k w hk).1] at hx
      have := Kw.str_alpha k x hx
      rintro (rfl | rfl | rfl) <;> exact absurd this (by decide)
    · exact digits_noSep ds n hd x hx
  · exact PieceG.plain _ _ (ItemG.kw k w ds n hk (number_of_digits ds n hne hd))

theorem seqLt_append (v l r : List Item) : SeqLt (v ++ l) (v ++ r) ↔ SeqLt l r := by
  induction v with
  | nil => rfl
  | cons a v ih =>
    simp only [List.cons_append, SeqLt_cons, ih, Item.lt_irrefl]; simp

/-- **C03** (keyword ranking).  For every accepted base version `b`, keywords `k₁`, `k₂` and digit strings:
`b_k₁N₁` is older than `b_k₂N₂` whenever `k₁` precedes `k₂` in
alpha, beta, pre, rc, m, p — whatever the numbers — and, for the same keyword, iff `N₁ < N₂`. -/
theorem suffix_ranking (b : Str) (v : List Item) (hb : parse b = some v)
    (c₁ c₂ : Char) (hc₁ : c₁ = '.' ∨ c₁ = '-' ∨ c₁ = '_') (hc₂ : c₂ = '.' ∨ c₂ = '-' ∨ c₂ = '_')
    (k₁ k₂ : Kw) (w₁ w₂ : String) (hk₁ : kwSpelling k₁ = some w₁) (hk₂ : kwSpelling k₂ = some w₂)
    (d₁ d₂ : Str) (n₁ n₂ : Nat) (hd₁ : DecVal d₁ n₁) (hd₂ : DecVal d₂ n₂)
    (hne₁ : d₁ ≠ []) (hne₂ : d₂ ≠ []) :
    ∃ l r, parse (b ++ c₁ :: (w₁.toList ++ d₁)) = some l ∧
      parse (b ++ c₂ :: (w₂.toList ++ d₂)) = some r ∧
      (vlt l r = true ↔ kwOrder.idxOf k₁ < kwOrder.idxOf k₂ ∨ (k₁ = k₂ ∧ n₁ < n₂)) := by
  refine ⟨_, _, parse_suffix b v c₁ hc₁ hb k₁ w₁ hk₁ d₁ n₁ hne₁ hd₁,
    parse_suffix b v c₂ hc₂ hb k₂ w₂ hk₂ d₂ n₂ hne₂ hd₂, ?_⟩
  rw [vlt_iff, seqLt_append, SeqLt_cons, ← itemBefore_iff]
  have hirr : ¬ SeqLt [] [] := SeqLt_irrefl_of_eq _ _ (fun _ => rfl)
  simp only [hirr, and_false, or_false, ItemBefore]
  constructor
  · rintro (h | ⟨h, h'⟩)
    · exact Or.inl h
    · right; refine ⟨h, ?_⟩; cases h' with | num _ _ h => omega
  · rintro (h | ⟨h, h'⟩)
    · exact Or.inl h
    · exact Or.inr ⟨h, ValBefore.num _ _ (by omega)⟩

/-- **C03** (suffix against the plain version).  `b_kN` is older than the plain `b` for
alpha, beta, pre, rc and m; `b_pN` is newer than `b`. -/
theorem suffix_vs_plain (b : Str) (v : List Item) (hb : parse b = some v)
    (c : Char) (hc : c = '.' ∨ c = '-' ∨ c = '_')
    (k : Kw) (w : String) (hk : kwSpelling k = some w)
    (d : Str) (n : Nat) (hd : DecVal d n) (hne : d ≠ []) :
    ∃ l, parse (b ++ c :: (w.toList ++ d)) = some l ∧
      (k ≠ .p → vlt l v = true) ∧ (k = .p → vgt l v = true) := by
  refine ⟨_, parse_suffix b v c hc hb k w hk d n hne hd, ?_, ?_⟩
  · intro hp
    rw [vlt_iff]
    have : SeqLt (v ++ [⟨k, .num n⟩]) (v ++ [zeroItem]) := by
      rw [seqLt_append, SeqLt_cons]; left
      cases k <;> simp [kwSpelling] at hk hp <;> rfl
    exact SeqLt_of_eq_right (fun m => by simpa using comp_append_replicate v 1 m) this
  · rintro rfl
    rw [vgt_iff]
    have : SeqLt (v ++ [zeroItem]) (v ++ [⟨.p, .num n⟩]) := by
      rw [seqLt_append, SeqLt_cons]; left; rfl
    exact SeqLt_of_eq_left (fun m => by simpa using comp_append_replicate v 1 m) this

/-- **C03** (letters).  `b.Nx` (a letter after the last number) is newer than `b.N`, and letters are
ordered alphabetically. -/
theorem letter_ranking (b : Str) (v : List Item) (hb : parse b = some v)
    (c : Char) (hc : c = '.' ∨ c = '-' ∨ c = '_')
    (d : Str) (n : Nat) (hd : DecVal d n) (hne : d ≠ []) (x y : Char) (hx : Letter x) (hy : Letter y) :
    ∃ plain lx ly, parse (b ++ c :: d) = some plain ∧ parse (b ++ c :: (d ++ [x])) = some lx ∧
      parse (b ++ c :: (d ++ [y])) = some ly ∧
      vgt lx plain = true ∧ (vlt lx ly = true ↔ x < y) := by
  have hit : ItemG d ⟨.nokey, .num n⟩ := ItemG.num d n (number_of_digits d n hne hd)
  have hlet : ∀ x, Letter x → ¬ Spec.Sep x := by
    intro x hx
    have := (letter_iff x).mpr hx
    rintro (rfl | rfl | rfl) <;> exact absurd this (by decide)
  have hsep : ∀ x, Letter x → ∀ z ∈ d ++ [x], ¬ Spec.Sep z := by
    intro x hx z hz
    rcases List.mem_append.mp hz with hz | hz
    · exact digits_noSep d n hd z hz
    · simp at hz; subst hz; exact hlet z hx
  refine ⟨_, _, _,
    parse_snoc b d v _ c hc hb (digits_noSep d n hd) (PieceG.plain d _ hit),
    parse_snoc b _ v _ c hc hb (hsep x hx) (PieceG.lettered d [] _ x hit hx (Or.inl rfl)),
    parse_snoc b _ v _ c hc hb (hsep y hy) (PieceG.lettered d [] _ y hit hy (Or.inl rfl)), ?_, ?_⟩
  · rw [vgt_iff, seqLt_append, SeqLt_cons]; right
    refine ⟨rfl, 0, by intro m hm; omega, ?_⟩
    simp [comp, zeroItem, Item.lt, Val.lt]
  · have hirr : ¬ SeqLt [] [] := SeqLt_irrefl_of_eq _ _ (fun _ => rfl)
    rw [vlt_iff, seqLt_append, SeqLt_cons, SeqLt_cons, ← itemBefore_iff, ← itemBefore_iff]
    simp only [hirr, and_false, or_false, true_and, ItemBefore, Nat.lt_irrefl, false_or]
    constructor
    · rintro (h | h)
      · cases h with | num _ _ h => omega
      · cases h with | letter _ _ h => exact h
    · intro h; right; exact ValBefore.letter _ _ h

/-- **C03** (numbers).  Components are compared by numeric value, whatever their spelling. -/
theorem numeric_ranking (b : Str) (v : List Item) (hb : parse b = some v)
    (c : Char) (hc : c = '.' ∨ c = '-' ∨ c = '_')
    (d₁ d₂ : Str) (n₁ n₂ : Nat) (hd₁ : DecVal d₁ n₁) (hd₂ : DecVal d₂ n₂)
    (hne₁ : d₁ ≠ []) (hne₂ : d₂ ≠ []) :
    ∃ l r, parse (b ++ c :: d₁) = some l ∧ parse (b ++ c :: d₂) = some r ∧
      (vlt l r = true ↔ n₁ < n₂) ∧ (veq l r = true ↔ n₁ = n₂) := by
  have hit : ∀ d n, d ≠ [] → DecVal d n → PieceG d [⟨.nokey, .num n⟩] := fun d n hne hd =>
    PieceG.plain d _ (ItemG.num d n (number_of_digits d n hne hd))
  refine ⟨_, _, parse_snoc b d₁ v _ c hc hb (digits_noSep d₁ n₁ hd₁) (hit d₁ n₁ hne₁ hd₁),
    parse_snoc b d₂ v _ c hc hb (digits_noSep d₂ n₂ hd₂) (hit d₂ n₂ hne₂ hd₂), ?_, ?_⟩
  · have hirr : ¬ SeqLt [] [] := SeqLt_irrefl_of_eq _ _ (fun _ => rfl)
    rw [vlt_iff, seqLt_append, SeqLt_cons, ← itemBefore_iff]
    simp only [hirr, and_false, or_false, ItemBefore, Nat.lt_irrefl, false_or, true_and]
    constructor
    · intro h; cases h with | num _ _ h => omega
    · intro h; exact ValBefore.num _ _ (by omega)
  · rw [veq_iff]
    have : ∀ l r : List Item, SeqEq (v ++ l) (v ++ r) ↔ SeqEq l r := by
      intro l r
      clear hb
      induction v with
      | nil => rfl
      | cons a v ih => simp only [List.cons_append, SeqEq_cons, ih]; simp
    rw [this, SeqEq_cons]
    constructor
    · rintro ⟨h, _⟩; simp at h; omega
    · rintro rfl; exact ⟨rfl, fun _ => rfl⟩

-- non-vacuity
example : (parse "2.23".toList).isSome ∧ kwSpelling .pre = some "pre" ∧
    DecVal "10".toList 10 := by
  refine ⟨by decide, rfl, ?_⟩
  exact (decVal_iff _ _).mpr ⟨by decide, by decide⟩

/-! ## C04 -/

/-- **C04**.  `Version(s)` yields components `l` iff `s` is derived by the grammar with that meaning;
for every other string it raises `ValueError`. -/
theorem version_grammar (s : Str) (l : List Item) : parse s = some l ↔ VersionG s l :=
  parse_iff s l

/-- **C04** (rejection).  `Version(s)` raises iff no derivation exists. -/
theorem version_rejects (s : Str) : parse s = none ↔ ¬ ∃ l, VersionG s l := by
  constructor
  · rintro h ⟨l, hl⟩
    rw [(parse_iff s l).mpr hl] at h; simp at h
  · intro h
    rcases hp : parse s with _ | l
    · rfl
    · exact absurd ⟨l, (parse_iff s l).mp hp⟩ h

/-- The meaning of a version string is unique. -/
theorem version_grammar_unique (s : Str) (l r : List Item) (h : VersionG s l) (h' : VersionG s r) :
    l = r := by
  have h1 := (parse_iff s l).mpr h
  rw [(parse_iff s r).mpr h'] at h1
  exact (Option.some.inj h1).symm

/-- **C04** (dictionary order).  `keywords.keys()` may iterate in any order: the result of constructing a
`VersionItem` is the same. -/
theorem item_dict_order (ks : List Kw) (hks : ks.Perm Kw.all) (s : Str) :
    mkItemWith ks s = mkItem s := by
  simp only [mkItem, mkItemWith]
  rw [scan_order_indep s ks Kw.all (fun k => hks.mem_iff)]

-- tests of the grammar reading (not proofs): lone letters, empty pieces, bare keywords are rejected
example : parse "1.a".toList = none ∧ parse "1..2".toList = none ∧ parse "1_pre".toList = none ∧
    parse "1.0alpha".toList = none ∧ parse "".toList = none := by decide

end Pisi.Version
