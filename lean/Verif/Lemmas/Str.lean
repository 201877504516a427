import Verif.Model.Str
import Verif.Spec.Version

/-! Helper lemmas about string primitives. -/

namespace Pisi
open Version.Spec

theorem splitOn_ne_nil (c : Char) (s : Str) : splitOn c s ≠ [] := by
  induction s with
  | nil => simp [splitOn]
  | cons x xs ih =>
    simp only [splitOn]; split
    · simp
    · split <;> simp

theorem splitOn_sep (c : Char) (s : Str) : splitOn c (c :: s) = [] :: splitOn c s := by
  simp [splitOn]

theorem splitOn_cons (c x : Char) (s : Str) (h : x ≠ c) :
    ∃ p ps, splitOn c s = p :: ps ∧ splitOn c (x :: s) = (x :: p) :: ps := by
  rcases hs : splitOn c s with _ | ⟨p, ps⟩
  · exact absurd hs (splitOn_ne_nil c s)
  · exact ⟨p, ps, rfl, by simp [splitOn, h, hs]⟩

theorem splitOn_noSep (c : Char) (p : Str) (h : ∀ x ∈ p, x ≠ c) : splitOn c p = [p] := by
  induction p with
  | nil => rfl
  | cons x xs ih =>
    have := ih (fun y hy => h y (List.mem_cons_of_mem _ hy))
    simp [splitOn, h x (by simp), this]

theorem splitOn_append_sep (c : Char) (p s : Str) (h : ∀ x ∈ p, x ≠ c) :
    splitOn c (p ++ c :: s) = p :: splitOn c s := by
  induction p with
  | nil => simp [splitOn]
  | cons x xs ih =>
    have := ih (fun y hy => h y (List.mem_cons_of_mem _ hy))
    simp [splitOn, h x (by simp), this]

theorem Splits.cons_char {sep : Char → Prop} {s : Str} {p : Str} {ps : List Str} (x : Char)
    (hx : ¬ sep x) (h : Splits sep s (p :: ps)) : Splits sep (x :: s) ((x :: p) :: ps) := by
  cases h with
  | last _ hp =>
    apply Splits.last; intro c hc
    rcases List.mem_cons.mp hc with rfl | hc
    · exact hx
    · exact hp c hc
  | cons _ c s' _ hp hc hs =>
    apply Splits.cons (x :: p) c s' ps _ hc hs
    intro d hd
    rcases List.mem_cons.mp hd with rfl | hd
    · exact hx
    · exact hp d hd

theorem splitOn_splits (c : Char) (s : Str) : Splits (· = c) s (splitOn c s) := by
  induction s with
  | nil => exact Splits.last [] (by simp)
  | cons x xs ih =>
    by_cases hx : x = c
    · subst hx
      rw [splitOn_sep]
      exact Splits.cons [] x xs _ (by simp) rfl ih
    · obtain ⟨p, ps, h1, h2⟩ := splitOn_cons c x xs hx
      rw [h2]; rw [h1] at ih
      exact Splits.cons_char x hx ih

theorem Splits.append {sep : Char → Prop} {s t : Str} {ps qs : List Str} (c : Char) (hc : sep c)
    (h1 : Splits sep s ps) (h2 : Splits sep t qs) : Splits sep (s ++ c :: t) (ps ++ qs) := by
  induction h1 with
  | last p hp => exact Splits.cons p c t qs hp hc h2
  | cons p d s' ps' hp hd _ ih =>
    rw [List.append_assoc, List.cons_append, List.cons_append]
    exact Splits.cons p d _ _ hp hd ih

theorem Splits.refine {sep : Char → Prop} {s : Str} {ps : List Str} (c : Char)
    (h : Splits sep s ps) :
    Splits (fun x => sep x ∨ x = c) s (ps.flatMap (splitOn c)) := by
  have lift : ∀ (t : Str) (qs : List Str), (∀ x ∈ t, ¬ sep x) → Splits (· = c) t qs →
      Splits (fun x => sep x ∨ x = c) t qs := by
    intro t qs hn hs
    induction hs with
    | last p hp =>
      exact Splits.last p (fun x hx => by
        rintro (h | h)
        · exact hn x hx h
        · exact hp x hx h)
    | cons p d s' ps' hp hd _ ih =>
      refine Splits.cons p d s' ps' (fun x hx => ?_) (Or.inr hd) (ih (fun x hx => hn x (by simp [hx])))
      rintro (h | h)
      · exact hn x (by simp [hx]) h
      · exact hp x hx h
  induction h with
  | last p hp => simpa using lift p _ hp (splitOn_splits c p)
  | cons p d s' ps' hp hd _ ih =>
    rw [List.flatMap_cons]
    exact Splits.append d (Or.inl hd) (lift p _ hp (splitOn_splits c p)) ih

theorem Splits.congr {sep sep' : Char → Prop} (hiff : ∀ c, sep c ↔ sep' c) {s : Str}
    {ps : List Str} (h : Splits sep s ps) : Splits sep' s ps := by
  have : sep = sep' := funext fun c => propext (hiff c)
  subst this; exact h

theorem multisplit_splits (s : Str) :
    Splits Version.Spec.Sep s (multisplit s ['.', '-', '_']) := by
  have h1 := splitOn_splits '.' s
  have h2 := Splits.refine '-' h1
  have h3 := Splits.refine '_' h2
  have : multisplit s ['.', '-', '_'] =
      ((splitOn '.' s).flatMap (splitOn '-')).flatMap (splitOn '_') := by
    simp [multisplit]
  rw [this]
  exact Splits.congr (fun c => by simp [Version.Spec.Sep, or_assoc]) h3

theorem Splits.unique {sep : Char → Prop} {s : Str} {ps qs : List Str}
    (h : Splits sep s ps) (h' : Splits sep s qs) : ps = qs := by
  induction h generalizing qs with
  | last p hp =>
    cases h' with
    | last _ _ => rfl
    | cons q c t qs' hq hc ht => exact absurd hc (hp c (by simp))
  | cons p c s ps hp hc hs ih =>
    generalize hw : p ++ c :: s = w at h'
    cases h' with
    | last _ hq => exact absurd hc (hq c (by simp [← hw]))
    | cons q d t qs' hq hd ht =>
      rw [List.append_eq_append_iff] at hw
      rcases hw with ⟨a, ha, hb⟩ | ⟨a, ha, hb⟩
      · cases a with
        | nil =>
          simp at ha hb
          obtain ⟨rfl, rfl⟩ := hb
          rw [ha, ih ht]
        | cons x a =>
          simp at hb
          exact absurd (hb.1 ▸ hc) (hq x (by simp [ha]))
      · cases a with
        | nil =>
          simp at ha hb
          obtain ⟨rfl, rfl⟩ := hb
          rw [ha, ih ht]
        | cons x a =>
          simp at hb
          exact absurd (hb.1 ▸ hd) (hp x (by simp [ha]))

theorem isSpace_iff (c : Char) : isSpace c = true ↔ Space c := by
  simp [isSpace, Space]; constructor <;> (intro h; simpa [or_assoc] using h)

theorem dropWhile_append_left {α : Type} (p : α → Bool) (a b : List α) (ha : ∀ x ∈ a, p x = true) :
    (a ++ b).dropWhile p = b.dropWhile p := by
  induction a with
  | nil => rfl
  | cons x xs ih =>
    simp [ha x (by simp), ih (fun y hy => ha y (List.mem_cons_of_mem _ hy))]

theorem takeWhile_append_left {α : Type} (p : α → Bool) (a b : List α) (ha : ∀ x ∈ a, p x = true) :
    (a ++ b).takeWhile p = a ++ b.takeWhile p := by
  induction a with
  | nil => rfl
  | cons x xs ih =>
    simp [ha x (by simp), ih (fun y hy => ha y (List.mem_cons_of_mem _ hy))]

/-- A character whose class excludes `p` at the head stops `dropWhile`/`takeWhile`. -/
theorem dropWhile_none {α : Type} (p : α → Bool) (b : List α) (hb : ∀ x ∈ b, p x = false) :
    b.dropWhile p = b := by
  cases b with
  | nil => rfl
  | cons x xs => simp [hb x (by simp)]
theorem takeWhile_none {α : Type} (p : α → Bool) (b : List α) (hb : ∀ x ∈ b, p x = false) :
    b.takeWhile p = [] := by
  cases b with
  | nil => rfl
  | cons x xs => simp [hb x (by simp)]

theorem isDigit_iff (c : Char) : c.isDigit = true ↔ ∃ d, d < 10 ∧ c = Char.ofNat (48 + d) := by
  constructor
  · intro h
    simp only [Char.isDigit, Bool.and_eq_true, decide_eq_true_eq] at h
    obtain ⟨h1, h2⟩ := h
    have h1' : 48 ≤ c.toNat := UInt32.le_iff_toNat_le.mp h1
    have h2' : c.toNat ≤ 57 := UInt32.le_iff_toNat_le.mp h2
    refine ⟨c.toNat - 48, by omega, ?_⟩
    have : 48 + (c.toNat - 48) = c.toNat := by omega
    rw [this]; exact (Char.ofNat_toNat c).symm
  · rintro ⟨d, hd, rfl⟩
    have : ∀ d, d < 10 → (Char.ofNat (48 + d)).isDigit = true := by decide
    exact this d hd

theorem digitVal_ofNat (d : Nat) (hd : d < 10) : digitVal (Char.ofNat (48 + d)) = d := by
  have : ∀ d, d < 10 → digitVal (Char.ofNat (48 + d)) = d := by decide
  exact this d hd

theorem digitsVal_snoc (ds : Str) (c : Char) :
    digitsVal (ds ++ [c]) = 10 * digitsVal ds + digitVal c := by
  simp [digitsVal]

theorem decVal_iff (ds : Str) (n : Nat) :
    DecVal ds n ↔ (∀ c ∈ ds, c.isDigit = true) ∧ digitsVal ds = n := by
  constructor
  · intro h
    induction h with
    | nil => simp [digitsVal]
    | snoc ds n d hd _ ih =>
      refine ⟨?_, ?_⟩
      · intro c hc
        rcases List.mem_append.mp hc with hc | hc
        · exact ih.1 c hc
        · simp at hc; subst hc; exact (isDigit_iff _).mpr ⟨d, hd, rfl⟩
      · rw [digitsVal_snoc, ih.2, digitVal_ofNat d hd]
  · rintro ⟨h1, rfl⟩
    have key : ∀ l : Str, (∀ c ∈ l, c.isDigit = true) → DecVal l.reverse (digitsVal l.reverse) := by
      intro l
      induction l with
      | nil => intro _; exact DecVal.nil
      | cons c r ih =>
        intro h
        have h2 := ih (fun x hx => h x (by simp [hx]))
        obtain ⟨d, hd, hc⟩ := (isDigit_iff c).mp (h c (by simp))
        rw [List.reverse_cons, digitsVal_snoc, hc, digitVal_ofNat d hd]
        exact DecVal.snoc _ _ d hd h2
    have := key ds.reverse (by simpa using h1)
    simpa using this

theorem digit_not_space (c : Char) (h : c.isDigit = true) : isSpace c = false := by
  obtain ⟨d, hd, rfl⟩ := (isDigit_iff c).mp h
  have : ∀ d, d < 10 → isSpace (Char.ofNat (48 + d)) = false := by decide
  exact this d hd

theorem digit_not_sign (c : Char) (h : c.isDigit = true) : c ≠ '-' ∧ c ≠ '+' := by
  obtain ⟨d, hd, rfl⟩ := (isDigit_iff c).mp h
  have : ∀ d, d < 10 → (Char.ofNat (48 + d) ≠ '-' ∧ Char.ofNat (48 + d) ≠ '+') := by decide
  exact this d hd

theorem space_not_digit (c : Char) (h : isSpace c = true) : c.isDigit = false := by
  cases hd : c.isDigit with
  | false => rfl
  | true => rw [digit_not_space c hd] at h; simp at h

theorem pyInt_iff (s : Str) (z : Int) : pyInt s = some z ↔ Number s z := by
  constructor
  · intro h
    have hs : s = s.takeWhile isSpace ++ s.dropWhile isSpace := (List.takeWhile_append_dropWhile).symm
    have hw : ∀ c ∈ s.takeWhile isSpace, Space c := fun c hc =>
      (isSpace_iff c).mp (by have := List.all_takeWhile (p := isSpace) (l := s); exact List.all_eq_true.mp this c hc)
    generalize s.takeWhile isSpace = w₁ at hs hw
    simp only [pyInt] at h
    generalize s.dropWhile isSpace = t at hs h
    have core : ∀ (r : Str) (neg : Bool),
        (if (r.takeWhile Char.isDigit).isEmpty = true then none
         else if (r.dropWhile Char.isDigit).all isSpace = true then
           some (if neg = true then - (digitsVal (r.takeWhile Char.isDigit) : Int)
             else (digitsVal (r.takeWhile Char.isDigit) : Int))
         else none) = some z →
        ∃ (ds w₂ : Str) (n : Nat), r = ds ++ w₂ ∧ (∀ c ∈ w₂, Space c) ∧ ds ≠ [] ∧ DecVal ds n ∧
          z = (if neg = true then - (n : Int) else (n : Int)) := by
      intro r neg h
      split at h
      · simp at h
      · rename_i h1
        split at h
        · rename_i h2
          refine ⟨r.takeWhile Char.isDigit, r.dropWhile Char.isDigit, _,
            (List.takeWhile_append_dropWhile).symm, ?_, ?_, (decVal_iff _ _).mpr ⟨?_, rfl⟩, ?_⟩
          · intro c hc; exact (isSpace_iff c).mp (List.all_eq_true.mp h2 c hc)
          · simpa using h1
          · intro c hc
            exact List.all_eq_true.mp (List.all_takeWhile (p := Char.isDigit) (l := r)) c hc
          · simpa using h.symm
        · simp at h
    obtain ⟨ds, w₂, n, hr, hw2, hne, hd, hz⟩ := core _ _ h
    unfold takeSign at hr hz
    split at hr
    · exact ⟨w₁, ['-'], ds, w₂, n, by simp only at hr; rw [hs, hr]; simp, hw, hw2, hne, hd, by simp at hz; simp [hz]⟩
    · exact ⟨w₁, ['+'], ds, w₂, n, by simp only at hr; rw [hs, hr]; simp, hw, hw2, hne, hd, by simp at hz; simp [hz]⟩
    · rename_i h1 h2
      refine ⟨w₁, [], ds, w₂, n, by simp only at hr; rw [hs, hr]; simp, hw, hw2, hne, hd, ?_⟩
      split at hz
      · exact (h1 _ rfl).elim
      · exact (h2 _ rfl).elim
      · simp at hz; simp [hz]
  · rintro ⟨w₁, sg, ds, w₂, n, rfl, hw1, hw2, hne, hd, hz⟩
    obtain ⟨hdig, hval⟩ := (decVal_iff ds n).mp hd
    have hw1' : ∀ c ∈ w₁, isSpace c = true := fun c hc => (isSpace_iff c).mpr (hw1 c hc)
    have hw2' : ∀ c ∈ w₂, isSpace c = true := fun c hc => (isSpace_iff c).mpr (hw2 c hc)
    have hw2d : ∀ c ∈ w₂, c.isDigit = false := fun c hc => space_not_digit c (hw2' c hc)
    have htake : (ds ++ w₂).takeWhile Char.isDigit = ds := by
      rw [takeWhile_append_left _ _ _ hdig, takeWhile_none _ _ hw2d, List.append_nil]
    have hdrop : (ds ++ w₂).dropWhile Char.isDigit = w₂ := by
      rw [dropWhile_append_left _ _ _ hdig, dropWhile_none _ _ hw2d]
    have hall : w₂.all isSpace = true := List.all_eq_true.mpr hw2'
    cases ds with
    | nil => exact absurd rfl hne
    | cons d ds =>
      have hd0 := hdig d (by simp)
      have hsp := digit_not_space d hd0
      have hsg := digit_not_sign d hd0
      rcases hz with ⟨rfl, rfl⟩ | ⟨rfl, rfl⟩ | ⟨rfl, rfl⟩
      · have e1 : (w₁ ++ [] ++ (d :: ds) ++ w₂).dropWhile isSpace = (d :: ds) ++ w₂ := by
          rw [List.append_nil, List.append_assoc, dropWhile_append_left _ _ _ hw1']; simp [hsp]
        simp only [pyInt, e1]
        have : takeSign ((d :: ds) ++ w₂) = (false, (d :: ds) ++ w₂) := by
          simp only [List.cons_append]
          unfold takeSign
          split
          · rename_i h; simp at h; exact absurd h.1 hsg.1
          · rename_i h; simp at h; exact absurd h.1 hsg.2
          · rfl
        simp only [this, htake, hdrop, hall, hval]; simp
      · have e1 : (w₁ ++ ['+'] ++ (d :: ds) ++ w₂).dropWhile isSpace = '+' :: ((d :: ds) ++ w₂) := by
          rw [List.append_assoc, List.append_assoc, dropWhile_append_left _ _ _ hw1']
          simp [show isSpace '+' = false by decide]
        simp only [pyInt, e1, takeSign, htake, hdrop, hall, hval]; simp
      · have e1 : (w₁ ++ ['-'] ++ (d :: ds) ++ w₂).dropWhile isSpace = '-' :: ((d :: ds) ++ w₂) := by
          rw [List.append_assoc, List.append_assoc, dropWhile_append_left _ _ _ hw1']
          simp [show isSpace '-' = false by decide]
        simp only [pyInt, e1, takeSign, htake, hdrop, hall, hval]; simp

end Pisi
