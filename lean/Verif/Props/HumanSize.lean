import Verif.Model.HumanSize
import Verif.Spec.HumanSize

/-! # C166: the size that is shown -/
namespace Pisi.Size
open Pisi.SizeSpec

/-- The four ranges. -/
theorem human_cases (n : Nat) : human n =
    if n ≤ 1000 then (n, 1, 0)
    else if n / 1024 ≤ 1000 then (n / 1024, 1, 1)
    else if n / 1024 ≤ 1000 * 1024 then (n / 1024, 1024, 2)
    else (n / 1024, 1024 * 1024, 3) := by
  unfold human
  simp only [loop]
  by_cases h1 : n ≤ 1000
  · rw [if_pos h1, if_neg (by omega)]
  · rw [if_neg h1, if_pos (by omega)]
    by_cases h2 : n / 1024 ≤ 1000
    · rw [if_pos h2, if_pos trivial, if_neg (by omega)]
    · rw [if_neg h2, if_pos trivial, if_pos (by omega), if_neg (by decide)]
      by_cases h3 : n / 1024 ≤ 1000 * 1024
      · rw [if_pos h3, if_neg (by omega)]
      · rw [if_neg h3, if_pos (by omega), if_neg (by decide)]

/-- The hundredths are off by half of one at most. -/
theorem cents_near (num den : Nat) (hd : 0 < den) :
    2 * (cents num den * den) ≤ 2 * (100 * num) + den ∧ 2 * (100 * num) ≤ 2 * (cents num den * den) + den := by
  unfold cents
  have hq := Nat.div_add_mod (100 * num) den
  have hm := Nat.mod_lt (100 * num) hd
  generalize 100 * num / den = q at *
  generalize 100 * num % den = r at *
  generalize 100 * num = a at *
  subst hq
  have hc : den * q = q * den := Nat.mul_comm _ _
  by_cases h1 : 2 * r < den
  · rw [if_pos h1]; omega
  · rw [if_neg h1]
    by_cases h2 : den < 2 * r
    · rw [if_pos h2, Nat.add_mul, Nat.one_mul]; omega
    · rw [if_neg h2]
      have : q % 2 = 0 ∨ q % 2 = 1 := by omega
      rcases this with h | h <;> rw [h]
      · rw [Nat.add_zero]; omega
      · rw [Nat.add_mul, Nat.one_mul]; omega

theorem cents_one (num : Nat) : cents num 1 = 100 * num := by
  unfold cents
  rw [Nat.mod_one]
  simp

/-- More is not shown as less in the same unit. -/
theorem cents_mono (a b den : Nat) (hd : 0 < den) (h : a ≤ b) : cents a den ≤ cents b den := by
  have ha := Nat.div_add_mod (100 * a) den
  have hb := Nat.div_add_mod (100 * b) den
  have hma := Nat.mod_lt (100 * a) hd
  have hmb := Nat.mod_lt (100 * b) hd
  have hq : 100 * a / den ≤ 100 * b / den := Nat.div_le_div_right (by omega)
  unfold cents
  generalize 100 * a / den = qa at *
  generalize 100 * b / den = qb at *
  generalize 100 * a % den = ra at *
  generalize 100 * b % den = rb at *
  rcases Nat.eq_or_lt_of_le hq with he | hl
  · subst he
    have hr : ra ≤ rb := by omega
    split
    · split
      · omega
      · split <;> omega
    · split
      · split
        · omega
        · split <;> omega
      · split
        · omega
        · split <;> omega
  · have h1 : (if 2 * ra < den then qa else if den < 2 * ra then qa + 1 else qa + qa % 2) ≤ qa + 1 := by
      split
      · omega
      · split <;> omega
    have h2 : qb ≤ (if 2 * rb < den then qb else if den < 2 * rb then qb + 1 else qb + qb % 2) := by
      split
      · omega
      · split <;> omega
    omega

/-- What is wanted: the amount before an installation is that of the packages, with an error of one percent at most. -/
def TotalFull : Prop := ∀ sizes : List Nat, ∃ x h, total (sizes.map some) = some x ∧ Means x h ∧ Close h sizes.sum

/-- The amount shown for `n` bytes, in hundredths of bytes. -/
def shown (n : Nat) : Nat := match human n with
  | (num, den, d) => cents num den * 1024 ^ d

theorem sum_some (sizes : List Nat) : sum (sizes.map some) = some sizes.sum := by
  induction sizes with
  | nil => rfl
  | cons n l ih => rw [List.map_cons, sum, ih, List.sum_cons]; rfl

theorem total_means (sizes : List Nat) : ∃ x, total (sizes.map some) = some x ∧ Means x (shown sizes.sum) := by
  unfold total shown
  rw [sum_some, human_cases]
  generalize sizes.sum = n
  refine ⟨_, rfl, ?_⟩
  dsimp only
  rw [human_cases]
  have u : ∀ k d v : Nat, unit (symbol d) = some v → v = 1024 ^ d → Means (k, symbol d) (k * 1024 ^ d) :=
    fun k d v h h' => ⟨v, h, by rw [h']⟩
  by_cases h1 : n ≤ 1000
  · rw [if_pos h1]; exact u _ 0 _ (by decide) rfl
  · rw [if_neg h1]
    by_cases h2 : n / 1024 ≤ 1000
    · rw [if_pos h2]; exact u _ 1 _ (by decide) rfl
    · rw [if_neg h2]
      by_cases h3 : n / 1024 ≤ 1000 * 1024
      · rw [if_pos h3]; exact u _ 2 _ (by decide) rfl
      · rw [if_neg h3]; exact u _ 3 _ (by decide) rfl

/-- C166: it is so up to a thousand bytes and from a megabyte on (1 025 024 bytes, to be precise); between them the amount is that of the
whole kilobytes, which may be almost one too low. -/
theorem total_partial (sizes : List Nat) : ∃ x h, total (sizes.map some) = some x ∧ Means x h ∧
    (sizes.sum ≤ 1000 → h = 100 * sizes.sum) ∧
    (1000 < sizes.sum → sizes.sum < 1001 * 1024 → h = 100 * (1024 * (sizes.sum / 1024))) ∧
    (1001 * 1024 ≤ sizes.sum → Close h sizes.sum) := by
  obtain ⟨x, hx, hm⟩ := total_means sizes
  refine ⟨x, shown sizes.sum, hx, hm, ?_⟩
  generalize sizes.sum = n
  unfold shown Close
  rw [human_cases]
  refine ⟨fun h => ?_, fun h h' => ?_, fun h => ?_⟩
  · rw [if_pos h]; dsimp only; rw [cents_one]; omega
  · rw [if_neg (by omega), if_pos (by omega)]; dsimp only; rw [cents_one]; omega
  · rw [if_neg (by omega), if_neg (by omega)]
    by_cases h3 : n / 1024 ≤ 1000 * 1024
    · rw [if_pos h3]
      dsimp only
      have := cents_near (n / 1024) 1024 (by omega)
      generalize cents (n / 1024) 1024 = k at *
      omega
    · rw [if_neg h3]
      dsimp only
      have := cents_near (n / 1024) (1024 * 1024) (by omega)
      generalize cents (n / 1024) (1024 * 1024) = k at *
      omega

/-- A kilobyte less one byte is shown as nothing. -/
theorem total_refuted : ¬ TotalFull := by
  intro h
  obtain ⟨x, y, h1, ⟨u, -, hx⟩, hc⟩ := h [1023]
  rw [show total ([1023].map some) = some (0, ['K', 'B']) by decide] at h1
  cases h1
  simp only [Nat.zero_mul] at hx
  subst hx
  exact absurd hc.2 (by decide)

/-- Where the index does not have the size of one of the packages, nothing is shown, nor installed: `TypeError`. -/
theorem total_unknown (sizes : List (Option Nat)) : total sizes = none ↔ none ∈ sizes := by
  unfold total
  rw [Option.map_eq_none_iff]
  induction sizes with
  | nil => simp [sum]
  | cons x l ih =>
    cases x with
    | none => simp [sum]
    | some n => simp [sum, ih]

/-- Not even a comparison can be relied on: a thousand bytes look like more than a thousand and one. -/
theorem shown_order : shown 1001 < shown 1000 := by decide

/-- These are the only ones: apart from the sizes from 1001 to 1023, more is never shown as less. -/
theorem shown_mono (n m : Nat) (h : n ≤ m) (hm : m ≤ 1000 ∨ 1024 ≤ m) : shown n ≤ shown m := by
  unfold shown
  rw [human_cases n, human_cases m]
  by_cases m1 : m ≤ 1000
  · rw [if_pos m1, if_pos (by omega)]
    dsimp only
    rw [cents_one, cents_one]; omega
  rw [if_neg m1]
  have hq : n / 1024 ≤ m / 1024 := Nat.div_le_div_right h
  generalize hb : m / 1024 = b at *
  have hb1 : 1 ≤ b := by omega
  by_cases n1 : n ≤ 1000
  · rw [if_pos n1]
    dsimp only
    rw [cents_one]
    by_cases m2 : b ≤ 1000
    · rw [if_pos m2]; dsimp only; rw [cents_one]; omega
    · rw [if_neg m2]
      by_cases m3 : b ≤ 1000 * 1024
      · rw [if_pos m3]; dsimp only
        have := cents_near b 1024 (by omega)
        generalize cents b 1024 = k at *
        omega
      · rw [if_neg m3]; dsimp only
        have := cents_near b (1024 * 1024) (by omega)
        generalize cents b (1024 * 1024) = k at *
        omega
  rw [if_neg n1]
  generalize n / 1024 = a at *
  by_cases n2 : a ≤ 1000
  · rw [if_pos n2]
    dsimp only
    rw [cents_one]
    by_cases m2 : b ≤ 1000
    · rw [if_pos m2]; dsimp only; rw [cents_one]; omega
    · rw [if_neg m2]
      by_cases m3 : b ≤ 1000 * 1024
      · rw [if_pos m3]; dsimp only
        have := cents_near b 1024 (by omega)
        generalize cents b 1024 = k at *
        omega
      · rw [if_neg m3]; dsimp only
        have := cents_near b (1024 * 1024) (by omega)
        generalize cents b (1024 * 1024) = k at *
        omega
  rw [if_neg n2, if_neg (by omega : ¬ b ≤ 1000)]
  by_cases n3 : a ≤ 1000 * 1024
  · rw [if_pos n3]
    by_cases m3 : b ≤ 1000 * 1024
    · rw [if_pos m3]
      exact Nat.mul_le_mul_right _ (cents_mono a b 1024 (by omega) hq)
    · rw [if_neg m3]
      dsimp only
      have := cents_near b (1024 * 1024) (by omega)
      have h1 := cents_mono a (1000 * 1024) 1024 (by omega) n3
      rw [show cents (1000 * 1024) 1024 = 100000 by decide] at h1
      generalize cents b (1024 * 1024) = k at *
      generalize cents a 1024 = j at *
      omega
  · rw [if_neg n3, if_neg (by omega)]
    exact Nat.mul_le_mul_right _ (cents_mono a b (1024 * 1024) (by omega) hq)

example : total [some 1500000, some 700] = some (143, ['M', 'B']) ∧ total [some 2047] = some (100, ['K', 'B']) ∧ total [some (10 ^ 13)] = some (931323, ['G', 'B']) := by
  decide

end Pisi.Size
