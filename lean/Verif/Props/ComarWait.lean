import Verif.Model.ComarWait

/-!
# C239: waiting for COMAR
-/
namespace Pisi.ComarWait

/-- The time of an attempt. -/
def time (takes : Nat → Nat) : Nat → Nat
  | 0 => 0
  | i + 1 => time takes i + 200 + takes i

/-- `timeout` at an attempt. -/
def timeoutAt : Nat → Int
  | 0 => five
  | i + 1 => less (timeoutAt i)

/-- C239: `fifth` is the double nearest to 0.2. -/
theorem fifth_nearest : 2 ^ 52 ≤ fifth ∧ fifth < 2 ^ 53 ∧ ∀ m : Int, (5 * fifth - 2 ^ 55).natAbs ≤ (5 * m - 2 ^ 55).natAbs := by
  unfold fifth
  exact ⟨by omega, by omega, fun m => by omega⟩

/-- C239: rounding gives a number of 53 digits, one of the nearest, and of two that are as near the even one. -/
theorem roundNat_nearest (n : Nat) : (n < 2 ^ 53 → roundNat n = n) ∧ (2 ^ 53 ≤ n → ∃ k q, n.log2 = k + 52 ∧ roundNat n = q * 2 ^ k ∧
    2 * roundNat n ≤ 2 * n + 2 ^ k ∧ 2 * n ≤ 2 * roundNat n + 2 ^ k ∧
    ((2 * roundNat n = 2 * n + 2 ^ k ∨ 2 * n = 2 * roundNat n + 2 ^ k) → q % 2 = 0)) := by
  refine ⟨fun h => if_pos h, fun h => ?_⟩
  have hl : 53 ≤ n.log2 := (Nat.le_log2 (by omega)).2 h
  unfold roundNat
  rw [if_neg (by omega)]
  simp only
  generalize hk : n.log2 - 52 = k
  have hP : 0 < 2 ^ k := Nat.two_pow_pos k
  have hd := Nat.div_add_mod n (2 ^ k)
  have hr := Nat.mod_lt n hP
  generalize n / 2 ^ k = q at hd ⊢
  generalize n % 2 ^ k = r at hd hr ⊢
  rw [Nat.mul_comm] at hd
  have hs : (q + 1) * 2 ^ k = q * 2 ^ k + 2 ^ k := Nat.succ_mul ..
  generalize ha : q * 2 ^ k = A at hd hs
  by_cases c1 : 2 * r < 2 ^ k
  · exact ⟨k, q, by omega, by simp only [if_pos c1], by simp only [if_pos c1]; omega, by simp only [if_pos c1]; omega,
      by simp only [if_pos c1]; omega⟩
  · by_cases c2 : 2 ^ k < 2 * r
    · exact ⟨k, q + 1, by omega, by simp only [if_neg c1, if_pos c2], by simp only [if_neg c1, if_pos c2]; omega,
        by simp only [if_neg c1, if_pos c2]; omega, by simp only [if_neg c1, if_pos c2]; omega⟩
    · by_cases c3 : q % 2 = 0
      · exact ⟨k, q, by omega, by simp only [if_neg c1, if_neg c2, if_pos c3], by simp only [if_neg c1, if_neg c2, if_pos c3]; omega,
          by simp only [if_neg c1, if_neg c2, if_pos c3]; omega, by simp only [if_neg c1, if_neg c2, if_pos c3]; omega⟩
      · exact ⟨k, q + 1, by omega, by simp only [if_neg c1, if_neg c2, if_neg c3],
          by simp only [if_neg c1, if_neg c2, if_neg c3]; omega, by simp only [if_neg c1, if_neg c2, if_neg c3]; omega,
          by simp only [if_neg c1, if_neg c2, if_neg c3]; omega⟩

/-- C239: the new value of `timeout` is the difference rounded, on both sides of zero. -/
theorem less_round (t : Int) : (fifth ≤ t → less t = roundNat (t - fifth).toNat) ∧
    (t < fifth → less t = -(roundNat (fifth - t).toNat)) := by
  constructor
  · intro h
    obtain ⟨n, hn⟩ := Int.eq_ofNat_of_zero_le (Int.sub_nonneg.2 h)
    simp only [less, hn]
    rfl
  · intro h
    unfold less
    cases hn : t - fifth with
    | ofNat n => exfalso; have : (Int.ofNat n) = (n : Int) := rfl; omega
    | negSucc n =>
      have e : (fifth - t).toNat = n + 1 := by have := Int.negSucc_eq n; omega
      rw [e]
      rfl

/-- The value of `timeout` stays above zero for 25 attempts. -/
theorem timeout_pos : ∀ i : Fin 25, 0 < timeoutAt i := by decide +kernel

theorem timeout_end : timeoutAt 25 ≤ 0 := by decide +kernel

theorem wait_det {up : Nat → Bool} {takes : Nat → Nat} {i at_ : Nat} {t : Int} {r r' : Bool} {n n' e e' : Nat}
    (h : Wait up takes i at_ t r n e) (h' : Wait up takes i at_ t r' n' e') : r = r' ∧ n = n' ∧ e = e' := by
  induction h with
  | over h1 =>
    cases h' with
    | over => exact ⟨rfl, rfl, rfl⟩
    | hit h2 => omega
    | miss h2 => omega
  | hit h1 h2 =>
    cases h' with
    | over => omega
    | hit => exact ⟨rfl, rfl, rfl⟩
    | miss _ h3 => rw [h2] at h3; cases h3
  | miss h1 h2 _ ih =>
    cases h' with
    | over => omega
    | hit _ h3 => rw [h2] at h3; cases h3
    | miss _ _ h4 => exact ih h4

/-- From an attempt on that all before have missed. -/
theorem wait_from {up : Nat → Bool} {takes : Nat → Nat} (j : Nat) : ∀ i, i + j = 25 →
    (∃ k, i ≤ k ∧ k < 25 ∧ up (time takes k) = true ∧ (∀ m, i ≤ m → m < k → up (time takes m) = false) ∧
      Wait up takes i (time takes i) (timeoutAt i) true (k + 1) (time takes k)) ∨
    ((∀ m, i ≤ m → m < 25 → up (time takes m) = false) ∧
      Wait up takes i (time takes i) (timeoutAt i) false 25 (time takes 25)) := by
  induction j with
  | zero =>
    intro i hi
    have : i = 25 := by omega
    subst this
    exact .inr ⟨fun m h1 h2 => by omega, .over timeout_end⟩
  | succ j ih =>
    intro i hi
    have hp : 0 < timeoutAt i := timeout_pos ⟨i, by omega⟩
    cases hu : up (time takes i) with
    | true => exact .inl ⟨i, Nat.le_refl _, by omega, hu, fun m h1 h2 => by omega, .hit hp hu⟩
    | false =>
      have before : ∀ m, i ≤ m → (i + 1 ≤ m → up (time takes m) = false) → up (time takes m) = false := by
        intro m h1 h2
        by_cases e : m = i
        · rw [e]; exact hu
        · exact h2 (by omega)
      rcases ih (i + 1) (by omega) with ⟨k, h1, h2, h3, h4, h5⟩ | ⟨h1, h2⟩
      · exact .inl ⟨k, by omega, h2, h3, fun m a b => before m a (fun c => h4 m c b), .miss hp hu h5⟩
      · exact .inr ⟨fun m a b => before m a (fun c => h1 m c b), .miss hp hu h2⟩

/-- C239: `wait_comar` always returns. It returns `True` at the first of 25 attempts that succeeds, and `False` after 25 attempts if
none does. -/
theorem wait_comar_exact (up : Nat → Bool) (takes : Nat → Nat) (r : Bool) (n e : Nat) : WaitComar up takes r n e ↔
    (r = true ∧ ∃ k < 25, n = k + 1 ∧ e = time takes k ∧ up (time takes k) = true ∧ ∀ m < k, up (time takes m) = false) ∨
    (r = false ∧ n = 25 ∧ e = time takes 25 ∧ ∀ m < 25, up (time takes m) = false) := by
  constructor
  · intro h
    rcases wait_from (up := up) (takes := takes) 25 0 rfl with ⟨k, _, h2, h3, h4, h5⟩ | ⟨h1, h2⟩
    · obtain ⟨rfl, rfl, rfl⟩ := wait_det h h5
      exact .inl ⟨rfl, k, h2, rfl, rfl, h3, fun m hm => h4 m (Nat.zero_le _) hm⟩
    · obtain ⟨rfl, rfl, rfl⟩ := wait_det h h2
      exact .inr ⟨rfl, rfl, rfl, fun m hm => h1 m (Nat.zero_le _) hm⟩
  · rintro (⟨rfl, k, hk, rfl, rfl, hu, hm⟩ | ⟨rfl, rfl, rfl, hm⟩)
    · rcases wait_from (up := up) (takes := takes) 25 0 rfl with ⟨k', _, h2, h3, h4, h5⟩ | ⟨h1, _⟩
      · have : k = k' := by
          rcases Nat.lt_trichotomy k k' with h | h | h
          · rw [h4 k (Nat.zero_le _) h] at hu; cases hu
          · exact h
          · rw [hm k' h] at h3; cases h3
        subst this
        exact h5
      · rw [h1 k (Nat.zero_le _) hk] at hu; cases hu
    · rcases wait_from (up := up) (takes := takes) 25 0 rfl with ⟨k', _, h2, h3, _, _⟩ | ⟨_, h2⟩
      · rw [hm k' h2] at h3; cases h3
      · exact h2

/-- C239: it always returns, with one result. -/
theorem wait_comar_total (up : Nat → Bool) (takes : Nat → Nat) : ∃ r n e, WaitComar up takes r n e ∧
    ∀ r' n' e', WaitComar up takes r' n' e' → r' = r ∧ n' = n ∧ e' = e := by
  rcases wait_from (up := up) (takes := takes) 25 0 rfl with ⟨k, _, _, _, _, h⟩ | ⟨_, h⟩
  · exact ⟨_, _, _, h, fun _ _ _ h' => wait_det h' h⟩
  · exact ⟨_, _, _, h, fun _ _ _ h' => wait_det h' h⟩

theorem time_ge (takes : Nat → Nat) (i : Nat) : 200 * i ≤ time takes i := by
  induction i with
  | zero => exact Nat.le_refl _
  | succ i ih => simp only [time]; omega

/-- C239: COMAR is found if it is back, for good, within 4.8 seconds, however long the attempts take. -/
theorem back_in_time_partial (up : Nat → Bool) (takes : Nat → Nat) (T : Nat) (hT : T ≤ 4800) (hu : ∀ t, T ≤ t → up t = true)
    (r : Bool) (n e : Nat) (h : WaitComar up takes r n e) : r = true := by
  rcases (wait_comar_exact up takes r n e).1 h with ⟨h1, _⟩ | ⟨_, _, _, h4⟩
  · exact h1
  · have := h4 24 (by omega)
    rw [hu _ (by have := time_ge takes 24; omega)] at this
    cases this

/-- C239: `True` is returned only if COMAR could be reached at that moment, and `False` not before five seconds. -/
theorem wait_comar_honest (up : Nat → Bool) (takes : Nat → Nat) (r : Bool) (n e : Nat) (h : WaitComar up takes r n e) :
    (r = true → up e = true) ∧ (r = false → 5000 ≤ e) := by
  rcases (wait_comar_exact up takes r n e).1 h with ⟨rfl, k, _, _, rfl, h4, _⟩ | ⟨rfl, _, rfl, _⟩
  · exact ⟨fun _ => h4, fun h => (by cases h)⟩
  · exact ⟨fun h => (by cases h), fun _ => time_ge takes 25⟩

/-- C239: it makes at most 25 attempts, and ends within five seconds and what the attempts take. -/
theorem wait_comar_soon (up : Nat → Bool) (takes : Nat → Nat) (b : Nat) (hb : ∀ i, takes i ≤ b) (r : Bool) (n e : Nat)
    (h : WaitComar up takes r n e) : n ≤ 25 ∧ e ≤ 25 * (200 + b) := by
  have key : ∀ i, time takes i ≤ i * (200 + b) := by
    intro i
    induction i with
    | zero => exact Nat.zero_le _
    | succ i ih => simp only [time, Nat.succ_mul]; have := hb i; omega
  rcases (wait_comar_exact up takes r n e).1 h with ⟨_, k, hk, rfl, rfl, _⟩ | ⟨_, rfl, rfl, _⟩
  · exact ⟨hk, Nat.le_trans (key k) (Nat.mul_le_mul_right _ (by omega))⟩
  · exact ⟨Nat.le_refl _, key 25⟩

/-- What one would want: COMAR is found if it is back within the five seconds. -/
def BackFull : Prop := ∀ (up : Nat → Bool) (takes : Nat → Nat) (T : Nat), T ≤ 5000 → (∀ t, T ≤ t → up t = true) →
  ∀ r n e, WaitComar up takes r n e → r = true

/-- C239, refuted: after the last sleep there is no attempt any more. -/
theorem back_refuted : ¬ BackFull := by
  intro h
  have := h (fun t => decide (4900 ≤ t)) (fun _ => 0) 4900 (by omega) (fun t ht => by simpa using ht) false 25
    (time (fun _ => 0) 25) ((wait_comar_exact _ _ _ _ _).2 (.inr ⟨rfl, rfl, rfl, fun m hm => ?_⟩))
  · cases this
  · have : ∀ m, time (fun _ => 0) m = 200 * m := by
      intro m
      induction m with
      | zero => rfl
      | succ m ih => simp only [time, ih]; omega
    simp only [this, decide_eq_false_iff_not]
    omega

/-- It is back after one second: the sixth attempt finds it. -/
example : WaitComar (fun t => decide (1000 ≤ t)) (fun _ => 0) true 6 1000 :=
  (wait_comar_exact _ _ _ _ _).2 (.inl ⟨rfl, 5, by omega, rfl, rfl, rfl, by decide⟩)

/-- The last value of `timeout` is not zero but less than it by a rounding error. -/
example : timeoutAt 25 = -78 ∧ timeoutAt 1 = 5 * 2 ^ 55 - fifth - 6 := by decide +kernel

end Pisi.ComarWait
