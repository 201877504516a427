import Mathlib.Data.List.Nodup
import Mathlib.Data.List.Perm.Subperm

/-! Small facts about lists. -/

namespace Pisi

theorem nodup_length_le {α : Type} {l l' : List α} (h : l.Nodup) (hs : ∀ x ∈ l, x ∈ l') :
    l.length ≤ l'.length :=
  (h.subperm hs).length_le

theorem snoc_induction {β : Type} {P : List β → Prop} (h0 : P []) (hs : ∀ l a, P l → P (l ++ [a])) (l : List β) :
    P l := by
  have : ∀ r : List β, P r.reverse := by
    intro r
    induction r with
    | nil => exact h0
    | cons a r ih => rw [List.reverse_cons]; exact hs _ _ ih
  have h := this l.reverse
  rwa [List.reverse_reverse] at h

theorem snoc_eq_append_cons {β : Type} {l pre post : List β} {a x : β} :
    l ++ [a] = pre ++ x :: post ↔
      (pre = l ∧ x = a ∧ post = []) ∨ ∃ post', post = post' ++ [a] ∧ l = pre ++ x :: post' := by
  constructor
  · intro h
    rcases List.eq_nil_or_concat post with rfl | ⟨q, b, rfl⟩
    · left
      have := List.append_inj' h rfl
      simp at this
      exact ⟨this.1.symm, this.2.symm, rfl⟩
    · right
      rw [List.concat_eq_append, ← List.cons_append, ← List.append_assoc] at h
      have := List.append_inj' h rfl
      simp at this
      refine ⟨q, by simp [this.2], by simpa using this.1⟩
  · rintro (⟨rfl, rfl, rfl⟩ | ⟨q, rfl, rfl⟩) <;> simp

end Pisi
