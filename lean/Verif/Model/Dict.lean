/-!
# Finite maps

Persistent key/value stores of pisi (`DBShelf`, pisi/db/dbshelve.py) and Python dictionaries are modelled as
association lists.  The order of entries is never observable in the theorems.
-/
namespace Pisi

/-- Association list; the first entry of a key is the valid one. -/
abbrev Dict (κ ν : Type) := List (κ × ν)

set_option linter.unusedSectionVars false
namespace Dict
variable {κ ν : Type} [DecidableEq κ]

/-- `DBShelf.get`, pisi/db/dbshelve.py:199-209 (a missing key gives `None`). -/
def get : Dict κ ν → κ → Option ν
  | [], _ => none
  | (k', v) :: d, k => if k' = k then some v else get d k

/-- `DBShelf.has_key`, pisi/db/dbshelve.py:69-73. -/
def has (d : Dict κ ν) (k : κ) : Bool := (d.get k).isSome

/-- `DBShelf.delete`, pisi/db/dbshelve.py:111-114 (the caller guarantees presence). -/
def del (d : Dict κ ν) (k : κ) : Dict κ ν := d.filter (fun e => e.1 ≠ k)

/-- `DBShelf.put`, pisi/db/dbshelve.py:221-223. -/
def put (d : Dict κ ν) (k : κ) (v : ν) : Dict κ ν := (k, v) :: d.del k

/-- `DBShelf.keys`. -/
def keys (d : Dict κ ν) : List κ := d.map Prod.fst

@[simp] theorem get_nil (k : κ) : get ([] : Dict κ ν) k = none := rfl

theorem get_del (d : Dict κ ν) (k k' : κ) : (d.del k).get k' = if k = k' then none else d.get k' := by
  induction d with
  | nil => simp [del, get]
  | cons e d ih =>
    obtain ⟨a, v⟩ := e
    simp only [del, List.filter_cons] at ih ⊢
    by_cases ha : a = k
    · subst ha
      simp only [ne_eq, not_true_eq_false, decide_false, Bool.false_eq_true, if_false]
      rw [ih]
      by_cases h : a = k'
      · simp [h]
      · simp [h, get]
    · simp only [ne_eq, ha, not_false_eq_true, decide_true, if_true, get]
      rw [ih]
      by_cases h : a = k'
      · subst h
        have : k ≠ a := fun e => ha e.symm
        simp [this]
      · simp [h]

theorem get_put (d : Dict κ ν) (k k' : κ) (v : ν) :
    (d.put k v).get k' = if k = k' then some v else d.get k' := by
  simp only [put, get]
  by_cases h : k = k'
  · simp [h]
  · simp [h, get_del]

theorem mem_keys (d : Dict κ ν) (k : κ) : k ∈ d.keys ↔ (d.get k).isSome := by
  induction d with
  | nil => simp [keys, get]
  | cons e d ih =>
    obtain ⟨a, v⟩ := e
    simp only [keys, List.map_cons, List.mem_cons, get] at ih ⊢
    by_cases h : a = k
    · simp [h]
    · have : k ≠ a := fun e => h e.symm
      simp [h, this, ih]

/-- Every key occurs once. -/
def Uniq (d : Dict κ ν) : Prop := d.keys.Nodup

theorem keys_del (d : Dict κ ν) (k : κ) : (d.del k).keys = d.keys.filter (· ≠ k) := by
  simp [del, keys, List.filter_map, Function.comp_def]

theorem uniq_nil : Uniq ([] : Dict κ ν) := by simp [Uniq, keys]

theorem uniq_del {d : Dict κ ν} (h : d.Uniq) (k : κ) : (d.del k).Uniq := by
  unfold Uniq; rw [keys_del]; exact List.Nodup.sublist List.filter_sublist h

theorem uniq_put {d : Dict κ ν} (h : d.Uniq) (k : κ) (v : ν) : (d.put k v).Uniq := by
  unfold Uniq put
  simp only [keys, List.map_cons]
  refine List.nodup_cons.mpr ⟨?_, uniq_del h k⟩
  have := keys_del d k
  simp only [keys] at this
  rw [this]; simp

theorem mem_iff_get {d : Dict κ ν} (h : d.Uniq) (k : κ) (v : ν) : (k, v) ∈ d ↔ d.get k = some v := by
  induction d with
  | nil => simp [get]
  | cons e d ih =>
    obtain ⟨a, w⟩ := e
    simp only [Uniq, keys, List.map_cons, List.nodup_cons] at h
    simp only [List.mem_cons, Prod.mk.injEq, get]
    by_cases ha : a = k
    · subst ha
      simp only [true_and, if_true, Option.some.injEq]
      constructor
      · rintro (rfl | hm)
        · rfl
        · exact absurd (List.mem_map.mpr ⟨(a, v), hm, rfl⟩) h.1
      · intro e; exact Or.inl e.symm
    · simp only [ha, if_false]
      rw [← ih h.2]
      constructor
      · rintro (⟨e, _⟩ | hm)
        · exact absurd e.symm ha
        · exact hm
      · exact Or.inr

end Dict
end Pisi
