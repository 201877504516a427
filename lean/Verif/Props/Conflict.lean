import Verif.Model.Conflict
import Verif.Props.RemovePlan
import Verif.Props.Component

/-!
# C29, C30: conflicts
-/
set_option linter.unusedSectionVars false

namespace Pisi.Plan
open Pisi.DB Pisi.Graph Pisi.DBSpec
variable {α ρ : Type} [DecidableEq α]

/-- Package `x` of the repositories declares a conflict with `y`. -/
def DeclaresConflict (w : World α) (x y : α) : Prop := ∃ p, w.repo.get x = some p ∧ y ∈ p.conflicts

/-- `y` is installed and some package of the order conflicts with it. -/
def SystemConflict (w : World α) (order : List α) (y : α) : Prop :=
  w.isInstalled y = true ∧ ∃ x ∈ order, DeclaresConflict w x y

/-- `y` takes part in a conflict between members of the order. -/
def MutualConflict (w : World α) (order : List α) (y : α) : Prop :=
  y ∈ order ∧ ∃ z ∈ order, DeclaresConflict w y z ∨ DeclaresConflict w z y

theorem conflictLoop_spec (w : World α) (order : List α) (todo : List α) : ∀ (r : Conflicts α) (seen : List α),
    (∀ x ∈ todo, x ∈ order) → r.byPkg.Uniq →
    (∀ y, y ∈ r.system ↔ w.isInstalled y = true ∧ ∃ x ∈ seen, DeclaresConflict w x y) →
    (∀ y, y ∈ r.inner ↔ (y ∈ order ∧ ∃ x ∈ seen, DeclaresConflict w x y) ∨
      (y ∈ seen ∧ ∃ z ∈ order, DeclaresConflict w y z)) →
    (∀ x y, (∃ l, r.byPkg.get x = some l ∧ y ∈ l) ↔ x ∈ seen ∧ w.isInstalled y = true ∧ DeclaresConflict w x y) →
    (∀ x l, r.byPkg.get x = some l → l ≠ []) →
    (∀ x ∈ seen, ∃ p, w.repo.get x = some p) →
    match conflictLoop w order todo r with
    | .ok r' => r'.byPkg.Uniq ∧ (∀ x ∈ todo, ∃ p, w.repo.get x = some p) ∧
      (∀ y, y ∈ r'.system ↔ w.isInstalled y = true ∧ ∃ x ∈ seen ++ todo, DeclaresConflict w x y) ∧
      (∀ y, y ∈ r'.inner ↔ (y ∈ order ∧ ∃ x ∈ seen ++ todo, DeclaresConflict w x y) ∨
        (y ∈ seen ++ todo ∧ ∃ z ∈ order, DeclaresConflict w y z)) ∧
      (∀ x y, (∃ l, r'.byPkg.get x = some l ∧ y ∈ l) ↔
        x ∈ seen ++ todo ∧ w.isInstalled y = true ∧ DeclaresConflict w x y) ∧
      (∀ x l, r'.byPkg.get x = some l → l ≠ [])
    | .error e => ∃ x ∈ todo, w.repo.get x = none ∧ e = .notFound x := by
  induction todo with
  | nil => intro r seen _ hu h1 h2 h3 h4 _; simp only [conflictLoop, List.append_nil]; exact ⟨hu, by simp, h1, h2, h3, h4⟩
  | cons x xs ih =>
    intro r seen hsub hu h1 h2 h3 h4 h5
    simp only [conflictLoop]
    cases hx : w.repo.get x with
    | none =>
      have : w.getRepo x = .error (.notFound x) := by simp [World.getRepo, hx]
      simp only [this]
      exact ⟨x, by simp, hx, rfl⟩
    | some p =>
      have hg : w.getRepo x = .ok p := by simp [World.getRepo, hx]
      simp only [hg]
      have dx : ∀ y, DeclaresConflict w x y ↔ y ∈ p.conflicts := by
        intro y
        constructor
        · rintro ⟨q, hq, hy⟩; rw [hx] at hq; cases hq; exact hy
        · exact fun hy => ⟨p, hx, hy⟩
      have hbp : ∀ y, y ∈ (checkConflict w p).dedup ↔ w.isInstalled y = true ∧ y ∈ p.conflicts := by
        intro y; simp [checkConflict, and_comm]
      have hbi : ∀ y, y ∈ order.dedup.filter (· ∈ p.conflicts) ↔ y ∈ order ∧ y ∈ p.conflicts := by
        intro y; simp
      have key := ih (conflictStep w order x p r) (seen ++ [x]) (fun y hy => hsub y (by simp [hy])) ?_ ?_ ?_ ?_ ?_ ?_
      · cases hc : conflictLoop w order xs (conflictStep w order x p r) with
        | error e =>
          rw [hc] at key
          obtain ⟨y, hy, h⟩ := key
          exact ⟨y, by simp [hy], h⟩
        | ok r' =>
          rw [hc] at key
          simp only [List.append_assoc, List.singleton_append] at key
          refine ⟨key.1, fun y hy => ?_, key.2.2⟩
          rcases List.mem_cons.mp hy with rfl | hy
          · exact ⟨p, hx⟩
          · exact key.2.1 y hy
      all_goals (try simp only [conflictStep])
      · split <;> split <;> first | exact hu | exact Dict.uniq_put hu _ _
      · intro y
        have e1 : (∃ z ∈ seen ++ [x], DeclaresConflict w z y) ↔
            (∃ z ∈ seen, DeclaresConflict w z y) ∨ y ∈ p.conflicts := by
          simp [or_and_right, exists_or, dx]
        rw [e1]
        have e2 := h1 y
        have e3 := hbp y
        by_cases hb : (checkConflict w p).dedup = []
        · have : ¬ (w.isInstalled y = true ∧ y ∈ p.conflicts) := fun h => by
            rw [← e3, hb] at h; simp at h
          have goal : y ∈ r.system ↔ w.isInstalled y = true ∧ ((∃ z ∈ seen, DeclaresConflict w z y) ∨ y ∈ p.conflicts) := by
            rw [e2]
            constructor
            · exact fun ⟨a, b⟩ => ⟨a, Or.inl b⟩
            · rintro ⟨a, b | b⟩
              · exact ⟨a, b⟩
              · exact absurd ⟨a, b⟩ this
          rw [if_pos hb]; split <;> exact goal
        · rw [if_neg hb]
          have goal : y ∈ (r.system ++ (checkConflict w p).dedup).dedup ↔
              w.isInstalled y = true ∧ ((∃ z ∈ seen, DeclaresConflict w z y) ∨ y ∈ p.conflicts) := by
            rw [List.mem_dedup, List.mem_append, e2, e3, ← and_or_left]
          split <;> exact goal
      · intro y
        have e1 : (∃ z ∈ seen ++ [x], DeclaresConflict w z y) ↔
            (∃ z ∈ seen, DeclaresConflict w z y) ∨ y ∈ p.conflicts := by
          simp [or_and_right, exists_or, dx]
        rw [e1]
        have e2 := h2 y
        have e3 := hbi y
        have em : ∀ r1 : Conflicts α, r1.inner = r.inner →
            (y ∈ (if order.dedup.filter (· ∈ p.conflicts) = [] then r1 else
              { r1 with inner := (r1.inner ++ order.dedup.filter (· ∈ p.conflicts) ++ [x]).dedup }).inner ↔
            (y ∈ order ∧ ((∃ z ∈ seen, DeclaresConflict w z y) ∨ y ∈ p.conflicts)) ∨
            (y ∈ seen ++ [x] ∧ ∃ z ∈ order, DeclaresConflict w y z)) := by
          intro r1 hr1
          by_cases hb : order.dedup.filter (· ∈ p.conflicts) = []
          · rw [if_pos hb, hr1, e2]
            have n1 : ∀ z, z ∈ order → z ∈ p.conflicts → False := fun z a b => by
              have := (hbi z).mpr ⟨a, b⟩; rw [hb] at this; simp at this
            constructor
            · rintro (⟨a, b⟩ | ⟨a, b⟩)
              · exact Or.inl ⟨a, Or.inl b⟩
              · exact Or.inr ⟨by simp [a], b⟩
            · rintro (⟨a, b | b⟩ | ⟨a, z, hz, b⟩)
              · exact Or.inl ⟨a, b⟩
              · exact absurd (n1 y a b) id
              · rcases List.mem_append.mp a with a | a
                · exact Or.inr ⟨a, z, hz, b⟩
                · simp at a; subst a; exact absurd (n1 z hz ((dx z).mp b)) id
          · rw [if_neg hb]
            simp only [List.mem_dedup, List.mem_append, hr1, e2, e3, List.mem_singleton]
            obtain ⟨z, hz⟩ := List.exists_mem_of_ne_nil _ hb
            have hz' := (hbi z).mp hz
            constructor
            · rintro (((⟨a, b⟩ | ⟨a, b⟩) | ⟨a, b⟩) | rfl)
              · exact Or.inl ⟨a, Or.inl b⟩
              · exact Or.inr ⟨Or.inl a, b⟩
              · exact Or.inl ⟨a, Or.inr b⟩
              · exact Or.inr ⟨Or.inr rfl, z, hz'.1, (dx z).mpr hz'.2⟩
            · rintro (⟨a, b | b⟩ | ⟨a | a, b⟩)
              · exact Or.inl (Or.inl (Or.inl ⟨a, b⟩))
              · exact Or.inl (Or.inr ⟨a, b⟩)
              · exact Or.inl (Or.inl (Or.inr ⟨a, b⟩))
              · exact Or.inr a
        by_cases hb : (checkConflict w p).dedup = []
        · rw [if_pos hb]; exact em r rfl
        · rw [if_neg hb]; exact em _ rfl
      · intro a y
        have em : ∀ r1 : Conflicts α,
            (if order.dedup.filter (· ∈ p.conflicts) = [] then r1 else
              { r1 with inner := (r1.inner ++ order.dedup.filter (· ∈ p.conflicts) ++ [x]).dedup }).byPkg =
            r1.byPkg := by
          intro r1; split <;> rfl
        rw [em]
        by_cases hb : (checkConflict w p).dedup = []
        · rw [if_pos hb, h3 a y]
          constructor
          · rintro ⟨h, i, c⟩; exact ⟨by simp [h], i, c⟩
          · rintro ⟨h, i, c⟩
            rcases List.mem_append.mp h with h | h
            · exact ⟨h, i, c⟩
            · simp at h; subst h
              have := (hbp y).mpr ⟨i, (dx y).mp c⟩
              rw [hb] at this; simp at this
        · rw [if_neg hb]
          simp only [Dict.get_put]
          by_cases ha : x = a
          · subst ha
            simp only [if_true, Option.some.injEq, exists_eq_left', hbp, List.mem_append, List.mem_singleton, or_true,
              true_and, dx]
          · rw [if_neg ha, h3 a y]
            have : a ∈ seen ++ [x] ↔ a ∈ seen := by simp; exact fun h => absurd h.symm ha
            rw [this]
      · intro a l
        have em : ∀ r1 : Conflicts α,
            (if order.dedup.filter (· ∈ p.conflicts) = [] then r1 else
              { r1 with inner := (r1.inner ++ order.dedup.filter (· ∈ p.conflicts) ++ [x]).dedup }).byPkg =
            r1.byPkg := by
          intro r1; split <;> rfl
        rw [em]
        by_cases hb : (checkConflict w p).dedup = []
        · rw [if_pos hb]; exact h4 a l
        · rw [if_neg hb]
          simp only [Dict.get_put]
          by_cases ha : x = a
          · simp only [ha, if_true, Option.some.injEq]; rintro rfl; exact hb
          · rw [if_neg ha]; exact h4 a l
      · intro a ha
        rcases List.mem_append.mp ha with ha | ha
        · exact h5 a ha
        · simp at ha; subst ha; exact ⟨p, hx⟩

/-- **C29.** `calculate_conflicts` reports exactly: the installed packages some package of the order conflicts with,
the members of the order involved in a conflict inside the order, and for each member what it conflicts with. -/
theorem conflicts_exact (w : World α) (order : List α) (r : Conflicts α) (h : calculateConflicts w order = .ok r) :
    (∀ y, y ∈ r.system ↔ SystemConflict w order y) ∧ (∀ y, y ∈ r.inner ↔ MutualConflict w order y) ∧
    (∀ x y, (∃ l, r.byPkg.get x = some l ∧ y ∈ l) ↔ x ∈ order ∧ w.isInstalled y = true ∧ DeclaresConflict w x y) ∧
    (r.byPkg = [] ↔ ∀ y, ¬ SystemConflict w order y) := by
  have := conflictLoop_spec w order order {} [] (fun _ h => h) Dict.uniq_nil (by simp) (by simp) (by simp [Dict.get_nil])
    (by simp [Dict.get_nil]) (by simp)
  unfold calculateConflicts at h
  rw [h] at this
  simp only [List.nil_append] at this
  obtain ⟨u, _, a, b, c, d⟩ := this
  refine ⟨a, fun y => ?_, c, ?_⟩
  · rw [b]
    constructor
    · rintro (⟨h1, z, hz, h2⟩ | ⟨h1, z, hz, h2⟩)
      · exact ⟨h1, z, hz, Or.inr h2⟩
      · exact ⟨h1, z, hz, Or.inl h2⟩
    · rintro ⟨h1, z, hz, h2 | h2⟩
      · exact Or.inr ⟨h1, z, hz, h2⟩
      · exact Or.inl ⟨h1, z, hz, h2⟩
  · constructor
    · rintro he y ⟨hi, x, hx, hc⟩
      obtain ⟨l, hl, _⟩ := (c x y).mpr ⟨hx, hi, hc⟩
      rw [he] at hl; simp [Dict.get_nil] at hl
    · intro hn
      cases hr : r.byPkg with
      | nil => rfl
      | cons kv rest =>
        exfalso
        obtain ⟨k, v⟩ := kv
        have hg : r.byPkg.get k = some v := by rw [hr]; simp [Dict.get]
        have hv := d k v hg
        obtain ⟨y, hy⟩ := List.exists_mem_of_ne_nil _ hv
        obtain ⟨hx, hi, hc⟩ := (c k y).mp ⟨v, hg, hy⟩
        exact hn y ⟨hi, k, hx, hc⟩

/-- **C29.** The calculation fails exactly when a package of the order is in no repository. -/
theorem conflicts_total (w : World α) (order : List α) :
    (∃ r, calculateConflicts w order = .ok r) ↔ ∀ x ∈ order, ∃ p, w.repo.get x = some p := by
  have := conflictLoop_spec w order order {} [] (fun _ h => h) Dict.uniq_nil (by simp) (by simp) (by simp [Dict.get_nil])
    (by simp [Dict.get_nil]) (by simp)
  unfold calculateConflicts
  cases hc : conflictLoop w order order {} with
  | ok r => rw [hc] at this; exact ⟨fun _ => this.2.1, fun _ => ⟨r, rfl⟩⟩
  | error e =>
    rw [hc] at this
    obtain ⟨x, hx, hn, _⟩ := this
    constructor
    · intro h; obtain ⟨_, hr⟩ := h; cases hr
    · intro h
      obtain ⟨p, hp⟩ := h x hx
      rw [hn] at hp; cases hp

theorem isInstalled_without (w : World α) (l : List α) (x : α) :
    (w.without l).isInstalled x = true ↔ w.isInstalled x = true ∧ x ∉ l := by
  have : ∀ (l : List α) (d : Dict α InstRec), (l.foldl (fun d x => d.del x) d).has x = true ↔ d.has x = true ∧ x ∉ l := by
    intro l
    induction l with
    | nil => intro d; simp
    | cons a t ih =>
      intro d
      rw [List.foldl_cons, ih]
      simp only [Dict.has, Dict.get_del, List.mem_cons, not_or]
      by_cases h : a = x
      · simp [h]
      · have : x ≠ a := fun e => h e.symm
        simp [h, this]
  exact this l w.inst

/-- What `check_conflicts` decides, in terms of the conflicts alone: it refuses mutual conflicts, proceeds without
removing anything when there is none, and otherwise needs the user's consent. -/
theorem check_conflicts_decision (w : World α) (σ : Sched α) (o : RemoveOpts) (c : ItemDB α (Comp α)) (l : List Str)
    (sb : α) (agree : Bool) (order : List α) (hr : ∀ x ∈ order, ∃ p, w.repo.get x = some p) :
    ((∃ y, MutualConflict w order y) → ∃ ys, checkConflicts w σ o c l sb agree order = .error (.inner ys) ∧
      ∀ y, y ∈ ys ↔ MutualConflict w order y) ∧
    ((∀ y, ¬ MutualConflict w order y) → (∀ y, ¬ SystemConflict w order y) →
      checkConflicts w σ o c l sb agree order = .ok []) ∧
    ((∀ y, ¬ MutualConflict w order y) → (∃ y, SystemConflict w order y) → agree = false →
      checkConflicts w σ o c l sb agree order = .error .remain) := by
  obtain ⟨r, h⟩ := (conflicts_total w order).mpr hr
  obtain ⟨a, b, _, d⟩ := conflicts_exact w order r h
  have hm : r.inner = [] ↔ ∀ y, ¬ MutualConflict w order y := by
    rw [List.eq_nil_iff_forall_not_mem]; simp only [b]
  unfold checkConflicts
  simp only [h]
  refine ⟨fun ⟨y, hy⟩ => ?_, fun h1 h2 => ?_, fun h1 ⟨y, hy⟩ h3 => ?_⟩
  · have : r.inner ≠ [] := fun e => (hm.mp e) y hy
    rw [if_pos this]; exact ⟨_, rfl, b⟩
  · have e1 := hm.mpr h1
    rw [if_neg (by simp [e1]), if_pos (d.mpr h2)]
  · have e1 := hm.mpr h1
    have e2 : r.byPkg ≠ [] := fun e => d.mp e y hy
    rw [if_neg (by simp [e1]), if_neg e2, if_pos h3]

/-- C30, full statement: when `check_conflicts` lets the operation proceed outside a dry run, no installed package
conflicting with the order is left. -/
def ConflictsGone : Prop :=
  ∀ (w : World Nat) (σ : Sched Nat), σ.Legal → ∀ (o : RemoveOpts) (ops : List (SysOp Nat Nat)) (l : List Str) (sb : Nat)
    (agree : Bool) (order : List Nat) (removed : List Nat), (SysOp.run ops).repos.list = .ok l →
    checkConflicts w σ o (SysOp.run ops).stores.comp l sb agree order = .ok removed → o.dryRun = false →
    ∀ y, ¬ SystemConflict (w.without removed) order y

/-- The conflicting packages after component expansion: those that are no component names, and the packages of those
that are. -/
def ConflictExpansion (w : World α) (c : ItemDB α (Comp α)) (l : List Str) (order : List α) (x : α) : Prop :=
  (SystemConflict w order x ∧ ¬ IsComponent c l x) ∨
  ∃ y, SystemConflict w order y ∧ ∃ repo ∈ l, ∃ u, c.getItem [] y (.one (.repo repo)) = .ok u ∧ x ∈ u.packages

/-- `x` is a package of the component `sb` in a listed repository. -/
def InComponent (c : ItemDB α (Comp α)) (l : List Str) (sb x : α) : Prop :=
  ∃ repo ∈ l, ∃ u, c.getItem [] sb (.one (.repo repo)) = .ok u ∧ x ∈ u.packages

theorem removeCmd_confirm (w : World α) (σ : Sched α) (hσ : σ.Legal) (o : RemoveOpts) (base : Option (List α))
    (A : List α) : removeCmd w σ { o with ignoreDep := true, confirm := true } base A =
      removeCmd w σ { o with ignoreDep := true } base A := by
  have hr : removeRequest w { o with ignoreDep := true, confirm := true } base A =
      removeRequest w { o with ignoreDep := true } base A := rfl
  have hle : (removeRequest w { o with ignoreDep := true } base A).length ≤ A.length := by
    unfold removeRequest
    refine Nat.le_trans (List.length_filter_le _ _) ?_
    split
    · exact Nat.le_refl _
    · split
      · exact List.length_filter_le _ _
      · exact Nat.le_refl _
  unfold removeCmd
  simp only [hr, if_true]
  have : ¬ (σ.front (removeRequest w { o with ignoreDep := true } base A)).length > A.length := by
    rw [(hσ.front _).length_eq]; omega
  simp only [this, false_and]

/-- What `check_conflicts` removes, over any well-formed databases. -/
theorem check_conflicts_removed_of (w : World α) (σ : Sched α) (hσ : σ.Legal) (o : RemoveOpts) (yy : System α ρ)
    (l0 : List Str) (hy : SysOK yy l0) (sb : α) (agree : Bool) (order removed : List α)
    (h : checkConflicts w σ o yy.stores.comp l0 sb agree order = .ok removed) :
    (o.dryRun = true → removed = []) ∧ (o.dryRun = false → ∀ x, x ∈ removed ↔
      w.isInstalled x = true ∧ ConflictExpansion w yy.stores.comp l0 order x ∧
      (o.bypassSafety = true ∨ ¬ InComponent yy.stores.comp l0 sb x)) := by
  unfold checkConflicts at h
  cases hr : calculateConflicts w order with
  | error e => simp [hr] at h
  | ok r =>
    simp only [hr] at h
    obtain ⟨a, b, _, d⟩ := conflicts_exact w order r hr
    split at h
    · cases h
    · split at h
      · next hb =>
        cases h
        refine ⟨fun _ => rfl, fun _ x => ?_⟩
        have hn := d.mp hb
        simp only [List.not_mem_nil, false_iff]
        rintro ⟨_, ⟨hx, _⟩ | ⟨y, hx, _⟩, _⟩ <;> exact hn _ hx
      · split at h
        · cases h
        · obtain ⟨E, he, hE⟩ := expandWith_spec Comp.packages (Or.inl rfl) hy.wf.comp l0 hy.comp r.system
          simp only [he] at h
          have hE' : ∀ x, x ∈ E ↔ ConflictExpansion w yy.stores.comp l0 order x := by
            intro x; rw [hE]; simp only [InExpansion, ConflictExpansion, a]
          have fin : ∀ base, (∀ x, (o.bypassSafety = true ∨ ∀ b, base = some b → x ∉ b) ↔
                (o.bypassSafety = true ∨ ¬ InComponent yy.stores.comp l0 sb x)) →
              removeCmd w σ { o with ignoreDep := true } base E.dedup = .ok removed →
              (o.dryRun = true → removed = []) ∧ (o.dryRun = false → ∀ x, x ∈ removed ↔
                w.isInstalled x = true ∧ ConflictExpansion w yy.stores.comp l0 order x ∧
                (o.bypassSafety = true ∨ ¬ InComponent yy.stores.comp l0 sb x)) := by
            intro base hbase hrm
            refine ⟨(remove_cmd_installed_only w σ _ base _ removed hrm).2.1, fun hd x => ?_⟩
            have hrm' : removeCmd w σ { o with ignoreDep := true, confirm := true } base E.dedup = .ok removed := by
              rw [← hrm]; exact removeCmd_confirm w σ hσ o base _
            have := remove_cmd_exact w σ hσ { o with ignoreDep := true, confirm := true } base E.dedup (List.nodup_dedup _) rfl hd removed hrm' x
            rw [this]
            simp only [if_true, List.mem_dedup, hE']
            constructor
            · rintro ⟨hi, y, hy1, _, hy2, rfl⟩; exact ⟨hi, hy1, (hbase y).mp hy2⟩
            · rintro ⟨hi, h1, h2⟩; exact ⟨hi, x, h1, hi, (hbase x).mpr h2, rfl⟩
          obtain ⟨g1, g2⟩ := getUnionComp_spec hy.wf.comp l0 hy.comp sb
          by_cases hbs : o.bypassSafety = true
          · rw [if_pos hbs] at h
            simp only at h
            split at h
            · cases h
            · split at h
              · cases h
              · next hc => cases h; exact fin none (fun x => by simp [hbs]) hc
          · rw [if_neg hbs] at h
            unfold systemBase at h
            by_cases hk : yy.stores.comp.hasKey sb .repos = true
            · obtain ⟨u, hu, hp, _⟩ := g2 hk
              simp only [hk, if_true, hu] at h
              split at h
              · cases h
              · split at h
                · cases h
                · next hc =>
                  cases h
                  refine fin (some u.packages) (fun x => ?_) hc
                  simp only [Option.some.injEq, forall_eq', hp, InComponent]
            · simp only [hk] at h
              simp only [Bool.false_eq_true, if_false] at h
              split at h
              · cases h
              · split at h
                · cases h
                · next hc =>
                  cases h
                  refine fin none (fun x => ?_) hc
                  have : ¬ InComponent yy.stores.comp l0 sb x := by
                    rintro ⟨repo, hr, u, hu, _⟩; exact hk (g1.mpr ⟨repo, hr, u, hu⟩)
                  simp [this]

/-- What is removed when `check_conflicts` proceeds: nothing in a dry run, otherwise exactly the installed packages of the
expansion outside system.base (all of them if safety is bypassed). -/
theorem check_conflicts_removed (w : World α) (σ : Sched α) (hσ : σ.Legal) (o : RemoveOpts) (ops : List (SysOp α ρ))
    (l : List Str) (hl : (SysOp.run ops).repos.list = .ok l) (sb : α) (agree : Bool) (order removed : List α)
    (h : checkConflicts w σ o (SysOp.run ops).stores.comp l sb agree order = .ok removed) :
    (o.dryRun = true → removed = []) ∧ (o.dryRun = false → ∀ x, x ∈ removed ↔
      w.isInstalled x = true ∧ ConflictExpansion w (SysOp.run ops).stores.comp l order x ∧
      (o.bypassSafety = true ∨ ¬ InComponent (SysOp.run ops).stores.comp l sb x)) := by
  obtain ⟨l0, hy⟩ := sys_run ops
  have : l0 = l := by simp [RepoDB.list, hy.repos.order] at hl; exact hl
  subst this
  exact check_conflicts_removed_of w σ hσ o _ l0 hy sb agree order removed h

/-- System.base is component 9 and holds package 2. -/
def baseOps : List (SysOp Nat Nat) :=
  [.addRepo ['a'] 0 none, .updateRepo ['a'] { components := [(9, {})], packages := [mTwo], specs := [] }]

/-- Package 1 of the repository conflicts with the installed 2 and 3. -/
def confWorld : World Nat where
  repo := [(1, { version := ['1'], release := ['1'], conflicts := [2, 3, 7] })]
  inst := [(2, { version := ['1'], release := ['1'] }), (3, { version := ['1'], release := ['1'] })]
  track := [(2, { version := ['1'], release := ['1'] }), (3, { version := ['1'], release := ['1'] })]

/-- C30 fails: package 1 conflicts with 2 and 3; the safety switch refuses to remove 2, 3 is removed, and the
installation of 1 goes ahead with 2 installed. -/
theorem conflicts_gone_refuted : ¬ ConflictsGone := by
  intro h
  have hl : Sched.Legal (⟨id, id⟩ : Sched Nat) :=
    ⟨fun _ => List.Perm.refl _, fun _ => ⟨List.Perm.refl _, fun _ => List.Perm.refl _⟩⟩
  exact h confWorld ⟨id, id⟩ hl {} baseOps [['a']] 9 true [1] [3] rfl rfl rfl 2
    ⟨by decide, 1, by simp, _, rfl, by decide⟩

/-- C30 when safety is bypassed or no conflicting package is in system.base, and no conflicting package has the name of a
component: exactly the conflicting packages are removed, so none is left.  Missing for the full statement: the other
cases, in which it is false. -/
theorem conflicts_gone_partial (w : World α) (σ : Sched α) (hσ : σ.Legal) (o : RemoveOpts) (ops : List (SysOp α ρ))
    (l : List Str) (hl : (SysOp.run ops).repos.list = .ok l) (sb : α) (agree : Bool) (order removed : List α)
    (h : checkConflicts w σ o (SysOp.run ops).stores.comp l sb agree order = .ok removed) (hd : o.dryRun = false)
    (hb : o.bypassSafety = true ∨ ∀ y, SystemConflict w order y → ¬ InComponent (SysOp.run ops).stores.comp l sb y)
    (hc : ∀ y, SystemConflict w order y → ¬ IsComponent (SysOp.run ops).stores.comp l y) :
    (∀ x, x ∈ removed ↔ SystemConflict w order x) ∧ ∀ y, ¬ SystemConflict (w.without removed) order y := by
  have key : ∀ x, x ∈ removed ↔ SystemConflict w order x := by
    intro x
    rw [(check_conflicts_removed w σ hσ o ops l hl sb agree order removed h).2 hd]
    constructor
    · rintro ⟨hi, ⟨h1, _⟩ | ⟨y, h1, repo, hr, u, hu, _⟩, _⟩
      · exact h1
      · exact absurd ⟨repo, hr, u, hu⟩ (hc y h1)
    · intro hx
      exact ⟨hx.1, Or.inl ⟨hx, hc x hx⟩, hb.imp_right (fun h => h x hx)⟩
  refine ⟨key, fun y ⟨hi, x, hx, hdc⟩ => ?_⟩
  obtain ⟨h1, h2⟩ := (isInstalled_without w removed y).mp hi
  exact h2 ((key y).mpr ⟨h1, x, hx, hdc⟩)

/-! ## Non-vacuity -/
section Examples

example : ∃ r, calculateConflicts confWorld [1] = .ok r ∧ r.system = [2, 3] ∧ r.inner = [] := ⟨_, rfl, rfl, rfl⟩
example : MutualConflict { confWorld with repo := [(1, { version := ['1'], release := ['1'], conflicts := [2] }),
    (2, { version := ['1'], release := ['1'] })] } [2, 1] 2 := ⟨by simp, 1, by simp, Or.inr ⟨_, rfl, by simp⟩⟩
example : checkConflicts confWorld ⟨id, id⟩ { bypassSafety := true } (SysOp.run baseOps).stores.comp [['a']] 9 true [1] = .ok [2, 3] := rfl
example : checkConflicts confWorld ⟨id, id⟩ {} (SysOp.run ([] : List (SysOp Nat Nat))).stores.comp [] 9 true [1] = .ok [2, 3] := rfl

end Examples

end Pisi.Plan
