import Verif.Spec.Build
import Verif.Lemmas.ListAux
import Verif.Props.ConfigFiles

/-!
# Build numbers (C44) and staged builds (C45, C46)
-/
namespace Pisi.Build
open Pisi.Path Pisi.PkgName Pisi.FS

/-! ## C44 -/

theorem changedLoop_iff : ∀ (o n : List (Str × Option Str)), o.length = n.length → (changedLoop o n = false ↔ o = n)
  | [], [], _ => by simp [changedLoop]
  | [], _ :: _, h => by simp at h
  | _ :: _, [], h => by simp at h
  | fo :: o, fn :: n, h => by
    have ih := changedLoop_iff o n (by simpa using h)
    unfold changedLoop
    by_cases h1 : fo.1 = fn.1
    · by_cases h2 : fo.2 = fn.2
      · rw [if_neg (by simpa using h1), if_neg (by simpa using h2), ih]
        have : fo = fn := Prod.ext h1 h2
        simp [this]
      · rw [if_neg (by simpa using h1), if_pos h2]
        constructor
        · intro h; cases h
        · intro h; cases h; exact absurd rfl h2
    · rw [if_pos h1]
      constructor
      · intro h; cases h
      · intro h; cases h; exact absurd rfl h1

theorem sortPaths_sorted (l : List (Str × Option Str)) :
    (sortPaths l).Pairwise (fun a b => strLe a.1 b.1 = true) :=
  List.pairwise_mergeSort (fun a b c => strLe_trans a.1 b.1 c.1)
    (fun a b => by simpa using strLe_total a.1 b.1) l

/-- Two file lists without repeated paths count as unchanged exactly when they have the same paths with the same
hashes. -/
theorem changed_iff (old new : List (Str × Option Str)) (ho : (old.map (·.1)).Nodup) :
    changed old new = false ↔ old.Perm new := by
  have po : (sortPaths old).Perm old := List.mergeSort_perm old _
  have pn : (sortPaths new).Perm new := List.mergeSort_perm new _
  unfold changed
  by_cases hl : new.length = old.length
  · rw [if_neg (by simpa using hl),
      changedLoop_iff _ _ (by rw [po.length_eq, pn.length_eq, hl])]
    constructor
    · intro h; exact po.symm.trans (h ▸ pn)
    · intro h
      refine List.Perm.eq_of_pairwise (le := fun a b => strLe a.1 b.1 = true) ?_ (sortPaths_sorted old)
        (sortPaths_sorted new) (po.trans (h.trans pn.symm))
      intro a b ha hb hab hba
      have e1 := strLe_antisymm _ _ hab hba
      have ha' := po.mem_iff.1 ha
      have hb' := h.mem_iff.2 (pn.mem_iff.1 hb)
      exact List.inj_on_of_nodup_map ho ha' hb' e1
  · rw [if_pos hl]
    constructor
    · intro h; cases h
    · intro h; exact absurd h.length_eq.symm hl

theorem last_max (a : List (Nat × List (Str × Option Str))) (x : Nat × List (Str × Option Str))
    (h : (a.mergeSort (fun x y => decide (x.1 ≤ y.1))).getLast? = some x) : x ∈ a ∧ ∀ y ∈ a, y.1 ≤ x.1 := by
  have hp := List.mergeSort_perm a (fun x y => decide (x.1 ≤ y.1))
  have hs := List.pairwise_mergeSort (le := fun (x y : Nat × List (Str × Option Str)) => decide (x.1 ≤ y.1))
    (fun a b c h1 h2 => by simp at *; omega) (fun a b => by simp; omega) a
  refine ⟨hp.mem_iff.1 (List.mem_of_getLast? h), fun y hy => ?_⟩
  obtain ⟨l, hl⟩ := List.getLast?_eq_some_iff.1 h
  rw [hl] at hs hp
  have hy' := hp.mem_iff.2 hy
  rcases List.mem_append.1 hy' with h1 | h1
  · have := (List.pairwise_append.1 hs).2.2 y h1 x (by simp)
    simpa using this
  · simp only [List.mem_singleton] at h1
    subst h1; exact Nat.le_refl _

theorem candidates_iff (entries : List (Str × Option OldPkg)) (name : Str) (b : Nat) (fs : List (Str × Option Str)) :
    (b, fs) ∈ (entries.filterMap (locate name)).filterMap (fun p => p.build.map (fun b => (b, p.files))) ↔
      OldBuild entries name b fs := by
  simp only [List.mem_filterMap, OldBuild]
  constructor
  · rintro ⟨p, ⟨⟨fn, o⟩, he, hl⟩, hp⟩
    unfold locate at hl
    by_cases hn : isPackageName fn name = true
    · rw [if_pos hn] at hl
      cases o with
      | none => simp at hl
      | some q =>
        by_cases hq : q.name = name
        · simp only [hq, ne_eq, not_true_eq_false, if_false, Option.some.injEq] at hl
          subst hl
          cases q with
          | mk qn qb qf =>
            cases qb with
            | none => simp at hp
            | some b' =>
              simp only [Option.map_some, Option.some.injEq, Prod.mk.injEq] at hp
              obtain ⟨rfl, rfl⟩ := hp
              cases hq
              exact ⟨fn, he, hn⟩
        · simp [hq] at hl
    · rw [if_neg hn] at hl; cases hl
  · rintro ⟨fn, he, hn⟩
    exact ⟨⟨name, some b, fs⟩, ⟨(fn, some ⟨name, some b, fs⟩), he, by simp [locate, hn]⟩, rfl⟩

/-- C44: without an old package that has a build number the new one is 1; otherwise there is an old package with the
highest build number such that the new number is that one if the files are the same and exceeds it by one if not. -/
theorem build_no (entries : List (Str × Option OldPkg)) (name : Str) (new : List (Str × Option Str))
    (hold : ∀ b fs, OldBuild entries name b fs → (fs.map (·.1)).Nodup) :
    ((∀ b fs, ¬ OldBuild entries name b fs) ∧ calcBuildNo entries name new = (1, none)) ∨
    ∃ b fs, OldBuild entries name b fs ∧ (∀ b' fs', OldBuild entries name b' fs' → b' ≤ b) ∧
      ((fs.Perm new ∧ calcBuildNo entries name new = (b, some b)) ∨
       (¬ fs.Perm new ∧ calcBuildNo entries name new = (b + 1, some b))) := by
  unfold calcBuildNo
  simp only
  cases hx : (((entries.filterMap (locate name)).filterMap (fun p => p.build.map (fun b => (b, p.files)))).mergeSort
      (fun x y => decide (x.1 ≤ y.1))).getLast? with
  | none =>
    left
    refine ⟨fun b fs h => ?_, rfl⟩
    have hm := (candidates_iff entries name b fs).2 h
    rw [List.getLast?_eq_none_iff] at hx
    have hp := List.mergeSort_perm ((entries.filterMap (locate name)).filterMap
      (fun p => p.build.map (fun b => (b, p.files)))) (fun x y => decide (x.1 ≤ y.1))
    rw [hx] at hp
    exact absurd (hp.mem_iff.2 hm) (by simp)
  | some x =>
    right
    obtain ⟨b, fs⟩ := x
    obtain ⟨hm, hmax⟩ := last_max _ _ hx
    have hb := (candidates_iff entries name b fs).1 hm
    refine ⟨b, fs, hb, fun b' fs' h' => hmax (b', fs') ((candidates_iff entries name b' fs').2 h'), ?_⟩
    have hc := changed_iff fs new (hold b fs hb)
    by_cases hp : fs.Perm new
    · left; exact ⟨hp, by simp [hc.2 hp]⟩
    · right
      refine ⟨hp, ?_⟩
      have : changed fs new = true := by
        cases h : changed fs new with
        | true => rfl
        | false => exact absurd (hc.1 h) hp
      simp [this]

/-- C44: the new build number is at least every build number found. -/
theorem build_no_ge (entries : List (Str × Option OldPkg)) (name : Str) (new : List (Str × Option Str)) (b : Nat)
    (fs : List (Str × Option Str)) (h : OldBuild entries name b fs) : b ≤ (calcBuildNo entries name new).1 := by
  have hm := (candidates_iff entries name b fs).2 h
  unfold calcBuildNo
  simp only
  cases hx : (((entries.filterMap (locate name)).filterMap (fun p => p.build.map (fun b => (b, p.files)))).mergeSort
      (fun x y => decide (x.1 ≤ y.1))).getLast? with
  | none =>
    rw [List.getLast?_eq_none_iff] at hx
    have hp := List.mergeSort_perm ((entries.filterMap (locate name)).filterMap
      (fun p => p.build.map (fun b => (b, p.files)))) (fun x y => decide (x.1 ≤ y.1))
    rw [hx] at hp
    exact absurd (hp.mem_iff.2 hm) (by simp)
  | some x =>
    have := (last_max _ _ hx).2 _ hm
    simp only at this
    by_cases hc : changed x.2 new = true
    · simp [hc]; omega
    · simp [hc]; exact this

/-- Three packages, the second of which is of another package; the files are those of build 3 in another order, so the
number stays, or one of them has another hash, so the number is 4. -/
example :
    let fn (n : Nat) : Str := packageName ['a'] ['1'] ['2'] (some n)
    let es : List (Str × Option OldPkg) :=
      [(fn 3, some ⟨['a'], some 3, [(['x'], none), (['y'], some ['h'])]⟩),
       (packageName ['a', 'b'] ['1'] ['2'] (some 7), some ⟨['a', 'b'], some 7, []⟩),
       (fn 1, some ⟨['a'], some 1, []⟩)]
    calcBuildNo es ['a'] [(['y'], some ['h']), (['x'], none)] = (3, some 3) ∧
    calcBuildNo es ['a'] [(['y'], some ['k']), (['x'], none)] = (4, some 3) := by
  intro fn es
  have h : (es.filterMap (locate ['a'])).filterMap (fun p => p.build.map (fun b => (b, p.files)))
      = [(3, [(['x'], none), (['y'], some ['h'])]), (1, [])] := by decide +kernel
  constructor <;>
  · unfold calcBuildNo
    simp only [h]
    simp [List.mergeSort, List.MergeSort.Internal.splitInTwo, changed, sortPaths, strLe, changedLoop]

/-! ## C45, C46: the build directory between requests -/

/-- The state file does not claim more than was done. -/
def StateOk (c : Cfg) (w : World) : Prop :=
  ∀ j, 1 ≤ j → j ≤ 5 → w.state = some (stageName j) → ∃ l, w.tree = some l ∧ Ready c j l

def TreeOk (c : Cfg) (w : World) : Prop := ∀ l, w.tree = some l → Ordered c l

def AtLeast (c : Cfg) (k : Nat) (w : World) : Prop :=
  StateOk c w ∧ TreeOk c w ∧ ∃ l, w.tree = some l ∧ Ready c k l

theorem ready_append (c : Cfg) (k : Nat) (l m : List Ev) (h : Ready c k l) : Ready c k (l ++ m) :=
  ⟨h.1.trans (List.prefix_append _ _), h.2.trans (List.sublist_append_left _ _)⟩

theorem range'_sublist (a : Nat) {m n : Nat} (h : m ≤ n) : (List.range' a m).Sublist (List.range' a n) := by
  obtain ⟨d, rfl⟩ := Nat.exists_eq_add_of_le h
  rw [← List.range'_append (s := a) (m := m) (n := d) (step := 1)]
  exact List.sublist_append_left _ _

theorem ready_le (c : Cfg) {j k : Nat} (h : j ≤ k) (l : List Ev) (hr : Ready c k l) : Ready c j l :=
  ⟨hr.1, ((range'_sublist 2 (by omega)).map _).trans hr.2⟩

theorem ready_snoc (c : Cfg) (k : Nat) (hk : 2 ≤ k) (l : List Ev) (h : Ready c (k - 1) l) :
    Ready c k (l ++ [.phase k]) := by
  refine ⟨h.1.trans (List.prefix_append _ _), ?_⟩
  obtain ⟨m, rfl⟩ : ∃ m, k = m + 2 := ⟨k - 2, by omega⟩
  have e : List.range' 2 (m + 2 - 1) = List.range' 2 (m + 2 - 1 - 1) ++ [m + 2] := by
    have : m + 2 - 1 = m + 1 := by omega
    rw [this, List.range'_concat]
    simp [Nat.add_comm]
  rw [e, List.map_append]
  exact h.2.append (List.Sublist.refl _)

theorem ordered_nil (c : Cfg) : Ordered c [] := by
  intro a k b h
  cases a <;> cases h

theorem ordered_phase (c : Cfg) (k : Nat) (l : List Ev) (h : Ordered c l) (hr : Ready c (k - 1) l) :
    Ordered c (l ++ [.phase k]) := by
  intro a j b e
  rcases snoc_eq_append_cons.1 e with ⟨rfl, e, _⟩ | ⟨b', _, e⟩
  · cases e; exact hr
  · exact h a j b' e

theorem ordered_other (c : Cfg) (x : Ev) (hx : ∀ k, x ≠ .phase k) (l : List Ev) (h : Ordered c l) :
    Ordered c (l ++ [x]) := by
  intro a j b e
  rcases snoc_eq_append_cons.1 e with ⟨_, e, _⟩ | ⟨b', _, e⟩
  · exact absurd e.symm (hx j)
  · exact h a j b' e

/-- Whether a build may stop before this step. -/
def SafeStep (c : Cfg) (s : Step) : Prop := SafeRest c [s]

theorem safeRest_cons (c : Cfg) (s : Step) (r : List Step) : SafeRest c (s :: r) ↔ SafeStep c s := by
  unfold SafeStep
  cases s with
  | ev e => cases e <;> exact Iff.rfl
  | _ => exact Iff.rfl

/-- Running the steps from `w` goes through directories whose source is in order and, where it may stop, whose state
file is right; it ends, if no step fails, in a directory satisfying `Q`. -/
def WP (c : Cfg) (Q : World → Prop) : List Step → World → Prop
  | [], w => Q w
  | s :: r, w => TreeOk c w ∧ (SafeStep c s → StateOk c w) ∧ (s.fails c w = false → WP c Q r (s.apply w))

theorem wp_append (c : Cfg) (Q : World → Prop) (a b : List Step) (w : World) (h : WP c (WP c Q b) a w) :
    WP c Q (a ++ b) w := by
  induction a generalizing w with
  | nil => exact h
  | cons s r ih => exact ⟨h.1, h.2.1, fun hf => ih _ (h.2.2 hf)⟩

theorem wp_mono (c : Cfg) (P Q : World → Prop) (hPQ : ∀ w, P w → Q w) (l : List Step) (w : World) (h : WP c P l w) :
    WP c Q l w := by
  induction l generalizing w with
  | nil => exact hPQ w h
  | cons s r ih => exact ⟨h.1, h.2.1, fun hf => ih _ (h.2.2 hf)⟩

theorem wp_run (c : Cfg) (Q : World → Prop) (hQ : ∀ w, Q w → StateOk c w ∧ TreeOk c w) (n : Nat) (l : List Step)
    (w : World) (h : WP c Q l w) :
    TreeOk c (runSteps c n l w).1 ∧ (SafeRest c (runSteps c n l w).2 → StateOk c (runSteps c n l w).1) ∧
      ((runSteps c n l w).2 = [] → Q (runSteps c n l w).1) := by
  induction n generalizing l w with
  | zero =>
    cases l with
    | nil => exact ⟨(hQ _ h).2, fun _ => (hQ _ h).1, fun _ => h⟩
    | cons s r => exact ⟨h.1, fun hs => h.2.1 ((safeRest_cons c s r).1 hs), fun e => by cases e⟩
  | succ n ih =>
    cases l with
    | nil => exact ⟨(hQ _ h).2, fun _ => (hQ _ h).1, fun _ => h⟩
    | cons s r =>
      unfold runSteps
      by_cases hf : s.fails c w = true
      · rw [if_pos hf]
        exact ⟨h.1, fun hs => h.2.1 ((safeRest_cons c s r).1 hs), fun e => by cases e⟩
      · rw [if_neg hf]
        exact ih r _ (h.2.2 (by simpa using hf))

/-! ### The parts of a build -/

theorem stageName_prefix : ∀ k, 1 ≤ k → k ≤ 5 → ∀ i, i < (stageName k).length → ∀ j, 1 ≤ j → j ≤ 5 →
    (stageName k).take i ≠ stageName j := by
  intro k h1 h5 i hi j hj1 hj5
  have hk : k = 1 ∨ k = 2 ∨ k = 3 ∨ k = 4 ∨ k = 5 := by omega
  have hj : j = 1 ∨ j = 2 ∨ j = 3 ∨ j = 4 ∨ j = 5 := by omega
  rcases hk with rfl | rfl | rfl | rfl | rfl <;> rcases hj with rfl | rfl | rfl | rfl | rfl <;>
    (revert i; decide +kernel)

theorem stageName_inj : ∀ j k, 1 ≤ j → j ≤ 5 → 1 ≤ k → k ≤ 5 → stageName j = stageName k → j = k := by
  intro j k hj1 hj5 hk1 hk5
  have hk : k = 1 ∨ k = 2 ∨ k = 3 ∨ k = 4 ∨ k = 5 := by omega
  have hj : j = 1 ∨ j = 2 ∨ j = 3 ∨ j = 4 ∨ j = 5 := by omega
  rcases hk with rfl | rfl | rfl | rfl | rfl <;> rcases hj with rfl | rfl | rfl | rfl | rfl <;> decide +kernel

theorem wp_writes (c : Cfg) (Q : World → Prop) (cs : List Str) (last : Str) (w : World) (hw : StateOk c w)
    (ht : TreeOk c w) (hcs : ∀ s ∈ cs, ∀ j, 1 ≤ j → j ≤ 5 → s ≠ stageName j) (hQ : Q ⟨some last, w.tree⟩) :
    WP c Q ((cs ++ [last]).map Step.write) w := by
  induction cs generalizing w with
  | nil => exact ⟨ht, fun _ => hw, fun _ => hQ⟩
  | cons s r ih =>
    refine ⟨ht, fun _ => hw, fun _ => ih ⟨some s, w.tree⟩ ?_ ht (fun t h => hcs t (List.mem_cons_of_mem _ h)) hQ⟩
    intro j h1 h5 e
    exact absurd (Option.some.inj e) (hcs s (List.mem_cons_self ..) j h1 h5)

theorem wp_mark (c : Cfg) (Q : World → Prop) (k : Nat) (h1 : 1 ≤ k) (h5 : k ≤ 5) (w : World) (hw : StateOk c w)
    (ht : TreeOk c w) (hQ : Q ⟨some (stageName k), w.tree⟩) : WP c Q (mark k) w := by
  have e : mark k = ((List.range (stageName k).length).map (fun i => (stageName k).take i) ++ [stageName k]).map
      Step.write := by
    unfold mark
    rw [List.range_succ]
    simp
  rw [e]
  refine wp_writes c Q _ _ w hw ht ?_ hQ
  intro s hs
  obtain ⟨i, hi, rfl⟩ := List.mem_map.1 hs
  exact stageName_prefix k h1 h5 i (List.mem_range.1 hi)

theorem atLeast_le (c : Cfg) {j k : Nat} (h : j ≤ k) (w : World) (hw : AtLeast c k w) : AtLeast c j w :=
  ⟨hw.1, hw.2.1, hw.2.2.imp fun l hl => ⟨hl.1, ready_le c h l hl.2⟩⟩

theorem atLeast_of_state (c : Cfg) (k : Nat) (h1 : 1 ≤ k) (h5 : k ≤ 5) (l : List Ev) (hr : Ready c k l)
    (ho : Ordered c l) : AtLeast c k ⟨some (stageName k), some l⟩ := by
  refine ⟨fun j j1 j5 e => ?_, fun m hm => by cases hm; exact ho, l, rfl, hr⟩
  have := stageName_inj j k j1 j5 h1 h5 (Option.some.inj e).symm
  subst this
  exact ⟨l, rfl, hr⟩

theorem stateOk_ev (c : Cfg) (w : World) (e : Ev) (h : StateOk c w) : StateOk c ((Step.ev e).apply w) := by
  intro j h1 h5 hs
  obtain ⟨l, hl, hr⟩ := h j h1 h5 hs
  exact ⟨l ++ [e], by simp [Step.apply, hl], ready_append c j l _ hr⟩

theorem wp_action (c : Cfg) (k : Nat) (h2 : 2 ≤ k) (h5 : k ≤ 5) (w : World) (h : AtLeast c (k - 1) w) :
    WP c (AtLeast c k) (actionSteps k) w := by
  obtain ⟨hs, ht, l, hl, hr⟩ := h
  have hap : (Step.ev (.phase k)).apply w = ⟨w.state, some (l ++ [.phase k])⟩ := by simp [Step.apply, hl]
  have ho := ordered_phase c k l (ht l hl) hr
  refine ⟨ht, fun _ => hs, fun _ => ?_⟩
  have hs' := stateOk_ev c w (.phase k) hs
  rw [hap] at hs' ⊢
  refine wp_mark c _ k (by omega) h5 _ hs' (fun m hm => by cases hm; exact ho) ?_
  exact atLeast_of_state c k (by omega) h5 _ (ready_snoc c k h2 l hr) ho

theorem wp_patches (c : Cfg) (Q : World → Prop) (ps : List Nat) (l : List Ev) (st : Option Str) (ho : Ordered c l)
    (hQ : ∀ l', Ordered c l' → l' = l ++ ps.map Ev.patch → Q ⟨st, some l'⟩) :
    WP c Q ((ps.map Ev.patch).map Step.ev) ⟨st, some l⟩ := by
  induction ps generalizing l with
  | nil => exact hQ l ho (by simp)
  | cons p ps ih =>
    refine ⟨fun m hm => by cases hm; exact ho, fun h => absurd h (by simp [SafeStep, SafeRest]), fun _ => ?_⟩
    have ho' := ordered_other c (.patch p) (fun k h => by cases h) l ho
    exact ih (l ++ [.patch p]) ho' (fun l' h1 h2 => hQ l' h1 (by rw [h2]; simp))

theorem stateOk_none (c : Cfg) (t : Option (List Ev)) : StateOk c ⟨none, t⟩ := fun _ _ _ h => by cases h

theorem wp_clean (c : Cfg) (Q : World → Prop) (w : World) (hs : StateOk c w) (ht : TreeOk c w) (hQ : Q ⟨none, none⟩) :
    WP c Q (clean c) w := by
  unfold clean
  by_cases hc : c.stateFirst = true
  · rw [if_pos hc]
    exact ⟨ht, fun _ => hs, fun _ => ⟨ht, fun _ => stateOk_none c _, fun _ => hQ⟩⟩
  · rw [if_neg hc]
    exact ⟨ht, fun _ => hs, fun _ => ⟨fun l h => (by cases h), fun h => absurd h hc, fun _ => hQ⟩⟩

theorem stateOk_no_stage (c : Cfg) (st : Option Str) (t : Option (List Ev))
    (h : ∀ j, 1 ≤ j → j ≤ 5 → st ≠ some (stageName j)) : StateOk c ⟨st, t⟩ :=
  fun j h1 h5 e => absurd e (h j h1 h5)

theorem wp_extract (c : Cfg) (w : World) (hs : StateOk c w) (ht : TreeOk c w) (hn : w.tree = none ∨ c.norootdir = true) :
    WP c (AtLeast c 1) ([.extract] ++ mark 1 ++ (patchList c).map .ev) w := by
  rw [List.append_assoc]
  refine ⟨ht, fun _ => hs, fun hf => ?_⟩
  have hnone : w.tree = none := by
    rcases hn with h | h
    · exact h
    · simp [Step.fails, h] at hf
      exact hf
  have hst : ∀ j, 1 ≤ j → j ≤ 5 → w.state ≠ some (stageName j) := by
    intro j h1 h5 e
    obtain ⟨l, hl, _⟩ := hs j h1 h5 e
    rw [hnone] at hl; cases hl
  have ho := ordered_nil c
  refine wp_append c _ _ _ _ ?_
  refine wp_mark c _ 1 (by omega) (by omega) _ (stateOk_no_stage c _ _ hst)
    (fun m hm => by cases hm; exact ho) ?_
  refine wp_patches c _ (List.range c.patches) [] _ ho ?_
  intro l' ho' e
  refine atLeast_of_state c 1 (by omega) (by omega) l' ⟨?_, by simp⟩ ho'
  rw [e]; simp

theorem wp_unpack (c : Cfg) (w : World) (hs : StateOk c w) (ht : TreeOk c w) :
    WP c (AtLeast c 1) (unpackSteps c) w := by
  unfold unpackSteps
  by_cases hn : c.norootdir = true
  · rw [if_pos hn]
    exact wp_extract c w hs ht (Or.inr hn)
  · rw [if_neg hn, List.append_assoc, List.append_assoc]
    refine wp_append c _ _ _ _ (wp_clean c _ w hs ht ?_)
    have := wp_extract c ⟨none, none⟩ (stateOk_none c none) (fun l h => by cases h) (Or.inl rfl)
    rwa [List.append_assoc] at this

theorem wp_packs (c : Cfg) (ps : List Nat) (w : World) (h : AtLeast c 5 w) :
    WP c (AtLeast c 5) (ps.flatMap (fun i => .ev (.pack i) :: mark 5)) w := by
  induction ps generalizing w with
  | nil => exact h
  | cons p ps ih =>
    rw [List.flatMap_cons]
    obtain ⟨hs, ht, l, hl, hr⟩ := h
    have hap : (Step.ev (.pack p)).apply w = ⟨w.state, some (l ++ [.pack p])⟩ := by simp [Step.apply, hl]
    have ho := ordered_other c (.pack p) (fun k h => by cases h) l (ht l hl)
    refine wp_append c _ _ _ _ ⟨ht, fun _ => hs, fun _ => ?_⟩
    have hs' := stateOk_ev c w (.pack p) hs
    rw [hap] at hs' ⊢
    refine wp_mark c _ 5 (by omega) (by omega) _ hs' (fun m hm => by cases hm; exact ho) ?_
    exact ih _ (atLeast_of_state c 5 (by omega) (by omega) _ (ready_append c 5 l _ hr) ho)

/-- At the end of a request for the stage `k`: the source has been through it, unless the directory was cleaned in the
end. -/
def Reached (c : Cfg) (k : Nat) (w : World) : Prop :=
  StateOk c w ∧ TreeOk c w ∧ (k < 5 ∨ c.autoclean = false → ∃ l, w.tree = some l ∧ Ready c k l)

theorem wp_packages (c : Cfg) (w : World) (h : AtLeast c 4 w) : WP c (Reached c 5) (packageSteps c) w := by
  obtain ⟨hs, ht, l, hl, hr⟩ := h
  have hap : (Step.ev (.phase 5)).apply w = ⟨w.state, some (l ++ [.phase 5])⟩ := by simp [Step.apply, hl]
  have ho := ordered_phase c 5 l (ht l hl) hr
  have hs' := stateOk_ev c w (.phase 5) hs
  refine ⟨ht, fun _ => hs, fun _ => ?_⟩
  rw [hap] at hs' ⊢
  refine wp_append c _ _ _ _ ?_
  refine wp_mono c (AtLeast c 5) _ ?_ _ _ (wp_packs c _ _
    ⟨hs', fun m hm => by cases hm; exact ho, _, rfl, ready_snoc c 5 (by omega) l hr⟩)
  rintro w' ⟨ws, wt, wl⟩
  by_cases ha : c.autoclean = true
  · rw [if_pos ha]
    refine wp_clean c _ w' ws wt ⟨stateOk_none c _, fun l h => (by cases h), fun h => ?_⟩
    rcases h with h | h
    · omega
    · rw [ha] at h; cases h
  · rw [if_neg ha]
    exact ⟨ws, wt, fun _ => wl⟩

/-! ### Requests -/

theorem orderOf_some (s : Str) (k : Nat) (h : orderOf s = some k) : k ≤ 5 ∧ s = stageName k := by
  unfold orderOf at h
  cases hf : order.find? (fun p => p.1 = s) with
  | none => rw [hf] at h; cases h
  | some p =>
    rw [hf] at h
    have h1 := List.find?_some hf
    have h2 := List.mem_of_find?_eq_some hf
    simp only [decide_eq_true_eq] at h1
    cases h
    subst h1
    simp only [order, List.mem_cons, List.not_mem_nil, or_false] at h2
    rcases h2 with rfl | rfl | rfl | rfl | rfl | rfl <;> exact ⟨by decide, rfl⟩

theorem orderOf_stageName (k : Nat) (h : k ≤ 5) : orderOf (stageName k) = some k := by
  have hk : k = 0 ∨ k = 1 ∨ k = 2 ∨ k = 3 ∨ k = 4 ∨ k = 5 := by omega
  rcases hk with rfl | rfl | rfl | rfl | rfl | rfl <;> decide +kernel

theorem stageName_zero_ne (k : Nat) (h1 : 1 ≤ k) (h5 : k ≤ 5) : stageName 0 ≠ stageName k := by
  have hk : k = 1 ∨ k = 2 ∨ k = 3 ∨ k = 4 ∨ k = 5 := by omega
  rcases hk with rfl | rfl | rfl | rfl | rfl <;> decide +kernel

theorem lastState_stage (w : World) (k : Nat) (h : orderOf (lastState w) = some k) (h1 : 1 ≤ k) :
    w.state = some (stageName k) := by
  obtain ⟨h5, e⟩ := orderOf_some _ _ h
  have hz := stageName_zero_ne k h1 h5
  unfold lastState at e
  cases hw : w.state with
  | none => rw [hw] at e; exact absurd e hz
  | some s =>
    rw [hw] at e
    cases s with
    | nil => exact absurd e hz
    | cons x xs => exact congrArg some e

theorem atLeast_last (c : Cfg) (w : World) (hs : StateOk c w) (ht : TreeOk c w) (k : Nat)
    (h : orderOf (lastState w) = some k) (h1 : 1 ≤ k) : AtLeast c k w :=
  ⟨hs, ht, hs k h1 (orderOf_some _ _ h).1 (lastState_stage w k h h1)⟩

theorem wp_setupTo (c : Cfg) (w : World) (hs : StateOk c w) (ht : TreeOk c w) (k : Nat) (h : 1 ≤ k → AtLeast c k w) :
    WP c (AtLeast c 2) (setupTo c k) w := by
  refine wp_append c _ _ _ _ ?_
  by_cases hk : k < 1
  · rw [if_pos hk]
    exact wp_mono c _ _ (fun w' h' => wp_action c 2 (by omega) (by omega) w' h') _ _ (wp_unpack c w hs ht)
  · rw [if_neg hk]
    exact wp_action c 2 (by omega) (by omega) w (atLeast_le c (by omega) w (h (by omega)))

theorem wp_buildTo (c : Cfg) (w : World) (hs : StateOk c w) (ht : TreeOk c w) (k : Nat) (h : 1 ≤ k → AtLeast c k w) :
    WP c (AtLeast c 3) (buildTo c k) w := by
  refine wp_append c _ _ _ _ ?_
  by_cases hk : k < 2
  · rw [if_pos hk]
    exact wp_mono c _ _ (fun w' h' => wp_action c 3 (by omega) (by omega) w' h') _ _ (wp_setupTo c w hs ht k h)
  · rw [if_neg hk]
    exact wp_action c 3 (by omega) (by omega) w (atLeast_le c (by omega) w (h (by omega)))

theorem wp_installTo (c : Cfg) (w : World) (hs : StateOk c w) (ht : TreeOk c w) (k : Nat) (h : 1 ≤ k → AtLeast c k w) :
    WP c (AtLeast c 4) (installTo c k) w := by
  refine wp_append c _ _ _ _ ?_
  by_cases hk : k < 3
  · rw [if_pos hk]
    exact wp_mono c _ _ (fun w' h' => wp_action c 4 (by omega) (by omega) w' h') _ _ (wp_buildTo c w hs ht k h)
  · rw [if_neg hk]
    exact wp_action c 4 (by omega) (by omega) w (atLeast_le c (by omega) w (h (by omega)))

theorem wp_packagesTo (c : Cfg) (w : World) (hs : StateOk c w) (ht : TreeOk c w) (k : Nat)
    (h : 1 ≤ k → AtLeast c k w) : WP c (Reached c 5) (packagesTo c k) w := by
  refine wp_append c _ _ _ _ ?_
  by_cases hk : k < 4
  · rw [if_pos hk]
    exact wp_mono c _ _ (fun w' h' => wp_packages c w' h') _ _ (wp_installTo c w hs ht k h)
  · rw [if_neg hk]
    exact wp_packages c w (atLeast_le c (by omega) w (h (by omega)))

theorem reached_of_atLeast (c : Cfg) (k : Nat) (w : World) (h : AtLeast c k w) : Reached c k w :=
  ⟨h.1, h.2.1, fun _ => h.2.2⟩

theorem wp_program (c : Cfg) (w : World) (hs : StateOk c w) (ht : TreeOk c w) (r : Req) (l : List Step)
    (h : program c w r = some l) : WP c (Reached c r.stage) l w := by
  have hl : ∀ k, orderOf (lastState w) = some k → 1 ≤ k → AtLeast c k w :=
    fun k hk => atLeast_last c w hs ht k hk
  have aux : ∀ {f : Nat → List Step}, (orderOf (lastState w)).map f = some l →
      ∃ k, orderOf (lastState w) = some k ∧ f k = l := by
    intro f hf
    cases ho : orderOf (lastState w) with
    | none => rw [ho] at hf; cases hf
    | some k => rw [ho] at hf; exact ⟨k, rfl, Option.some.inj hf⟩
  cases r with
  | unpack =>
    cases h
    exact wp_mono c _ _ (reached_of_atLeast c 1) _ _ (wp_unpack c w hs ht)
  | setup =>
    obtain ⟨k, hk, rfl⟩ := aux h
    exact wp_mono c _ _ (reached_of_atLeast c 2) _ _ (wp_setupTo c w hs ht k (hl k hk))
  | build =>
    obtain ⟨k, hk, rfl⟩ := aux h
    exact wp_mono c _ _ (reached_of_atLeast c 3) _ _ (wp_buildTo c w hs ht k (hl k hk))
  | install =>
    obtain ⟨k, hk, rfl⟩ := aux h
    exact wp_mono c _ _ (reached_of_atLeast c 4) _ _ (wp_installTo c w hs ht k (hl k hk))
  | package =>
    obtain ⟨k, hk, rfl⟩ := aux h
    exact wp_packagesTo c w hs ht k (hl k hk)
  | oneShot =>
    cases h
    refine wp_append c _ _ _ _ (wp_mono c _ _ (fun w' h' => wp_packages c w' h') _ _ ?_)
    refine wp_append c _ _ _ _ (wp_mono c _ _ (fun w' h' => wp_action c 4 (by omega) (by omega) w' h') _ _ ?_)
    refine wp_append c _ _ _ _ (wp_mono c _ _ (fun w' h' => wp_action c 3 (by omega) (by omega) w' h') _ _ ?_)
    refine wp_append c _ _ _ _ (wp_mono c _ _ (fun w' h' => wp_action c 2 (by omega) (by omega) w' h') _ _ ?_)
    exact wp_unpack c w hs ht

theorem reached_ok (c : Cfg) (k : Nat) (w : World) (h : Reached c k w) : StateOk c w ∧ TreeOk c w := ⟨h.1, h.2.1⟩

theorem run_ok (c : Cfg) (w : World) (hs : StateOk c w) (ht : TreeOk c w) (r : Req × Nat) :
    TreeOk c (run c w r) ∧
      ((∀ l, program c w r.1 = some l → SafeRest c (runSteps c r.2 l w).2) → StateOk c (run c w r)) := by
  unfold run
  cases hp : program c w r.1 with
  | none => exact ⟨ht, fun _ => hs⟩
  | some l =>
    have h := wp_run c _ (reached_ok c _) r.2 l w (wp_program c w hs ht r.1 l hp)
    exact ⟨h.1, fun hsafe => h.2.1 (hsafe l rfl)⟩

theorem safe_ok (c : Cfg) (rs : List (Req × Nat)) (w : World) (hs : StateOk c w) (ht : TreeOk c w)
    (h : SafeHistory c w rs) : StateOk c (rs.foldl (run c) w) ∧ TreeOk c (rs.foldl (run c) w) := by
  induction rs generalizing w with
  | nil => exact ⟨hs, ht⟩
  | cons r rs ih =>
    obtain ⟨h1, h2⟩ := run_ok c w hs ht r
    exact ih _ (h2 h.1) h1 h.2

theorem init_ok (c : Cfg) : StateOk c World.init ∧ TreeOk c World.init :=
  ⟨stateOk_none c none, fun l h => by cases h⟩

/-! ### C45 -/

theorem phases_append (a b : List Step) : phasesOf (a ++ b) = phasesOf a ++ phasesOf b := List.filterMap_append ..

theorem phases_mark (j : Nat) : phasesOf (mark j) = [] := by
  unfold phasesOf mark
  rw [List.filterMap_map]
  exact List.filterMap_eq_nil_iff.2 (fun _ _ => rfl)

theorem phases_clean (c : Cfg) : phasesOf (clean c) = [] := by unfold clean; split <;> rfl

theorem phases_unpack (c : Cfg) : phasesOf (unpackSteps c) = [1] := by
  have hpatch : phasesOf ((patchList c).map .ev) = [] := by
    unfold phasesOf patchList
    rw [List.map_map, List.filterMap_map]
    exact List.filterMap_eq_nil_iff.2 (fun _ _ => rfl)
  unfold unpackSteps
  rw [phases_append, phases_append, phases_append, phases_mark, hpatch]
  split
  · rfl
  · rw [phases_clean]; rfl

theorem phases_action (j : Nat) : phasesOf (actionSteps j) = [j] := by
  have : actionSteps j = [.ev (.phase j)] ++ mark j := rfl
  rw [this, phases_append, phases_mark]; rfl

theorem phases_packages (c : Cfg) : phasesOf (packageSteps c) = [5] := by
  have e : packageSteps c = [.ev (.phase 5)] ++ (((List.range c.packages).flatMap (fun i => .ev (.pack i) :: mark 5)
    ++ (if c.autoclean then clean c else []))) := rfl
  have hf : ∀ ps : List Nat, phasesOf (ps.flatMap (fun i => Step.ev (.pack i) :: mark 5)) = [] := by
    intro ps
    induction ps with
    | nil => rfl
    | cons p ps ih =>
      rw [List.flatMap_cons, phases_append, ih]
      have : Step.ev (.pack p) :: mark 5 = [.ev (.pack p)] ++ mark 5 := rfl
      rw [this, phases_append, phases_mark]; rfl
  rw [e, phases_append, phases_append, hf]
  split
  · rw [phases_clean]; rfl
  · rfl

/-- C45: what a request that is not refused consists of: the phases from the one after the recorded stage, but at least
the requested one, to the requested one. -/
theorem staged_phases (c : Cfg) (w : World) (r : Req) (hr : r ≠ .oneShot) (k : Nat)
    (hk : orderOf (lastState w) = some k) :
    ∃ l, program c w r = some l ∧
      phasesOf l = List.range' (min (k + 1) r.stage) (r.stage + 1 - min (k + 1) r.stage) := by
  have happ := phases_append
  have hu := phases_unpack c
  have ha := phases_action
  have hpk := phases_packages c
  have h5 := (orderOf_some _ _ hk).1
  have hk6 : k = 0 ∨ k = 1 ∨ k = 2 ∨ k = 3 ∨ k = 4 ∨ k = 5 := by omega
  cases r with
  | oneShot => exact absurd rfl hr
  | unpack =>
    refine ⟨_, rfl, ?_⟩
    rw [hu]
    rcases hk6 with rfl | rfl | rfl | rfl | rfl | rfl <;> rfl
  | setup =>
    refine ⟨setupTo c k, by simp [program, hk], ?_⟩
    rcases hk6 with rfl | rfl | rfl | rfl | rfl | rfl <;>
      simp [setupTo, happ, hu, ha, Req.stage] <;> decide
  | build =>
    refine ⟨buildTo c k, by simp [program, hk], ?_⟩
    rcases hk6 with rfl | rfl | rfl | rfl | rfl | rfl <;>
      simp [setupTo, buildTo, happ, hu, ha, Req.stage] <;> decide
  | install =>
    refine ⟨installTo c k, by simp [program, hk], ?_⟩
    rcases hk6 with rfl | rfl | rfl | rfl | rfl | rfl <;>
      simp [setupTo, buildTo, installTo, happ, hu, ha, Req.stage] <;> decide
  | package =>
    refine ⟨packagesTo c k, by simp [program, hk], ?_⟩
    rcases hk6 with rfl | rfl | rfl | rfl | rfl | rfl <;>
      simp [setupTo, buildTo, installTo, packagesTo, happ, hu, ha, hpk, Req.stage] <;> decide

/-- `Builder.build` runs all the phases whatever was recorded. -/
theorem one_shot_phases (c : Cfg) (w : World) :
    ∃ l, program c w .oneShot = some l ∧ phasesOf l = [1, 2, 3, 4, 5] := by
  refine ⟨_, rfl, ?_⟩
  simp [phases_append, phases_unpack, phases_action, phases_packages]

/-- An unknown content of the state file, such as a part of a stage name, makes every staged request but unpacking
fail without doing anything. -/
theorem staged_unknown (c : Cfg) (w : World) (r : Req) (h : orderOf (lastState w) = none) (h1 : r ≠ .unpack)
    (h2 : r ≠ .oneShot) : program c w r = none ∧ ∀ n, run c w (r, n) = w := by
  have hp : program c w r = none := by
    cases r with
    | unpack => exact absurd rfl h1
    | oneShot => exact absurd rfl h2
    | _ => simp [program, h]
  exact ⟨hp, fun n => by simp [run, hp]⟩

/-- C45, full statement: a request runs exactly the phases after the recorded one up to the requested one. -/
def StagedFull : Prop := ∀ (c : Cfg) (w : World) (r : Req) (k : Nat) (l : List Step), r ≠ .oneShot →
  orderOf (lastState w) = some k → program c w r = some l → phasesOf l = List.range' (k + 1) (r.stage - k)

/-- The requested phase is run again when it is recorded already. -/
theorem staged_refuted : ¬ StagedFull := by
  intro h
  have := h ⟨0, 1, false, false, true⟩ ⟨some (stageName 2), some []⟩ .setup 2 _ (by decide)
    (orderOf_stageName 2 (by omega)) rfl
  revert this
  decide +kernel

/-- C45 for requests that go beyond the recorded stage. -/
theorem staged_partial (c : Cfg) (w : World) (r : Req) (k : Nat) (l : List Step) (hr : r ≠ .oneShot)
    (hk : orderOf (lastState w) = some k) (hl : program c w r = some l) (hlt : k < r.stage) :
    phasesOf l = List.range' (k + 1) (r.stage - k) := by
  obtain ⟨l', hl', hp⟩ := staged_phases c w r hr k hk
  rw [hl] at hl'
  cases hl'
  rw [hp, Nat.min_eq_left (by omega)]
  congr 1
  omega

/-- A request for less than what is recorded runs the requested phase only. -/
theorem staged_again (c : Cfg) (w : World) (r : Req) (k : Nat) (l : List Step) (hr : r ≠ .oneShot)
    (hk : orderOf (lastState w) = some k) (hl : program c w r = some l) (hlt : r.stage ≤ k) :
    phasesOf l = [r.stage] := by
  obtain ⟨l', hl', hp⟩ := staged_phases c w r hr k hk
  rw [hl] at hl'
  cases hl'
  rw [hp, Nat.min_eq_right (by omega), Nat.add_sub_cancel_left]
  rfl

/-- C45 over histories: whatever requests were made and cut before, where the state file is right, every phase was run
on source to which the patches were applied and on which the earlier phases were run in order. -/
theorem staged_order_partial (c : Cfg) (rs : List (Req × Nat)) (h : SafeHistory c World.init rs) (r : Req × Nat)
    (l : List Ev) (hl : (history c (rs ++ [r])).tree = some l) : Ordered c l := by
  have hi := init_ok c
  have hr := safe_ok c rs World.init hi.1 hi.2 h
  have := (run_ok c _ hr.1 hr.2 r).1
  refine this l ?_
  rw [← hl]
  unfold history
  rw [List.foldl_append]
  rfl

/-- C45 over histories: a request that comes to its end leaves source that has been through all phases up to the
requested one, in order, unless the build directory was cleaned. -/
theorem staged_complete_partial (c : Cfg) (rs : List (Req × Nat)) (h : SafeHistory c World.init rs) (r : Req) (n : Nat)
    (p : List Step) (hp : program c (history c rs) r = some p) (he : (runSteps c n p (history c rs)).2 = [])
    (ha : r.stage < 5 ∨ c.autoclean = false) :
    ∃ l, (history c (rs ++ [(r, n)])).tree = some l ∧ Ready c r.stage l := by
  have hi := init_ok c
  have hr := safe_ok c rs World.init hi.1 hi.2 h
  have hw := (wp_run c _ (reached_ok c _) n p _ (wp_program c (history c rs) hr.1 hr.2 r p hp)).2.2 he
  have e : history c (rs ++ [(r, n)]) = (runSteps c n p (history c rs)).1 := by
    have : history c (rs ++ [(r, n)]) = run c (history c rs) (r, n) := by
      unfold history; rw [List.foldl_append]; rfl
    rw [this]
    unfold run
    rw [hp]
  rw [e]
  exact hw.2.2 ha

/-! ### C46 -/

/-- C46, full statement. -/
def PatchesFull : Prop := ∀ (c : Cfg) (rs : List (Req × Nat)) (l : List Ev),
  (history c rs).tree = some l → PatchedFirst c l

/-- A build stopped after the state file says "unpack" and before the patch; the next request sets up the source
without it. -/
theorem patches_refuted : ¬ PatchesFull := by
  intro h
  have h0 : (history ⟨1, 1, false, false, true⟩ [(.unpack, 10), (.setup, 1)]).tree = some [.phase 2] := by
    decide +kernel
  have := h ⟨1, 1, false, false, true⟩ [(.unpack, 10), (.setup, 1)] [.phase 2] h0 [] [] rfl
  revert this
  decide

/-- C46 when no build stopped between the two. -/
theorem patches_partial (c : Cfg) (rs : List (Req × Nat)) (h : SafeHistory c World.init rs) (r : Req × Nat)
    (l : List Ev) (hl : (history c (rs ++ [r])).tree = some l) : PatchedFirst c l :=
  fun a b e => (staged_order_partial c rs h r l hl a 2 b e).1

/-- C46 without conditions for sources with no patches. -/
theorem patches_none (c : Cfg) (hp : c.patches = 0) (rs : List (Req × Nat)) (l : List Ev)
    (_ : (history c rs).tree = some l) : PatchedFirst c l := by
  intro a b _
  rw [hp]
  exact List.nil_prefix

/-- A history with interruptions: unpacking cut while the state file is written, unpacked again, then a build cut before
the build phase, then installed. -/
example :
    let c : Cfg := ⟨2, 1, false, false, true⟩
    let rs : List (Req × Nat) := [(.unpack, 6), (.setup, 50), (.unpack, 50), (.install, 13)]
    SafeHistory c World.init rs ∧ (history c (rs ++ [(.install, 100)])).tree
      = some [.patch 0, .patch 1, .phase 2, .phase 3, .phase 4] := by
  intro c rs
  have p1 : program c World.init .unpack = some (unpackSteps c) := rfl
  refine ⟨⟨?_, ?_, ?_, ?_, trivial⟩, by decide +kernel⟩
  · intro l hl
    cases hl
    have : (runSteps c 6 (unpackSteps c) World.init).2.head? = some (.write "unp".toList) := by decide +kernel
    cases hr : (runSteps c 6 (unpackSteps c) World.init).2 with
    | nil => trivial
    | cons s r => rw [hr] at this; cases this; trivial
  · intro l hl
    have : program c (run c World.init (.unpack, 6)) .setup = none := by decide +kernel
    rw [this] at hl; cases hl
  · intro l hl
    cases hl
    have : (runSteps c 50 (unpackSteps c) (run c (run c World.init (.unpack, 6)) (.setup, 50))).2 = [] := by
      decide +kernel
    simp only [this]
    trivial
  · intro l hl
    have e : program c (run c (run c (run c World.init (.unpack, 6)) (.setup, 50)) (.unpack, 50)) .install
      = some (installTo c 1) := by decide +kernel
    rw [e] at hl
    cases hl
    have : (runSteps c 13 (installTo c 1)
      (run c (run c (run c World.init (.unpack, 6)) (.setup, 50)) (.unpack, 50))).2.head? = some (.ev (.phase 3)) := by
      decide +kernel
    cases hr : (runSteps c 13 (installTo c 1)
      (run c (run c (run c World.init (.unpack, 6)) (.setup, 50)) (.unpack, 50))).2 with
    | nil => trivial
    | cons s r => rw [hr] at this; cases this; trivial

/-! ### Building again -/

/-- C69, full statement: unpacking can be done in every build directory. -/
def UnpackAgainFull : Prop := ∀ (c : Cfg) (rs : List (Req × Nat)),
  ∃ n, (runSteps c n (unpackSteps c) (history c rs)).2 = []

theorem runSteps_all (c : Cfg) (l : List Step) (hl : ∀ s ∈ l, ∀ w, s.fails c w = false) (w : World) :
    (runSteps c l.length l w).2 = [] := by
  induction l generalizing w with
  | nil => rfl
  | cons s r ih =>
    simp only [List.length_cons, runSteps, hl s (List.mem_cons_self ..) w]
    exact ih (fun t ht => hl t (List.mem_cons_of_mem _ ht)) _

theorem unpack_again_fails (c : Cfg) (hn : c.norootdir = true) (w : World) (l : List Ev) (hw : w.tree = some l)
    (n : Nat) : runSteps c n (unpackSteps c) w = (w, unpackSteps c) := by
  have e : unpackSteps c = .extract :: (mark 1 ++ (patchList c).map .ev) := by
    unfold unpackSteps
    rw [if_pos hn]
    rfl
  rw [e]
  cases n with
  | zero => rfl
  | succ n => simp [runSteps, Step.fails, hn, hw]

/-- With `norootdir` the second unpacking fails, and with it every build that starts with unpacking. -/
theorem unpack_again_refuted : ¬ UnpackAgainFull := by
  intro h
  obtain ⟨n, hn⟩ := h ⟨0, 1, true, false, true⟩ [(.unpack, 50)]
  have ht : (history ⟨0, 1, true, false, true⟩ [(.unpack, 50)]).tree = some [] := by decide +kernel
  rw [unpack_again_fails _ rfl _ _ ht n] at hn
  revert hn
  decide +kernel

/-- C69 for archives with a root directory. -/
theorem unpack_again_partial (c : Cfg) (hn : c.norootdir = false) (w : World) :
    (runSteps c (unpackSteps c).length (unpackSteps c) w).2 = [] :=
  runSteps_all c _ (fun s _ w => by cases s <;> simp [Step.fails, hn]) w

/-- C69 for a directory without source. -/
theorem unpack_first (c : Cfg) (w : World) (hw : w.tree = none) :
    (runSteps c (unpackSteps c).length (unpackSteps c) w).2 = [] := by
  by_cases hn : c.norootdir = true
  · have e : unpackSteps c = .extract :: (mark 1 ++ (patchList c).map .ev) := by
      unfold unpackSteps
      rw [if_pos hn]
      rfl
    rw [e]
    simp only [List.length_cons, runSteps, Step.fails, hw, Option.isSome_none, Bool.and_false, Bool.false_eq_true,
      if_false]
    refine runSteps_all c _ ?_ _
    intro s hs w'
    rcases List.mem_append.1 hs with h | h
    · obtain ⟨i, _, rfl⟩ := List.mem_map.1 h; rfl
    · obtain ⟨i, _, rfl⟩ := List.mem_map.1 h; rfl
  · exact unpack_again_partial c (by simpa using hn) w

/-! ### Mandatory actions -/

/-- C70, full statement: a mandatory function of actions.py that is missing is reported. -/
def MandatoryFull : Prop := ∀ isDefined mandatory, (mandatory = true → isDefined = false →
  ∃ e, runActionFunction isDefined mandatory = .error e)

theorem mandatory_refuted : ¬ MandatoryFull := by
  intro h
  obtain ⟨e, he⟩ := h false true rfl rfl
  cases he

/-- What happens: the function is called exactly when it is there. -/
theorem action_called_partial (isDefined mandatory : Bool) :
    runActionFunction isDefined mandatory = .ok isDefined := by
  cases isDefined <;> rfl

end Pisi.Build
