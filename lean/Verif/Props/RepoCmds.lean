import Verif.Spec.RepoCmds
import Verif.Props.PackageDB
import Verif.Lemmas.Actions

/-!
# C178-C180: update-repo, remove-repo, add-repo and list-repo
-/
namespace Pisi.RepoCmd
open Pisi.DB Pisi.DBSpec Pisi.RepoCmdSpec
variable {α ρ : Type} [DecidableEq α]

theorem sameIn_refl (r : RepoId) (y : System α ρ) : SameIn r y y := fun _ => ⟨rfl, rfl, rfl⟩

theorem sameIn_trans {r : RepoId} {a b c : System α ρ} (h : SameIn r a b) (h' : SameIn r b c) : SameIn r a c := fun k =>
  ⟨(h' k).1.trans (h k).1, (h' k).2.1.trans (h k).2.1, (h' k).2.2.trans (h k).2.2⟩

theorem holds_same {n : Str} {a b : System α ρ} (h : SameIn (.repo n) a b) {ix : Index α} (hh : Holds a n ix) : Holds b n ix :=
  ⟨fun k m => by rw [(h k).1]; exact hh.1 k m, fun k m => by rw [(h k).2.1]; exact hh.2 k m⟩

theorem run_snoc (ops : List (SysOp α ρ)) (o : SysOp α ρ) : SysOp.run (ops ++ [o]) = o.step (SysOp.run ops) := by
  simp [SysOp.run]

/-- An index is put into the databases iff it fits. -/
theorem enter_spec (ops : List (SysOp α ρ)) (n : Str) (hn : (SysOp.run ops).repos.hasRepo n = true) (ix : Index α) :
    (Fit ix ↔ ∃ y', enter (SysOp.run ops) n ix true = .ok y') ∧
    ∀ y', enter (SysOp.run ops) n ix true = .ok y' → (∃ ops', y' = SysOp.run ops') ∧ y'.repos = (SysOp.run ops).repos ∧
      Holds y' n ix ∧ ∀ r, r ≠ .repo n → SameIn r (SysOp.run ops) y' := by
  have hs := update_db_succeeds_iff ops ix (.repo n)
  simp only [enter, if_true, System.updateRepo, hn]
  constructor
  · unfold Fit
    rw [← hs]
    constructor
    · rintro ⟨s, h⟩; rw [h]; exact ⟨_, rfl⟩
    · rintro ⟨y', h⟩
      cases e : ix.updateDb (.repo n) (SysOp.run ops).stores with
      | ok s => exact ⟨s, rfl⟩
      | error x => rw [e] at h; cases h
  · intro y' h
    cases e : ix.updateDb (.repo n) (SysOp.run ops).stores with
    | error x => rw [e] at h; cases h
    | ok s =>
      rw [e] at h; cases h
      obtain ⟨a, _, c, d⟩ := update_db_exact ops ix (.repo n) s e
      refine ⟨⟨ops ++ [.updateRepo n ix], ?_⟩, rfl, ⟨a, c⟩, fun r hr k => ⟨(d k r hr).1, (d k r hr).2.1, (d k r hr).2.2.1⟩⟩
      rw [run_snoc]; simp [SysOp.step, System.updateRepo, hn, e]

/-- One repository: it is updated iff that is possible, and no other is touched. -/
theorem updateOne_spec (force : Bool) (ops : List (SysOp α ρ)) (n : Str) (hn : (SysOp.run ops).repos.hasRepo n = true) (a : Answer α) :
    (Good force a ↔ ∃ y', updateOne force (SysOp.run ops) n a = .ok y') ∧
    ∀ y', updateOne force (SysOp.run ops) n a = .ok y' → (∃ ops', y' = SysOp.run ops') ∧ y'.repos = (SysOp.run ops).repos ∧
      Updated force a n (SysOp.run ops) y' ∧ ∀ r, r ≠ .repo n → SameIn r (SysOp.run ops) y' := by
  have key : ∀ ix, Brings force a ix → updateOne force (SysOp.run ops) n a = enter (SysOp.run ops) n ix true := by
    intro ix h; cases h <;> simp [updateOne, hn]
  have uniq : ∀ ix ix', Brings force a ix → Brings force a ix' → ix = ix' := by
    intro ix ix' h h'; cases h <;> cases h' <;> rfl
  have nn : Nothing force a → ∀ ix, ¬ Brings force a ix := by
    intro h ix hb; cases hb <;> simp [Nothing] at h
  by_cases hN : Nothing force a
  · have : updateOne force (SysOp.run ops) n a = .ok (SysOp.run ops) := by
      unfold Nothing at hN; split at hN
      · simp [updateOne, hn]
      · exact hN.elim
    refine ⟨⟨fun _ => ⟨_, this⟩, fun _ => Or.inl hN⟩, fun y' h => ?_⟩
    rw [this] at h; cases h
    exact ⟨⟨ops, rfl⟩, rfl, ⟨fun _ => sameIn_refl _ _, fun ix h => absurd h (nn hN ix)⟩, fun r _ => sameIn_refl r _⟩
  · by_cases hB : ∃ ix, Brings force a ix
    · obtain ⟨ix, hB⟩ := hB
      obtain ⟨h1, h2⟩ := enter_spec ops n hn ix
      rw [key ix hB]
      refine ⟨⟨?_, fun h => Or.inr ⟨ix, hB, h1.mpr h⟩⟩, fun y' h => ?_⟩
      · rintro (h | ⟨ix', hb, hf⟩)
        · exact absurd h hN
        · rw [uniq ix ix' hB hb]
          rw [uniq ix ix' hB hb] at h1
          exact h1.mp hf
      · obtain ⟨a, b, c, d⟩ := h2 y' h
        exact ⟨a, b, ⟨fun h => absurd h hN, fun ix' hb => uniq ix ix' hB hb ▸ c⟩, d⟩
    · have : ∃ e, updateOne force (SysOp.run ops) n a = .error e := by
        cases a with
        | got ix s => cases s with
          | true => exact absurd ⟨ix, .got force ix⟩ hB
          | false => exact ⟨.signature, by simp [updateOne, hn, enter]⟩
        | already g => cases force with
          | false => exact absurd trivial hN
          | true => cases g with
            | none => exact ⟨.read, by simp [updateOne, hn]⟩
            | some p => obtain ⟨ix, s⟩ := p; cases s with
              | true => exact absurd ⟨ix, .again ix⟩ hB
              | false => exact ⟨.signature, by simp [updateOne, hn, enter]⟩
        | fails => exact ⟨.read, by simp [updateOne, hn]⟩
      obtain ⟨e, he⟩ := this
      rw [he]
      refine ⟨⟨?_, fun ⟨_, h⟩ => nomatch h⟩, fun _ h => nomatch h⟩
      rintro (h | ⟨ix, hb, _⟩)
      · exact absurd h hN
      · exact absurd ⟨ix, hb⟩ hB

/-- What the loop does: the repositories up to the first that cannot be updated are updated, nothing else is touched. -/
theorem updateLoop_spec (force : Bool) (l : List (Str × Answer α)) : ∀ ops : List (SysOp α ρ), (l.map Prod.fst).Nodup →
    (∀ x ∈ l, (SysOp.run ops).repos.hasRepo x.1 = true) →
    ∃ pre post, l = pre ++ post ∧ (∀ x ∈ pre, Good force x.2) ∧ (∀ x, post.head? = some x → ¬ Good force x.2) ∧
      ((updateLoop force l (SysOp.run ops)).2 = none ↔ post = []) ∧
      (updateLoop force l (SysOp.run ops)).1.repos = (SysOp.run ops).repos ∧
      (∀ x ∈ pre, Updated force x.2 x.1 (SysOp.run ops) (updateLoop force l (SysOp.run ops)).1) ∧
      ∀ r, (∀ x ∈ pre, r ≠ .repo x.1) → SameIn r (SysOp.run ops) (updateLoop force l (SysOp.run ops)).1 := by
  induction l with
  | nil => exact fun ops _ _ => ⟨[], [], rfl, by simp, by simp, by simp [updateLoop], rfl, by simp, fun r _ => sameIn_refl r _⟩
  | cons x l ih =>
    obtain ⟨n, a⟩ := x
    intro ops hd hp
    obtain ⟨h1, h2⟩ := updateOne_spec force ops n (hp _ List.mem_cons_self) a
    rw [List.map_cons, List.nodup_cons] at hd
    cases e : updateOne force (SysOp.run ops) n a with
    | error er =>
      refine ⟨[], (n, a) :: l, rfl, by simp, fun x hx => ?_, by simp [updateLoop, e], by simp [updateLoop, e], by simp, fun r _ => ?_⟩
      · cases hx; intro hg; obtain ⟨y', h⟩ := h1.mp hg; rw [e] at h; cases h
      · simp only [updateLoop, e]; exact sameIn_refl r _
    | ok y' =>
      obtain ⟨⟨ops', rfl⟩, hr, hu, hs⟩ := h2 _ e
      obtain ⟨pre, post, rfl, g1, g2, g3, g4, g5, g6⟩ := ih ops' hd.2 fun x hx => by rw [hr]; exact hp x (List.mem_cons_of_mem _ hx)
      have hnot : ∀ x ∈ pre, x.1 ≠ n := fun x hx he => hd.1 (List.mem_map.mpr ⟨x, List.mem_append_left _ hx, he⟩)
      have hn6 := g6 (.repo n) fun x hx he => hnot x hx (by simpa using he.symm)
      refine ⟨(n, a) :: pre, post, rfl, ?_, g2, by simpa [updateLoop, e] using g3, by simpa [updateLoop, e, hr] using g4, ?_, fun r hr' => ?_⟩
      · intro x hx
        rcases List.mem_cons.mp hx with rfl | hx
        · exact h1.mpr ⟨_, e⟩
        · exact g1 x hx
      · simp only [updateLoop, e]
        intro x hx
        rcases List.mem_cons.mp hx with rfl | hx
        · exact ⟨fun h => sameIn_trans (hu.1 h) hn6, fun ix h => holds_same hn6 (hu.2 ix h)⟩
        · exact ⟨fun h => sameIn_trans (hs _ (by simpa using hnot x hx)) ((g5 x hx).1 h), (g5 x hx).2⟩
      · simp only [updateLoop, e]
        exact sameIn_trans (hs r (hr' _ List.mem_cons_self)) (g6 r fun x hx => hr' x (List.mem_cons_of_mem _ hx))

/-- The names with the answers. -/
theorem names_answers (net : Nat → Str → Answer α) (l : List Str) (k : Nat) :
    ((l.zipIdx k).map fun x => (x.1, net x.2 x.1)).map Prod.fst = l := by
  rw [List.map_map]
  have : (Prod.fst ∘ fun x : Str × Nat => (x.1, net x.2 x.1)) = Prod.fst := rfl
  rw [this, List.zipIdx_map_fst]

/-- **C178, full statement**: `update-repo` updates every repository (or every named one) whose index can be had. -/
def UpdatesAll : Prop :=
  ∀ (ops : List (SysOp Nat Nat)) (force : Bool) (net : Str → Answer Nat) (args : List Str), args.Nodup →
    (∀ n ∈ args, (SysOp.run ops).repos.hasRepo n = true) → ∀ n ∈ updateNames args (SysOp.run ops), Good force (net n) →
      Updated force (net n) n (SysOp.run ops) (updateCmd force (fun _ => net) args (SysOp.run ops)).1

/-- Two repositories. -/
def exTwo : List (SysOp Nat Nat) := [.addRepo ['a'] 0 none, .addRepo ['b'] 1 none]

/-- A package. -/
def exM : Meta Nat :=
  { name := 1, info := { version := ['1'], release := ['1'], build := none, deps := [], compDeps := [], conflicts := [], history := [] }, partOf := some 9 }

/-- The index of one of them. -/
def exIx : Index Nat := { packages := [exM] }

/-- The server of the first is down. -/
def exNet (n : Str) : Answer Nat := if n = ['a'] then .fails else .got exIx true

/-- **C178 refuted**: after the first repository that cannot be reached the others are left as they are. -/
theorem updates_all_refuted : ¬ UpdatesAll := by
  intro h
  have := (h exTwo false exNet [] (by simp) (by simp) ['b'] (by decide) (Or.inr ⟨exIx, .got _ _, by decide, by decide⟩)).2 exIx (.got _ _)
  have h2 := (this.1 1 exM).mpr ⟨[], [], rfl, rfl, by simp⟩
  revert h2; decide +kernel

/-- **C178, what holds.** The repositories are updated in their order (that of the arguments, or of the list) up to the first that cannot
be updated; that one, those after it and all others stay as they are; the list of repositories stays; and the command ends well iff all
could be updated. -/
theorem updates_partial (ops : List (SysOp α ρ)) (force : Bool) (net : Nat → Str → Answer α) (args : List Str) (hd : args.Nodup)
    (hp : ∀ n ∈ args, (SysOp.run ops).repos.hasRepo n = true) :
    ∃ pre post, (updateNames args (SysOp.run ops)).zipIdx = pre ++ post ∧ (∀ x ∈ pre, Good force (net x.2 x.1)) ∧
      (∀ x, post.head? = some x → ¬ Good force (net x.2 x.1)) ∧
      ((updateCmd force net args (SysOp.run ops)).2 = none ↔ post = []) ∧
      (updateCmd force net args (SysOp.run ops)).1.repos = (SysOp.run ops).repos ∧
      (∀ x ∈ pre, Updated force (net x.2 x.1) x.1 (SysOp.run ops) (updateCmd force net args (SysOp.run ops)).1) ∧
      ∀ r, (∀ x ∈ pre, r ≠ .repo x.1) → SameIn r (SysOp.run ops) (updateCmd force net args (SysOp.run ops)).1 := by
  obtain ⟨l, hl, hnd, hm, _⟩ := repo_list_consistent ops
  have ho : (SysOp.run ops).repos.order = some l := by
    unfold RepoDB.list at hl; split at hl
    · rename_i h; cases hl; exact h
    · cases hl
  have hN : (updateNames args (SysOp.run ops)).Nodup ∧ ∀ n ∈ updateNames args (SysOp.run ops), (SysOp.run ops).repos.hasRepo n = true := by
    unfold updateNames
    split
    · rw [ho]; exact ⟨hnd, fun n hn => (hm n).mp hn⟩
    · exact ⟨hd, hp⟩
  obtain ⟨pre, post, e, g1, g2, g3, g4, g5, g6⟩ := updateLoop_spec force ((updateNames args (SysOp.run ops)).zipIdx.map fun x => (x.1, net x.2 x.1)) ops
    (by rw [names_answers]; exact hN.1) (fun x hx => hN.2 x.1 (by rw [← names_answers net (updateNames args (SysOp.run ops)) 0]; exact List.mem_map.mpr ⟨x, hx, rfl⟩))
  obtain ⟨p, q, e', rfl, rfl⟩ := List.map_eq_append_iff.mp e
  refine ⟨p, q, e', fun x hx => g1 _ (List.mem_map.mpr ⟨x, hx, rfl⟩), fun x hx => g2 (x.1, net x.2 x.1) (by rw [List.head?_map, hx]; rfl), ?_, g4,
    fun x hx => g5 _ (List.mem_map.mpr ⟨x, hx, rfl⟩), fun r hr => g6 r fun x hx => ?_⟩
  · rw [show updateCmd force net args (SysOp.run ops) = updateLoop force _ (SysOp.run ops) from rfl, g3]; simp
  · obtain ⟨z, hz, rfl⟩ := List.mem_map.mp hx; exact hr z hz

/-- If all can be updated, all are. -/
theorem updates_all (ops : List (SysOp α ρ)) (force : Bool) (net : Nat → Str → Answer α) (args : List Str) (hd : args.Nodup)
    (hp : ∀ n ∈ args, (SysOp.run ops).repos.hasRepo n = true) (hg : ∀ n k, Good force (net k n)) :
    (updateCmd force net args (SysOp.run ops)).2 = none ∧ ∀ n k, (n, k) ∈ (updateNames args (SysOp.run ops)).zipIdx →
      Updated force (net k n) n (SysOp.run ops) (updateCmd force net args (SysOp.run ops)).1 := by
  obtain ⟨pre, post, e, _, g2, g3, _, g5, _⟩ := updates_partial ops force net args hd hp
  have : post = [] := by
    cases post with
    | nil => rfl
    | cons x l => exact absurd (hg x.1 x.2) (g2 x rfl)
  subst this
  rw [List.append_nil] at e
  exact ⟨g3.mpr rfl, fun n k h => g5 (n, k) (e ▸ h)⟩

/-! ## remove-repo -/

theorem has_iff_listed (ops : List (SysOp α ρ)) (l : List Str) (hl : (SysOp.run ops).repos.list = .ok l) :
    l.Nodup ∧ ∀ n, n ∈ l ↔ (SysOp.run ops).repos.hasRepo n = true := by
  obtain ⟨l', h, h1, h2, _⟩ := repo_list_consistent ops
  rw [hl] at h; cases h; exact ⟨h1, h2⟩

/-- What is not in the list has nothing. -/
theorem unlisted (ops : List (SysOp α ρ)) (l : List Str) (hl : (SysOp.run ops).repos.list = .ok l) (n : Str) (hn : n ∉ l) :
    (SysOp.run ops).repos.hasRepo n = false ∧ Empty (SysOp.run ops) n := by
  obtain ⟨l', h⟩ := sys_run ops
  have : l' = l := by simp [RepoDB.list, h.repos.order] at hl; exact hl
  subst this
  constructor
  · cases e : (SysOp.run ops).repos.hasRepo n with
    | true => exact absurd ((h.repos.mem n).mpr e) hn
    | false => rfl
  · have key : ∀ {ν : Type} (d : ItemDB α ν), OnlyListed l' d → ∀ k, d.getItem [] k (.one (.repo n)) = .error .notFound := by
      intro ν d hd k
      rw [getItem_one]
      cases hc : d.cell k (.repo n) with
      | none => rfl
      | some v => exact absurd (hd k n (by simp [hc])) hn
    exact fun k => ⟨key _ h.pkg k, key _ h.src k, key _ h.comp k⟩

theorem removeLoop_spec (dir : Str) (names : List Str) : ∀ (ops : List (SysOp α ρ)) (disk : List (List Str)) (l : List Str),
    (SysOp.run ops).repos.list = .ok l →
    ∃ ops' disk', removeCmd dir names ⟨SysOp.run ops, disk⟩ = .ok ⟨SysOp.run ops', disk'⟩ ∧
      (SysOp.run ops').repos.list = .ok (l.filter (· ∉ names)) ∧
      (∀ n, n ∉ names → (SysOp.run ops').repos.getRepo n = (SysOp.run ops).repos.getRepo n) ∧
      (∀ r, (∀ n ∈ names, r ≠ .repo n) → SameIn r (SysOp.run ops) (SysOp.run ops')) ∧
      disk' = disk.filter fun x => ∀ n ∈ names, n ∈ l → ¬ (place (Act.osJoin dir n)).isPrefixOf x := by
  induction names with
  | nil => exact fun ops disk l hl => ⟨ops, disk, rfl, by simpa using hl, fun _ _ => rfl, fun r _ => sameIn_refl r _, by simp⟩
  | cons a names ih =>
    intro ops disk l hl
    obtain ⟨hnd, hm⟩ := has_iff_listed ops l hl
    obtain ⟨r1, r2⟩ := remove_repo_list ops l hl a
    by_cases ha : a ∈ l
    · obtain ⟨y, e, hy, hg⟩ := r2 ha
      have hy' : y = SysOp.run (ops ++ [.removeRepo a]) := by rw [run_snoc]; simp [SysOp.step, e]
      have hit := remove_repo_items ops a y e
      rw [hy'] at hy
      obtain ⟨ops', disk', g1, g2, g3, g5, g6⟩ := ih (ops ++ [.removeRepo a]) (cleanDir (Act.osJoin dir a) disk) (l.erase a) hy
      rw [← hy'] at g1 g3 g5
      have sOther : ∀ r, r ≠ .repo a → SameIn r (SysOp.run ops) y := fun r hr k => by
        obtain ⟨x1, x2, x3⟩ := hit k r; rw [if_neg hr] at x1 x2 x3; exact ⟨x1, x2, x3⟩
      refine ⟨ops', disk', ?_, ?_, fun n hn => ?_, fun r hr => ?_, ?_⟩
      · unfold removeCmd at g1 ⊢
        simp only [forM', removeOne, (hm a).mp ha, if_true, e]; exact g1
      · rw [g2, hnd.erase_eq_filter, List.filter_filter]
        congr 1; apply List.filter_congr; intro x _
        by_cases h1 : x = a <;> by_cases h2 : x ∈ names <;> simp [h1, h2]
      · rw [g3 n (fun h => hn (List.mem_cons_of_mem _ h)), hg n (fun h => hn (h ▸ List.mem_cons_self))]
      · exact sameIn_trans (sOther r (hr a List.mem_cons_self)) (g5 r fun n hn => hr n (List.mem_cons_of_mem _ hn))
      · rw [g6, cleanDir, List.filter_filter]
        apply List.filter_congr; intro x _
        rw [← Bool.decide_and]
        apply decide_eq_decide.mpr
        constructor
        · rintro ⟨h1, h2⟩ n hn hnl
          by_cases hna : n = a
          · subst hna; exact h2
          · rcases List.mem_cons.mp hn with h | h
            · exact absurd h hna
            · exact h1 n h ((List.mem_erase_of_ne hna).mpr hnl)
        · intro h
          exact ⟨fun n hn hnl => h n (List.mem_cons_of_mem _ hn) (List.mem_of_mem_erase hnl), h a List.mem_cons_self ha⟩
    · obtain ⟨ops', disk', g1, g2, g3, g5, g6⟩ := ih ops disk l hl
      have hf : (SysOp.run ops).repos.hasRepo a = false := by
        cases h : (SysOp.run ops).repos.hasRepo a with
        | true => exact absurd ((hm a).mpr h) ha
        | false => rfl
      refine ⟨ops', disk', ?_, ?_, fun n hn => g3 n fun h => hn (List.mem_cons_of_mem _ h), fun r hr => g5 r fun n hn => hr n (List.mem_cons_of_mem _ hn), ?_⟩
      · unfold removeCmd at g1 ⊢
        simp only [forM', removeOne, hf]; exact g1
      · rw [g2]; congr 1; apply List.filter_congr; intro x hx
        have : x ≠ a := fun h => ha (h ▸ hx)
        simp [this]
      · rw [g6]; apply List.filter_congr; intro x _
        apply decide_eq_decide.mpr
        constructor
        · intro h n hn hnl
          rcases List.mem_cons.mp hn with rfl | hn
          · exact absurd hnl ha
          · exact h n hn hnl
        · exact fun h n hn hnl => h n (List.mem_cons_of_mem _ hn) hnl

/-- **C179.** `remove-repo` never fails; afterwards exactly the named repositories are gone from the list, with all they had; the others
have their places, their addresses, their packages, sources and components; so have the installed packages. -/
theorem remove_exact (dir : Str) (names : List Str) (ops : List (SysOp α ρ)) (disk : List (List Str)) (l : List Str)
    (hl : (SysOp.run ops).repos.list = .ok l) :
    ∃ s', removeCmd dir names ⟨SysOp.run ops, disk⟩ = .ok s' ∧ s'.sys.repos.list = .ok (l.filter (· ∉ names)) ∧
      (∀ n, n ∉ names → s'.sys.repos.getRepo n = (SysOp.run ops).repos.getRepo n) ∧
      (∀ n ∈ names, s'.sys.repos.hasRepo n = false ∧ Empty s'.sys n) ∧
      ∀ r, (∀ n ∈ names, r ≠ .repo n) → SameIn r (SysOp.run ops) s'.sys := by
  obtain ⟨ops', disk', g1, g2, g3, g5, _⟩ := removeLoop_spec dir names ops disk l hl
  exact ⟨_, g1, g2, g3, fun n hn => unlisted ops' _ g2 n (by simp [hn]), g5⟩

/-- A case: an unknown name does no harm. -/
example : (removeCmd ['/', 'i'] [['x'], ['a']] (⟨SysOp.run exTwo, []⟩ : State Nat Nat)).toOption.map (fun s => s.sys.repos.order) = some (some [['b']]) := by
  decide +kernel

/-! ## The files of removed repositories -/

/-- **C180, full statement**: `remove-repo` deletes exactly the directories of the repositories that it removes. -/
def FilesExact : Prop :=
  ∀ (ops : List (SysOp Nat Nat)) (dir : Str) (names l : List Str) (disk : List (List Str)) (s' : State Nat Nat),
    (SysOp.run ops).repos.list = .ok l → removeCmd dir names ⟨SysOp.run ops, disk⟩ = .ok s' →
      ∀ x, x ∈ s'.disk ↔ x ∈ disk ∧ ∀ n ∈ names, n ∈ l → ¬ (place dir ++ [n]) <+: x

/-- **C180 refuted**: a repository may be called `/`; when it is removed everything is deleted. -/
theorem files_refuted : ¬ FilesExact := by
  intro h
  have := (h [.addRepo ['/'] 0 none] ['/', 'i'] [['/']] [['/']] [[['e', 't', 'c']]] ⟨{ repos := ⟨[], some []⟩ }, []⟩ rfl rfl [['e', 't', 'c']]).mpr
    ⟨by simp, fun n hn _ hp => by
      have e : place ['/', 'i'] = [['i']] := by decide
      rw [e] at hp
      obtain ⟨t, ht⟩ := hp
      simp at ht⟩
  simp at this

/-- A repository called `..` takes the directory above with it. -/
theorem files_up : (removeCmd ['/', 'p', '/', 'i'] [['.', '.']]
    (⟨SysOp.run [.addRepo ['.', '.'] 0 none], [[['p'], ['d', 'b']], [['e']]]⟩ : State Nat Nat)).toOption.map (·.disk) = some [[['e']]] := by
  decide +kernel

/-- Where the directory of a repository with a plain name is. -/
theorem place_plain (dir n : Str) (hn : Plain n) : place (Act.osJoin dir n) = place dir ++ [n] := by
  obtain ⟨h1, h2, h3, h4⟩ := hn
  have ha : Act.isAbs n = false := by
    unfold Act.isAbs
    cases n with
    | nil => rfl
    | cons c t => simp only [List.head?_cons, Option.some.injEq, decide_eq_false_iff_not]; rintro rfl; exact h2 List.mem_cons_self
  unfold place
  rw [Act.comps_osJoin ha, Act.comps_noslash h2, if_pos ⟨h1, h3⟩, List.foldl_append]
  simp only [List.foldl_cons, List.foldl_nil]
  exact if_neg h4

/-- **C180, what holds**: for names that are one component of a path. -/
theorem files_partial (ops : List (SysOp α ρ)) (dir : Str) (names l : List Str) (disk : List (List Str)) (s' : State α ρ)
    (hl : (SysOp.run ops).repos.list = .ok l) (h : removeCmd dir names ⟨SysOp.run ops, disk⟩ = .ok s') (hp : ∀ n ∈ names, n ∈ l → Plain n) :
    ∀ x, x ∈ s'.disk ↔ x ∈ disk ∧ ∀ n ∈ names, n ∈ l → ¬ (place dir ++ [n]) <+: x := by
  obtain ⟨ops', disk', g1, _, _, _, g6⟩ := removeLoop_spec dir names ops disk l hl
  rw [g1] at h; cases h
  intro x
  simp only [g6, List.mem_filter, decide_eq_true_eq]
  refine and_congr Iff.rfl ⟨fun h n hn hnl => ?_, fun h n hn hnl => ?_⟩
  · have := h n hn hnl; rw [place_plain dir n (hp n hn hnl), List.isPrefixOf_iff_prefix] at this; exact this
  · rw [place_plain dir n (hp n hn hnl), List.isPrefixOf_iff_prefix]; exact h n hn hnl

/-- A case of the partial statement: two plain names. -/
example : (removeCmd ['/', 'i'] [['a']] (⟨SysOp.run exTwo, [[['i'], ['a'], ['x']], [['i'], ['b']]]⟩ : State Nat Nat)).toOption.map (·.disk) =
    some [[['i'], ['b']]] ∧ Plain ['a'] := ⟨by decide +kernel, by decide, by decide, by decide, by decide⟩

/-! ## add-repo and list-repo -/

/-- **C181.** `add-repo` of a new name puts it where it is asked for; the others keep their order, addresses and packages.  After a yes the
repository is updated if that is possible; if not, or after a no, it is there and has nothing. -/
theorem add_exact (ops : List (SysOp α ρ)) (l : List Str) (hl : (SysOp.run ops).repos.list = .ok l) (net : Answer α) (yes : Bool) (n : Str) (uri : ρ)
    (pos : Option Int) (hn : n ∉ l) (hp : ∀ i, pos = some i → 0 ≤ i ∧ i ≤ l.length) :
    ∃ l', (addCmd net yes n uri pos (SysOp.run ops)).1.repos.list = .ok l' ∧ l'.erase n = l ∧
      ((pos = none → l' = l ++ [n]) ∧ ∀ i, pos = some i → l'[i.toNat]? = some n) ∧
      (addCmd net yes n uri pos (SysOp.run ops)).1.repos.getRepo n = .ok uri ∧
      (∀ k, k ≠ n → (addCmd net yes n uri pos (SysOp.run ops)).1.repos.getRepo k = (SysOp.run ops).repos.getRepo k) ∧
      (∀ r, r ≠ .repo n → SameIn r (SysOp.run ops) (addCmd net yes n uri pos (SysOp.run ops)).1) ∧
      (yes = true ∧ Good false net → Updated false net n (SysOp.run ops) (addCmd net yes n uri pos (SysOp.run ops)).1) ∧
      (¬ (yes = true ∧ Good false net) → Empty (addCmd net yes n uri pos (SysOp.run ops)).1 n) ∧
      ((addCmd net yes n uri pos (SysOp.run ops)).2.isNone ↔ (yes = true → Good false net)) := by
  obtain ⟨d, hd⟩ := (add_repo_succeeds_iff ops l hl n uri pos).mpr ⟨hn, hp⟩
  obtain ⟨l', a1, a2, a3, a4, a5⟩ := add_repo_position ops l hl n uri pos d hd
  obtain ⟨hf, hE⟩ := unlisted ops l hl n hn
  have hrun : ({ SysOp.run ops with repos := d } : System α ρ) = SysOp.run (ops ++ [.addRepo n uri pos]) := by
    rw [run_snoc]; simp [SysOp.step, hd]
  have hhas : (SysOp.run (ops ++ [.addRepo n uri pos])).repos.hasRepo n = true := by
    rw [← hrun]
    cases h : d.hasRepo n with
    | true => rfl
    | false => unfold RepoDB.hasRepo Dict.has at h; unfold RepoDB.getRepo at a3
               cases e : d.entries.get n with
               | none => rw [e] at a3; cases a3
               | some v => rw [e] at h; cases h
  have hpos : (pos = none → l' = l ++ [n]) ∧ ∀ i, pos = some i → l'[i.toNat]? = some n := by
    refine ⟨fun h => by subst h; exact a5, fun i h => ?_⟩
    subst h; unfold RepoDB.repoName at a5; rw [a1] at a5; simpa using a5
  have h0 : SameIn (.repo n) (SysOp.run ops) { SysOp.run ops with repos := d } := fun _ => ⟨rfl, rfl, rfl⟩
  obtain ⟨u1, u2⟩ := updateOne_spec false (ops ++ [.addRepo n uri pos]) n hhas net
  rw [← hrun] at u1 u2
  cases yes with
  | false =>
    have e : addCmd net false n uri pos (SysOp.run ops) = ({ SysOp.run ops with repos := d }, none) := by simp [addCmd, hf, hd]
    rw [e]
    exact ⟨l', a1, a2, hpos, a3, a4, fun r _ _ => ⟨rfl, rfl, rfl⟩, fun h => (nomatch h.1), fun _ => hE, by simp⟩
  | true =>
    cases hu : updateOne false ({ SysOp.run ops with repos := d } : System α ρ) n net with
    | error x =>
      have e : addCmd net true n uri pos (SysOp.run ops) = ({ SysOp.run ops with repos := d }, some x) := by simp [addCmd, hf, hd, hu]
      have hng : ¬ Good false net := fun h => by obtain ⟨y, hy⟩ := u1.mp h; rw [hu] at hy; cases hy
      rw [e]
      exact ⟨l', a1, a2, hpos, a3, a4, fun r _ _ => ⟨rfl, rfl, rfl⟩, fun h => absurd h.2 hng, fun _ => hE, by simp [hng]⟩
    | ok y =>
      have e : addCmd net true n uri pos (SysOp.run ops) = (y, none) := by simp [addCmd, hf, hd, hu]
      have hg : Good false net := u1.mpr ⟨y, hu⟩
      obtain ⟨_, v1, v2, v3⟩ := u2 y hu
      rw [e]
      refine ⟨l', by rw [v1]; exact a1, a2, hpos, by rw [v1]; exact a3, fun k hk => by rw [v1]; exact a4 k hk, fun r hr => ?_, fun _ => ?_,
        fun h => absurd ⟨rfl, hg⟩ h, by simp [hg]⟩
      · exact sameIn_trans (fun _ => ⟨rfl, rfl, rfl⟩) (v3 r hr)
      · exact ⟨fun h => sameIn_trans h0 (v2.1 h), v2.2⟩

/-- A known name or a position outside the list: the command ends with an error and changes nothing. -/
theorem add_refused (ops : List (SysOp α ρ)) (l : List Str) (hl : (SysOp.run ops).repos.list = .ok l) (net : Answer α) (yes : Bool) (n : Str) (uri : ρ)
    (pos : Option Int) (h : ¬ (n ∉ l ∧ ∀ i, pos = some i → 0 ≤ i ∧ i ≤ l.length)) :
    (addCmd net yes n uri pos (SysOp.run ops)).1 = SysOp.run ops ∧ (addCmd net yes n uri pos (SysOp.run ops)).2 ≠ none := by
  rw [← add_repo_succeeds_iff ops l hl n uri pos] at h
  unfold addCmd
  split
  · exact ⟨rfl, by simp⟩
  · cases e : (SysOp.run ops).repos.addRepo n uri pos with
    | ok d => exact absurd ⟨d, e⟩ h
    | error x => exact ⟨rfl, by simp⟩

/-- **C181.** `list-repo` shows every repository with its address, in the order of priority. -/
theorem list_exact (ops : List (SysOp α ρ)) (l : List Str) (hl : (SysOp.run ops).repos.list = .ok l) :
    ∃ out, listCmd (SysOp.run ops) = .ok out ∧ out.map Prod.fst = l ∧ ∀ x ∈ out, (SysOp.run ops).repos.getRepo x.1 = .ok x.2 := by
  obtain ⟨l', h, _, _, hg⟩ := repo_list_consistent ops
  rw [hl] at h; cases h
  have : ∀ l0 : List Str, (∀ n ∈ l0, ∃ x, (SysOp.run ops).repos.getRepo n = .ok x) →
      ∃ out, (l0.mapM fun n => match (SysOp.run ops).repos.getRepo n with | .ok x => Except.ok (ε := RErr) (n, x) | .error e => .error e) = .ok out ∧
        out.map Prod.fst = l0 ∧ ∀ x ∈ out, (SysOp.run ops).repos.getRepo x.1 = .ok x.2 := by
    intro l0
    induction l0 with
    | nil => exact fun _ => ⟨[], rfl, rfl, by simp⟩
    | cons a t ih =>
      intro hh
      obtain ⟨x, hx⟩ := hh a List.mem_cons_self
      obtain ⟨out, o1, o2, o3⟩ := ih fun n hn => hh n (List.mem_cons_of_mem _ hn)
      refine ⟨(a, x) :: out, ?_, by simp [o2], fun z hz => ?_⟩
      · rw [List.mapM_cons, hx, o1]; rfl
      · rcases List.mem_cons.mp hz with rfl | hz
        · exact hx
        · exact o3 z hz
  obtain ⟨out, o1, o2, o3⟩ := this l fun n hn => (hg n).mp hn
  exact ⟨out, by unfold listCmd; rw [hl]; exact o1, o2, o3⟩

/-- A case: the list of two repositories. -/
example : listCmd (SysOp.run exTwo) = .ok [(['a'], 0), (['b'], 1)] ∧
    (addCmd (.got exIx true) true ['c'] 2 (some 0) (SysOp.run exTwo)).1.repos.order = some [['c'], ['a'], ['b']] := by
  constructor <;> decide +kernel

end Pisi.RepoCmd
