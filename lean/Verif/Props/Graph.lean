import Verif.Lemmas.GraphBuild

/-!
# C06, C07, C08: the dependency graph class
-/
set_option linter.unusedSectionVars false

namespace Pisi.Graph
open Spec
variable {α : Type} [DecidableEq α]

/-- **C06 (construction).** A graph built by any history of calls contains exactly the vertices and edges
that were added, and a call fails exactly when `add_vertex` repeats a vertex. -/
theorem graph_contents (h : List (GOp α)) (g : Digraph α) (hb : build h Digraph.empty = .ok g) :
    (∀ x, x ∈ g.verts ↔ V h x) ∧ (∀ x y, g.hasEdge x y = true ↔ E h x y) ∧ g.verts.Nodup := by
  obtain ⟨a, b, c⟩ := build_spec h _ _ empty_wf hb
  refine ⟨fun x => by simp [b x, Digraph.empty], fun x y => ?_, a.nodup⟩
  have : E h x y ↔ y ∈ g.adj x := by simp [c x y, Digraph.empty]
  rw [this]
  unfold Digraph.hasEdge
  split
  · simp
  · next hn => simp; exact fun hy => hn (a.src x y hy)

/-- `from_list` on an edge list is the corresponding history. -/
theorem fromList_build (el : List (α × α)) (g : Digraph α) :
    build (el.map fun e => GOp.edge e.1 e.2) g = .ok (g.fromList el) := by
  induction el generalizing g with
  | nil => rfl
  | cons e el ih =>
    simp only [List.map_cons, build]
    exact ih (g.addEdge e.1 e.2)

/-- **C06.** Whatever calls built the graph and whatever order its sets are iterated in, a sort that
returns lists every vertex exactly once with every edge pointing forward. -/
theorem topological_sort_sound (h : List (GOp α)) (g g' : Digraph α)
    (hb : build h Digraph.empty = .ok g) (hs : Shuffle g g') (l : List α)
    (hl : topologicalSort g' = .ok l) : IsTopo (V h) (E h) l := by
  obtain ⟨a, b, c⟩ := build_spec h _ _ empty_wf hb
  have ht := topo_of_dfs g' (hs.wf a) l hl
  refine ⟨ht.once, fun x => ?_, fun u v huv => ht.forward u v ?_⟩
  · rw [ht.all x, hs.verts.mem_iff, b x]; simp [Digraph.empty]
  · rw [(hs.adj u).mem_iff, c u v]; exact Or.inr huv

/-- **C07.** For every construction history and every iteration order: the sort succeeds exactly when
the edges form no directed cycle; otherwise it raises the cycle error (and no other).  `cycle_free`
answers accordingly, and neither ever runs forever. -/
theorem cycle_detection_exact (h : List (GOp α)) (g g' : Digraph α)
    (hb : build h Digraph.empty = .ok g) (hs : Shuffle g g') :
    ((∃ l, topologicalSort g' = .ok l) ↔ ¬ Cyclic (E h)) ∧
    ((∃ p, topologicalSort g' = .error (.cycle p)) ↔ Cyclic (E h)) ∧
    (cycleFree g' = .ok true ↔ ¬ Cyclic (E h)) ∧ (cycleFree g' = .ok false ↔ Cyclic (E h)) := by
  obtain ⟨a, b, c⟩ := build_spec h _ _ empty_wf hb
  have hE : ∀ u v, v ∈ g'.adj u ↔ E h u v := by
    intro u v; rw [(hs.adj u).mem_iff, c u v]; simp [Digraph.empty]
  have hd := dfs_spec g' (hs.wf a)
  have ht := topo_of_dfs g' (hs.wf a)
  unfold topologicalSort cycleFree at *
  generalize dfs g' = r at hd ht
  match r, hd with
  | .error .fuel, hf => exact hf.elim
  | .error .assertion, hf => exact hf.elim
  | .error (.cycle p), hp =>
    have := (cyclic_congr hE).mp (cyclePath_cyclic hp)
    simp [this]
  | .ok s, _ =>
    have := topo_acyclic (ht _ rfl)
    rw [cyclic_congr hE] at this
    simp [this]

/-- **C08, full statement**: whenever a cycle is reported, the reported vertices form a cycle. -/
def ReportedCycleIsCycle : Prop :=
  ∀ (h : List (GOp Nat)) (g g' : Digraph Nat), build h Digraph.empty = .ok g → Shuffle g g' →
    ∀ p, topologicalSort g' = .error (.cycle p) → IsCycle (E h) p

/-- The history 1 → 2 → 3 → 2 used as witness. -/
def lassoHist : List (GOp Nat) := [.edge 1 2, .edge 2 3, .edge 3 2]

/-- **C08 is false of the code**: for 1 → 2 → 3 → 2 the report is [1, 2, 3], which is not a cycle. -/
theorem reported_cycle_refuted : ¬ ReportedCycleIsCycle := by
  intro hall
  have := hall lassoHist (Digraph.empty.fromList [(1, 2), (2, 3), (3, 2)])
    (Digraph.empty.fromList [(1, 2), (2, 3), (3, 2)])
    (fromList_build [(1, 2), (2, 3), (3, 2)] Digraph.empty) ⟨List.Perm.refl _, fun _ => List.Perm.refl _⟩ [1, 2, 3]
    (by rfl)
  obtain ⟨_, _, a, b, ha, hb, he⟩ := this
  simp at ha hb
  subst ha hb
  simp [E, lassoHist] at he

theorem walk_reverse {g : Digraph α} : ∀ (l : List α), StackEdges g l →
    Walk (fun u v => v ∈ g.adj u) l.reverse := by
  have app : ∀ (l : List α) (y x : α), Walk (fun u v => v ∈ g.adj u) (l ++ [y]) → x ∈ g.adj y →
      Walk (fun u v => v ∈ g.adj u) (l ++ [y] ++ [x]) := by
    intro l
    induction l with
    | nil => intro y x _ h; exact ⟨h, trivial⟩
    | cons z l ih =>
      intro y x hw h
      cases l with
      | nil => exact ⟨hw.1, h, trivial⟩
      | cons z' l => exact ⟨hw.1, ih y x hw.2 h⟩
  intro l
  induction l with
  | nil => intro _; trivial
  | cons x l ih =>
    intro hs
    cases l with
    | nil => trivial
    | cons y l =>
      have := ih hs.2
      simp only [List.reverse_cons] at this ⊢
      exact app _ y x this hs.1

theorem walk_suffix {E : α → α → Prop} (a b : List α) (h : Walk E (a ++ b)) : Walk E b := by
  induction a with
  | nil => exact h
  | cons x a ih =>
    apply ih
    cases hab : a ++ b with
    | nil => trivial
    | cons y l => rw [List.cons_append, hab] at h; exact h.2

theorem walk_congr {E E' : α → α → Prop} (he : ∀ u v, E u v ↔ E' u v) {l : List α} (h : Walk E l) :
    Walk E' l := by
  have : E = E' := by funext u v; exact propext (he u v)
  exact this ▸ h

/-- **C08, proved part**: the reported list is a walk without repetition, and a suffix of it is a cycle.
Missing: the report may start with vertices that lead to the cycle but are not on it. -/
theorem reported_cycle_partial (h : List (GOp α)) (g g' : Digraph α)
    (hb : build h Digraph.empty = .ok g) (hs : Shuffle g g') (p : List α)
    (hp : topologicalSort g' = .error (.cycle p)) :
    p.Nodup ∧ Walk (E h) p ∧ ∃ pre c, p = pre ++ c ∧ IsCycle (E h) c := by
  obtain ⟨a, b, c⟩ := build_spec h _ _ empty_wf hb
  have hE : ∀ u v, v ∈ g'.adj u ↔ E h u v := by
    intro u v; rw [(hs.adj u).mem_iff, c u v]; simp [Digraph.empty]
  have hd := dfs_spec g' (hs.wf a)
  unfold topologicalSort at hp
  generalize dfs g' = r at hd hp
  match r, hd with
  | .error .fuel, hf => exact hf.elim
  | .error .assertion, hf => exact hf.elim
  | .ok s, _ => simp at hp
  | .error (.cycle p'), hcp =>
    simp only [Except.error.injEq, Err.cycle.injEq] at hp
    subst hp
    have hw : Walk (E h) p' := by
      have := walk_reverse _ hcp.walk
      rw [List.reverse_reverse] at this
      exact walk_congr hE this
    refine ⟨hcp.nodup, hw, ?_⟩
    obtain ⟨u, v, hl, hv, huv⟩ := hcp.close
    obtain ⟨pre, post, rfl⟩ := List.append_of_mem hv
    refine ⟨pre, v :: post, rfl, ?_, walk_suffix _ _ hw, v, u, by simp, ?_, (hE u v).mp huv⟩
    · exact (List.nodup_append.mp hcp.nodup).2.1
    · rw [List.getLast?_append] at hl
      simpa using hl

/-! ### Non-vacuity -/

/-- A diamond with an extra isolated vertex sorts, in a particular iteration order. -/
example : topologicalSort (Digraph.empty.fromList [(1, 2), (1, 3), (2, 4), (3, 4)]) = .ok [1, 3, 2, 4] := by
  rfl

example : Cyclic (E lassoHist) := ⟨2, .tail (.single (b := 3) (by simp [E, lassoHist])) (by simp [E, lassoHist])⟩

example : ∃ p, topologicalSort (Digraph.empty.fromList [(1, 2), (2, 3), (3, 2)]) = .error (.cycle p) := ⟨[1, 2, 3], by rfl⟩

end Pisi.Graph
