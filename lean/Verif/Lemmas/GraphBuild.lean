import Verif.Spec.Graph
import Verif.Lemmas.Graph

/-! Lemmas about graph construction and topological orders. -/
set_option linter.unusedSectionVars false

namespace Pisi.Graph
open Spec
variable {α : Type} [DecidableEq α]

/-- Perform a history of construction calls (`add_vertex`, `add_edge`). -/
def build : List (GOp α) → Digraph α → Except (Err α) (Digraph α)
  | [], g => .ok g
  | .vertex u :: h, g => match g.addVertex u with
    | .ok g' => build h g'
    | .error e => .error e
  | .edge u v :: h, g => build h (g.addEdge u v)

/-- The same graph with its sets iterated in another order (Python set order is arbitrary). -/
structure Shuffle (g g' : Digraph α) : Prop where
  verts : g'.verts.Perm g.verts
  adj : ∀ u, (g'.adj u).Perm (g.adj u)

theorem ensure_mem (g : Digraph α) (u x : α) : x ∈ (g.ensure u).verts ↔ x ∈ g.verts ∨ x = u := by
  unfold Digraph.ensure
  split
  · next h => exact ⟨Or.inl, fun h' => h'.elim id (fun e => e ▸ h)⟩
  · simp

theorem ensure_adj (g : Digraph α) (hg : g.WF) (u x : α) : (g.ensure u).adj x = g.adj x := by
  unfold Digraph.ensure
  split
  · rfl
  · next h =>
    simp only
    split
    · next e =>
      subst e
      cases hx : g.adj x with
      | nil => rfl
      | cons y _ => exact absurd (hg.src x y (by simp [hx])) h
    · rfl

theorem ensure_wf (g : Digraph α) (hg : g.WF) (u : α) : (g.ensure u).WF := by
  constructor
  · unfold Digraph.ensure
    split
    · exact hg.nodup
    · next h =>
      rw [List.nodup_append]
      refine ⟨hg.nodup, by simp, ?_⟩
      intro a ha b hb e
      simp only [List.mem_singleton] at hb
      exact h (hb ▸ e ▸ ha)
  · intro a b hab
    rw [ensure_adj g hg] at hab
    exact (ensure_mem g u a).mpr (Or.inl (hg.src a b hab))
  · intro a b hab
    rw [ensure_adj g hg] at hab
    exact (ensure_mem g u b).mpr (Or.inl (hg.tgt a b hab))

theorem addEdge_mem (g : Digraph α) (u v x : α) :
    x ∈ (g.addEdge u v).verts ↔ x ∈ g.verts ∨ x = u ∨ x = v := by
  simp [Digraph.addEdge, ensure_mem, or_assoc]

theorem addEdge_adj (g : Digraph α) (hg : g.WF) (u v x y : α) :
    y ∈ (g.addEdge u v).adj x ↔ y ∈ g.adj x ∨ (x = u ∧ y = v) := by
  simp only [Digraph.addEdge, ensure_adj _ (ensure_wf g hg u), ensure_adj g hg]
  split
  · next h => obtain ⟨rfl, _⟩ := h; simp
  · next h =>
    constructor
    · exact Or.inl
    · rintro (h' | ⟨rfl, rfl⟩)
      · exact h'
      · simpa using h

theorem addEdge_wf (g : Digraph α) (hg : g.WF) (u v : α) : (g.addEdge u v).WF := by
  constructor
  · exact (ensure_wf _ (ensure_wf g hg u) v).nodup
  · intro a b h
    rw [addEdge_adj g hg] at h
    rw [addEdge_mem]
    rcases h with h | ⟨rfl, rfl⟩
    · exact Or.inl (hg.src a b h)
    · simp
  · intro a b h
    rw [addEdge_adj g hg] at h
    rw [addEdge_mem]
    rcases h with h | ⟨rfl, rfl⟩
    · exact Or.inl (hg.tgt a b h)
    · simp

theorem addVertex_ok {g g' : Digraph α} {u : α} (h : g.addVertex u = .ok g') :
    g' = g.ensure u ∧ u ∉ g.verts := by
  unfold Digraph.addVertex at h
  split at h
  · simp at h
  · next hn =>
    simp only [Except.ok.injEq] at h
    subst h
    simp [Digraph.ensure, hn]

theorem build_spec (h : List (GOp α)) : ∀ (g g' : Digraph α), g.WF → build h g = .ok g' →
    g'.WF ∧ (∀ x, x ∈ g'.verts ↔ x ∈ g.verts ∨ V h x) ∧
    (∀ x y, y ∈ g'.adj x ↔ y ∈ g.adj x ∨ E h x y) := by
  induction h with
  | nil =>
    intro g g' hg hb
    simp only [build, Except.ok.injEq] at hb
    subst hb
    simp [V, E, hg]
  | cons o h ih =>
    intro g g' hg hb
    cases o with
    | vertex u =>
      simp only [build] at hb
      cases hv : g.addVertex u with
      | error e => simp [hv] at hb
      | ok g1 =>
        rw [hv] at hb
        obtain ⟨rfl, hn⟩ := addVertex_ok hv
        obtain ⟨a, b, c⟩ := ih _ _ (ensure_wf g hg u) hb
        refine ⟨a, ?_, ?_⟩
        · intro x; rw [b, ensure_mem]; simp [V, Mentions, or_assoc]
        · intro x y; rw [c, ensure_adj g hg]; simp [E]
    | edge u v =>
      simp only [build] at hb
      obtain ⟨a, b, c⟩ := ih _ _ (addEdge_wf g hg u v) hb
      refine ⟨a, ?_, ?_⟩
      · intro x; rw [b, addEdge_mem]; simp [V, Mentions, or_assoc]
      · intro x y; rw [c, addEdge_adj g hg]; simp [E, or_assoc]

theorem empty_wf : (Digraph.empty : Digraph α).WF := ⟨by simp [Digraph.empty], by simp [Digraph.empty],
  by simp [Digraph.empty]⟩

theorem Shuffle.wf {g g' : Digraph α} (h : Shuffle g g') (hg : g.WF) : g'.WF :=
  ⟨(h.verts.nodup_iff).mpr hg.nodup, fun u v hv => h.verts.mem_iff.mpr (hg.src u v ((h.adj u).mem_iff.mp hv)),
   fun u v hv => h.verts.mem_iff.mpr (hg.tgt u v ((h.adj u).mem_iff.mp hv))⟩

/-- `add_vertex` fails exactly on a vertex already present. -/
theorem graph_add_vertex_error (g : Digraph α) (u : α) :
    (∃ e, g.addVertex u = .error e) ↔ u ∈ g.verts := by
  unfold Digraph.addVertex
  split <;> simp_all

theorem before_reverse {l : List α} {u v : α} (h : Before l u v) : Before l.reverse v u := by
  obtain ⟨a, b, c, rfl⟩ := h
  exact ⟨c.reverse, b.reverse, a.reverse, by simp⟩

theorem topo_of_dfs (g : Digraph α) (hg : g.WF) (l : List α) (h : topologicalSort g = .ok l) :
    IsTopo (· ∈ g.verts) (fun u v => v ∈ g.adj u) l := by
  have hs := dfs_spec g hg
  unfold topologicalSort at h
  generalize dfs g = r at hs h
  match r, hs with
  | .error (.cycle p), _ => simp at h
  | .error .fuel, hf => exact hf.elim
  | .error .assertion, hf => exact hf.elim
  | .ok s, ⟨h1, h2, h3⟩ =>
    simp only [Except.ok.injEq] at h
    subst h
    refine ⟨?_, fun x => by simp [h2 x], ?_⟩
    · exact List.nodup_reverse.mpr h1
    · intro u v huv
      have hu : u ∈ s.fin := (h2 u).mpr (hg.src u v huv)
      obtain ⟨a, b, hab⟩ := List.append_of_mem hu
      have hv : v ∈ a := h3 a u b hab v huv
      obtain ⟨c, d, hcd⟩ := List.append_of_mem hv
      apply before_reverse
      exact ⟨c, d, b, by simp [hab, hcd]⟩

theorem before_trans {l : List α} (hn : l.Nodup) {u v w : α} (h1 : Before l u v) (h2 : Before l v w) :
    Before l u w := by
  obtain ⟨a, b, c, rfl⟩ := h1
  obtain ⟨a', b', c', h⟩ := h2
  have h' : (a ++ u :: b) ++ v :: c = a' ++ v :: (b' ++ w :: c') := by simpa using h
  have hvn : v ∉ a ++ u :: b := by
    intro hv
    have hn' : ((a ++ u :: b) ++ v :: c).Nodup := by simpa using hn
    rw [List.nodup_append] at hn'
    exact hn'.2.2 v hv v (by simp) rfl
  have hvn' : v ∉ a' := by
    intro hv
    rw [h] at hn
    rw [List.nodup_append] at hn
    exact hn.2.2 v hv v (by simp) rfl
  obtain ⟨_, e⟩ : a ++ u :: b = a' ∧ v :: c = v :: (b' ++ w :: c') := by
    have := List.append_eq_append_iff.mp h'
    rcases this with ⟨m, hm1, hm2⟩ | ⟨m, hm1, hm2⟩
    · cases m with
      | nil => simp at hm1 hm2; exact ⟨hm1.symm, by rw [hm2]⟩
      | cons z m =>
        simp only [List.cons_append, List.cons.injEq] at hm2
        exact absurd (by rw [hm1, hm2.1]; simp) hvn'
    · cases m with
      | nil => simp at hm1 hm2; exact ⟨hm1, by rw [hm2]⟩
      | cons z m =>
        simp only [List.cons_append, List.cons.injEq] at hm2
        exact absurd (by rw [hm1, hm2.1]; simp) hvn
  simp only [List.cons.injEq, true_and] at e
  subst e
  exact ⟨a, b ++ v :: b', c', by simp⟩

theorem before_irrefl {l : List α} (hn : l.Nodup) (u : α) : ¬ Before l u u := by
  rintro ⟨a, b, c, rfl⟩
  rw [List.nodup_append] at hn
  have := (List.nodup_cons.mp hn.2.1).1
  simp at this

theorem topo_acyclic {V : α → Prop} {E : α → α → Prop} {l : List α} (h : IsTopo V E l) : ¬ Cyclic E := by
  rintro ⟨x, hx⟩
  have : ∀ {u v}, Relation.TransGen E u v → Before l u v := by
    intro u v huv
    induction huv with
    | single h' => exact h.forward _ _ h'
    | tail _ h' ih => exact before_trans h.once ih (h.forward _ _ h')
  exact before_irrefl h.once x (this hx)

theorem transGen_trans {E : α → α → Prop} {x y z : α} (h1 : Relation.TransGen E x y)
    (h2 : Relation.TransGen E y z) : Relation.TransGen E x z := by
  induction h2 with
  | single h => exact .tail h1 h
  | tail _ h ih => exact .tail ih h

theorem stack_reach (g : Digraph α) (l : List α) : ∀ u, StackEdges g (u :: l) → ∀ v ∈ l,
    Relation.TransGen (fun u v => v ∈ g.adj u) v u := by
  induction l with
  | nil => simp
  | cons y l ih =>
    intro u hs v hv
    obtain ⟨h1, h2⟩ := hs
    rcases List.mem_cons.mp hv with rfl | hv
    · exact .single h1
    · exact .tail (ih y h2 v hv) h1

theorem cyclePath_cyclic {g : Digraph α} {p : List α} (h : CyclePath g p) :
    Cyclic (fun u v => v ∈ g.adj u) := by
  obtain ⟨u, v, hl, hv, huv⟩ := h.close
  have hw := h.walk
  have hrev : ∃ l, p.reverse = u :: l := by
    rw [List.getLast?_eq_some_iff] at hl
    obtain ⟨ys, rfl⟩ := hl
    exact ⟨ys.reverse, by simp⟩
  obtain ⟨l, hl'⟩ := hrev
  rw [hl'] at hw
  have hv' : v ∈ u :: l := by rw [← hl']; simpa using hv
  rcases List.mem_cons.mp hv' with rfl | hv'
  · exact ⟨v, .single huv⟩
  · exact ⟨v, .tail (stack_reach g l u hw v hv') huv⟩

theorem cyclic_congr {E E' : α → α → Prop} (h : ∀ u v, E u v ↔ E' u v) : Cyclic E ↔ Cyclic E' := by
  have : E = E' := by funext u v; exact propext (h u v)
  rw [this]

end Pisi.Graph
