import Verif.Model.Plan
import Verif.Lemmas.GraphBuild

/-! Lemmas about the closure loop of the planners. -/
set_option linter.unusedSectionVars false

namespace Pisi.Plan
open Pisi.Graph

variable {α δ ε : Type} [DecidableEq α]

/-- `x` leads to `y` in the loop. -/
def Loop.R (L : Loop α δ ε) (x y : α) : Prop :=
  ∃ ds d, L.deps x = .ok ds ∧ d ∈ ds ∧ L.keep x d = .ok true ∧ L.tgt d = y

/-- No test on the dependencies of `x` raises. -/
def Loop.Clean (L : Loop α δ ε) (x : α) : Prop :=
  ∃ ds, L.deps x = .ok ds ∧ ∀ d ∈ ds, ∃ b, L.keep x d = .ok b

/-- Vertices expanded when starting from frontier `B` with vertices `V` present. -/
inductive Loop.Exp (L : Loop α δ ε) (V B : List α) : α → Prop
  | base {x : α} (h : x ∈ B) : L.Exp V B x
  | step {x y : α} (hx : L.Exp V B x) (h : L.R x y) (hy : y ∉ V) : L.Exp V B y

/-- Why the loop may raise `e`. -/
def Loop.Fails (L : Loop α δ ε) (V : List α) (x : α) (e : ε) : Prop :=
  L.deps x = .error e ∨ (∃ ds d, L.deps x = .ok ds ∧ d ∈ ds ∧ L.keep x d = .error e) ∨
    ∃ y, L.R x y ∧ y ∉ V ∧ L.fetch y = .error e

/-- `u` occurs before `v` in `l` (as positions in a duplicate-free list). -/
def Pos (l : List α) (u v : α) : Prop := ∃ a b, l = a ++ b ∧ u ∈ a ∧ v ∈ b

theorem link_verts_old {g : Digraph α} {x y : α} (hx : x ∈ g.verts) (hy : y ∈ g.verts) (dir : Dir) :
    (dir.link g x y).verts = g.verts := by
  cases dir with
  | fwd => simp [Dir.link, Digraph.addEdge, Digraph.ensure, hx, hy]
  | rev => simp [Dir.link, hy]

theorem link_verts_new {g : Digraph α} {x y : α} (hx : x ∈ g.verts) (hy : y ∉ g.verts) (dir : Dir) :
    (dir.link g x y).verts = g.verts ++ [y] := by
  cases dir with
  | fwd => simp [Dir.link, Digraph.addEdge, Digraph.ensure, hx, hy]
  | rev => simp [Dir.link, Digraph.addEdge, Digraph.ensure, hx, hy]

theorem link_wf {g : Digraph α} (hg : g.WF) (x y : α) (dir : Dir) : (dir.link g x y).WF := by
  cases dir with
  | fwd => exact addEdge_wf g hg x y
  | rev => simp only [Dir.link]; split
           · exact hg
           · exact addEdge_wf g hg y x

theorem link_adj_fwd {g : Digraph α} (hg : g.WF) (x y u v : α) :
    v ∈ (Dir.fwd.link g x y).adj u ↔ v ∈ g.adj u ∨ (u = x ∧ v = y) := addEdge_adj g hg x y u v

theorem link_adj_rev {g : Digraph α} (hg : g.WF) (x y u v : α) :
    v ∈ (Dir.rev.link g x y).adj u ↔ v ∈ g.adj u ∨ (y ∉ g.verts ∧ u = y ∧ v = x) := by
  simp only [Dir.link]
  split
  · next h => simp [h]
  · next h => rw [addEdge_adj g hg y x u v]; simp [h]

/-- Effect of a successful part of the loop in which the vertices of `xs` were expanded using the
dependency instances `K x y`, and `new` were discovered. -/
structure Grew (dir : Dir) (g g' : Digraph α) (new : List α) (K : α → α → Prop) : Prop where
  verts : g'.verts = g.verts ++ new
  wf : g'.WF
  newK : ∀ y ∈ new, ∃ x, K x y
  allK : ∀ x y, K x y → y ∈ g'.verts
  fwd : dir = .fwd → ∀ u v, v ∈ g'.adj u ↔ v ∈ g.adj u ∨ K u v
  rev : dir = .rev → ∀ u v, v ∈ g'.adj u → v ∈ g.adj u ∨ (u ∈ new ∧ K v u ∧ Pos g'.verts v u)
  par : dir = .rev → ∀ u ∈ new, ∃ v, K v u ∧ v ∈ g'.adj u
  mono : ∀ u v, v ∈ g.adj u → v ∈ g'.adj u

theorem Grew.new_notin {dir : Dir} {g g' : Digraph α} {new : List α} {K : α → α → Prop}
    (h : Grew dir g g' new K) {y : α} (hy : y ∈ new) : y ∉ g.verts := by
  have := h.wf.nodup
  rw [h.verts, List.nodup_append] at this
  exact fun hg => this.2.2 y hg y hy rfl

theorem Grew.refl {dir : Dir} {g : Digraph α} (hg : g.WF) : Grew dir g g [] (fun _ _ => False) :=
  ⟨by simp, hg, by simp, fun _ _ h => h.elim, fun _ u v => by simp, fun _ u v h => Or.inl h,
    fun _ u h => by simp at h, fun _ _ h => h⟩

theorem Pos.append {l m : List α} {u v : α} (h : Pos l u v) : Pos (l ++ m) u v := by
  obtain ⟨a, b, rfl, hu, hv⟩ := h
  exact ⟨a, b ++ m, by simp, hu, by simp [hv]⟩

theorem Grew.trans {dir : Dir} {g g' g'' : Digraph α} {new new' : List α} {K K' : α → α → Prop}
    (h : Grew dir g g' new K) (h' : Grew dir g' g'' new' K') :
    Grew dir g g'' (new ++ new') (fun x y => K x y ∨ K' x y) := by
  refine ⟨?_, h'.wf, ?_, ?_, ?_, ?_, ?_, fun u v hv => h'.mono u v (h.mono u v hv)⟩
  · rw [h'.verts, h.verts, List.append_assoc]
  · intro y hy
    rcases List.mem_append.mp hy with hy | hy
    · obtain ⟨x, hx⟩ := h.newK y hy; exact ⟨x, Or.inl hx⟩
    · obtain ⟨x, hx⟩ := h'.newK y hy; exact ⟨x, Or.inr hx⟩
  · rintro x y (hk | hk)
    · rw [h'.verts]; exact List.mem_append_left _ (h.allK x y hk)
    · exact h'.allK x y hk
  · intro hd u v
    rw [h'.fwd hd, h.fwd hd, or_assoc]
  · intro hd u v hv
    rcases h'.rev hd u v hv with hv | ⟨a, b, c⟩
    · rcases h.rev hd u v hv with hv | ⟨a, b, c⟩
      · exact Or.inl hv
      · exact Or.inr ⟨by simp [a], Or.inl b, by rw [h'.verts]; exact c.append⟩
    · exact Or.inr ⟨by simp [a], Or.inr b, c⟩
  · intro hd u hu
    rcases List.mem_append.mp hu with hu | hu
    · obtain ⟨v, hk, hv⟩ := h.par hd u hu; exact ⟨v, Or.inl hk, h'.mono u v hv⟩
    · obtain ⟨v, hk, hv⟩ := h'.par hd u hu; exact ⟨v, Or.inr hk, hv⟩

theorem Grew.congr {dir : Dir} {g g' : Digraph α} {new : List α} {K K' : α → α → Prop}
    (h : Grew dir g g' new K) (hK : ∀ x y, K x y ↔ K' x y) : Grew dir g g' new K' := by
  have : K = K' := by funext x y; exact propext (hK x y)
  exact this ▸ h

/-- One followed dependency. -/
theorem grew_link (dir : Dir) {g : Digraph α} (hg : g.WF) {x y : α} (hx : x ∈ g.verts) :
    Grew dir g (dir.link g x y) (if y ∈ g.verts then [] else [y]) (fun a b => a = x ∧ b = y) := by
  by_cases hy : y ∈ g.verts
  · simp only [hy, if_true]
    refine ⟨by simp [link_verts_old hx hy], link_wf hg x y dir, by simp, ?_, ?_, ?_, ?_, ?_⟩
    · rintro a b ⟨rfl, rfl⟩; rw [link_verts_old hx hy]; exact hy
    · rintro rfl u v; exact link_adj_fwd hg x y u v
    · rintro rfl u v hv
      rw [link_adj_rev hg] at hv
      rcases hv with hv | ⟨hn, _⟩
      · exact Or.inl hv
      · exact absurd hy hn
    · intro _ u hu; simp at hu
    · intro u v hv
      cases dir with
      | fwd => exact (link_adj_fwd hg x y u v).mpr (Or.inl hv)
      | rev => exact (link_adj_rev hg x y u v).mpr (Or.inl hv)
  · simp only [hy, if_false]
    refine ⟨link_verts_new hx hy dir, link_wf hg x y dir, ?_, ?_, ?_, ?_, ?_, ?_⟩
    · intro z hz; simp only [List.mem_singleton] at hz; exact ⟨x, rfl, hz⟩
    · rintro a b ⟨rfl, rfl⟩; rw [link_verts_new hx hy]; simp
    · rintro rfl u v; exact link_adj_fwd hg x y u v
    · rintro rfl u v hv
      rw [link_adj_rev hg] at hv
      rcases hv with hv | ⟨_, rfl, rfl⟩
      · exact Or.inl hv
      · right
        refine ⟨by simp, ⟨rfl, rfl⟩, g.verts, [u], ?_, hx, by simp⟩
        exact link_verts_new hx hy .rev
    · rintro rfl u hu
      simp only [List.mem_singleton] at hu
      subst hu
      exact ⟨x, ⟨rfl, rfl⟩, (link_adj_rev hg x u u x).mpr (Or.inr ⟨hy, rfl, rfl⟩)⟩
    · intro u v hv
      cases dir with
      | fwd => exact (link_adj_fwd hg x y u v).mpr (Or.inl hv)
      | rev => exact (link_adj_rev hg x y u v).mpr (Or.inl hv)

variable (L : Loop α δ ε)

theorem scan_spec (x : α) (ds : List δ) : ∀ (g : Digraph α) (bp : List α), g.WF → x ∈ g.verts →
    match L.scan x ds (g, bp) with
    | .ok (g', bp') => ∃ new, bp' = bp ++ new ∧ (∀ d ∈ ds, ∃ b, L.keep x d = .ok b) ∧
        (∀ y ∈ new, L.fetch y = .ok ()) ∧
        Grew L.dir g g' new (fun a b => a = x ∧ ∃ d ∈ ds, L.keep x d = .ok true ∧ L.tgt d = b)
    | .error e => ∃ d ∈ ds, L.keep x d = .error e ∨
        (L.keep x d = .ok true ∧ L.tgt d ∉ g.verts ∧ L.fetch (L.tgt d) = .error e) := by
  induction ds with
  | nil =>
    intro g bp hg _
    exact ⟨[], by simp, by simp, by simp, (Grew.refl hg).congr (by simp)⟩
  | cons d ds ih =>
    intro g bp hg hx
    simp only [Loop.scan]
    cases hk : L.keep x d with
    | error e => exact ⟨d, by simp, Or.inl hk⟩
    | ok b =>
      cases b with
      | false =>
        have h := ih g bp hg hx
        simp only []
        cases hs : L.scan x ds (g, bp) with
        | error e =>
          rw [hs] at h
          obtain ⟨d', hd', h'⟩ := h
          exact ⟨d', by simp [hd'], h'⟩
        | ok r =>
          obtain ⟨g', bp'⟩ := r
          rw [hs] at h
          obtain ⟨new, h1, h2, h3, h4⟩ := h
          refine ⟨new, h1, ?_, h3, h4.congr ?_⟩
          · intro d' hd'
            rcases List.mem_cons.mp hd' with rfl | hd'
            · exact ⟨_, hk⟩
            · exact h2 d' hd'
          · intro a b; simp [hk]
      | true =>
        simp only []
        have hx' : x ∈ (L.dir.link g x (L.tgt d)).verts := by
          by_cases hy : L.tgt d ∈ g.verts
          · rw [link_verts_old hx hy]; exact hx
          · rw [link_verts_new hx hy]; simp [hx]
        have hl := grew_link L.dir hg (x := x) (y := L.tgt d) hx
        have comb : ∀ (bp0 : List α) , (∀ y ∈ (if L.tgt d ∈ g.verts then [] else [L.tgt d]), L.fetch y = .ok ()) →
            bp0 = bp ++ (if L.tgt d ∈ g.verts then [] else [L.tgt d]) →
            match L.scan x ds (L.dir.link g x (L.tgt d), bp0) with
            | .ok (g', bp') => ∃ new, bp' = bp ++ new ∧ (∀ d' ∈ d :: ds, ∃ b, L.keep x d' = .ok b) ∧
                (∀ y ∈ new, L.fetch y = .ok ()) ∧
                Grew L.dir g g' new (fun a b => a = x ∧ ∃ d' ∈ d :: ds, L.keep x d' = .ok true ∧ L.tgt d' = b)
            | .error e => ∃ d' ∈ d :: ds, L.keep x d' = .error e ∨
                (L.keep x d' = .ok true ∧ L.tgt d' ∉ g.verts ∧ L.fetch (L.tgt d') = .error e) := by
          intro bp0 hf hbp0
          have h := ih (L.dir.link g x (L.tgt d)) bp0 (link_wf hg _ _ _) hx'
          cases hs : L.scan x ds (L.dir.link g x (L.tgt d), bp0) with
          | error e =>
            rw [hs] at h
            obtain ⟨d', hd', h'⟩ := h
            refine ⟨d', by simp [hd'], ?_⟩
            rcases h' with h' | ⟨h1, h2, h3⟩
            · exact Or.inl h'
            · refine Or.inr ⟨h1, fun hm => h2 ?_, h3⟩
              rw [hl.verts]; simp [hm]
          | ok r =>
            obtain ⟨g', bp'⟩ := r
            rw [hs] at h
            obtain ⟨new, h1, h2, h3, h4⟩ := h
            refine ⟨_ ++ new, ?_, ?_, ?_, (hl.trans h4).congr ?_⟩
            · rw [h1, hbp0, List.append_assoc]
            · intro d' hd'
              rcases List.mem_cons.mp hd' with rfl | hd'
              · exact ⟨_, hk⟩
              · exact h2 d' hd'
            · intro y hy
              rcases List.mem_append.mp hy with hy | hy
              · exact hf y hy
              · exact h3 y hy
            · intro a b
              simp only [List.mem_cons, exists_eq_or_imp, hk, true_and]
              constructor
              · rintro (⟨rfl, rfl⟩ | ⟨rfl, h⟩)
                · exact ⟨rfl, Or.inl rfl⟩
                · exact ⟨rfl, Or.inr h⟩
              · rintro ⟨rfl, rfl | h⟩
                · exact Or.inl ⟨rfl, rfl⟩
                · exact Or.inr ⟨rfl, h⟩
        by_cases hy : L.tgt d ∈ g.verts
        · simp only [hy, if_true]
          exact comb bp (by simp [hy]) (by simp [hy])
        · simp only [hy, if_false]
          cases hf : L.fetch (L.tgt d) with
          | error e => exact ⟨d, by simp, Or.inr ⟨hk, hy, hf⟩⟩
          | ok u =>
            simp only []
            exact comb _ (by simp [hy, hf]) (by simp [hy])

theorem round_spec (xs : List α) : ∀ (g : Digraph α) (bp : List α), g.WF → (∀ x ∈ xs, x ∈ g.verts) →
    match L.round xs (g, bp) with
    | .ok (g', bp') => ∃ new, bp' = bp ++ new ∧ (∀ x ∈ xs, L.Clean x) ∧
        (∀ y ∈ new, L.fetch y = .ok ()) ∧
        Grew L.dir g g' new (fun a b => a ∈ xs ∧ L.R a b)
    | .error e => ∃ x ∈ xs, L.Fails g.verts x e := by
  induction xs with
  | nil =>
    intro g bp hg _
    exact ⟨[], by simp, by simp, by simp, (Grew.refl hg).congr (by simp)⟩
  | cons x xs ih =>
    intro g bp hg hxs
    simp only [Loop.round]
    cases hd : L.deps x with
    | error e => exact ⟨x, by simp, Or.inl hd⟩
    | ok ds =>
      simp only []
      have hs := scan_spec L x ds g bp hg (hxs x (by simp))
      cases hsc : L.scan x ds (g, bp) with
      | error e =>
        rw [hsc] at hs
        obtain ⟨d, hd', h⟩ := hs
        refine ⟨x, by simp, Or.inr ?_⟩
        rcases h with h | ⟨h1, h2, h3⟩
        · exact Or.inl ⟨ds, d, hd, hd', h⟩
        · exact Or.inr ⟨L.tgt d, ⟨ds, d, hd, hd', h1, rfl⟩, h2, h3⟩
      | ok r =>
        obtain ⟨g1, bp1⟩ := r
        rw [hsc] at hs
        obtain ⟨new1, h1, h2, h3, h4⟩ := hs
        simp only []
        have hxs' : ∀ y ∈ xs, y ∈ g1.verts := fun y hy => by
          rw [h4.verts]; exact List.mem_append_left _ (hxs y (by simp [hy]))
        have hr := ih g1 bp1 h4.wf hxs'
        cases hro : L.round xs (g1, bp1) with
        | error e =>
          rw [hro] at hr
          obtain ⟨y, hy, hf⟩ := hr
          refine ⟨y, by simp [hy], ?_⟩
          rcases hf with hf | hf | ⟨z, hz, hz1, hz2⟩
          · exact Or.inl hf
          · exact Or.inr (Or.inl hf)
          · refine Or.inr (Or.inr ⟨z, hz, fun hm => hz1 ?_, hz2⟩)
            rw [h4.verts]; simp [hm]
        | ok r =>
          obtain ⟨g2, bp2⟩ := r
          rw [hro] at hr
          obtain ⟨new2, k1, k2, k3, k4⟩ := hr
          refine ⟨new1 ++ new2, by rw [k1, h1, List.append_assoc], ?_, ?_, (h4.trans k4).congr ?_⟩
          · intro y hy
            rcases List.mem_cons.mp hy with rfl | hy
            · exact ⟨ds, hd, h2⟩
            · exact k2 y hy
          · intro y hy
            rcases List.mem_append.mp hy with hy | hy
            · exact h3 y hy
            · exact k3 y hy
          · intro a b
            simp only [List.mem_cons]
            constructor
            · rintro (⟨rfl, d, hd', e1, e2⟩ | ⟨ha, hR⟩)
              · exact ⟨Or.inl rfl, ds, d, hd, hd', e1, e2⟩
              · exact ⟨Or.inr ha, hR⟩
            · rintro ⟨rfl | ha, hR⟩
              · left
                obtain ⟨ds', d, e0, hd', e1, e2⟩ := hR
                rw [hd] at e0
                simp only [Except.ok.injEq] at e0
                subst e0
                exact ⟨rfl, d, hd', e1, e2⟩
              · exact Or.inr ⟨ha, hR⟩

/-- The closure loop: outcome characterisation. -/
theorem closure_spec (over : ε) (sched : List α → List α) (hsched : ∀ l, (sched l).Perm l) (n : Nat) :
    ∀ (B : List α) (g : Digraph α), g.WF → (∀ x ∈ B, x ∈ g.verts) →
    match L.closure over sched n B g with
    | .ok g' => ∃ new, (∀ y ∈ new, L.Exp g.verts B y) ∧ (∀ y ∈ new, L.fetch y = .ok ()) ∧
        (∀ x, x ∈ B ∨ x ∈ new → L.Clean x) ∧
        Grew L.dir g g' new (fun a b => (a ∈ B ∨ a ∈ new) ∧ L.R a b)
    | .error e => (∃ x, L.Exp g.verts B x ∧ L.Fails g.verts x e) ∨
        (e = over ∧ ∃ extra : List α, extra.Nodup ∧ n ≤ extra.length ∧ B ≠ [] ∧
          (n ≠ 0 → ∀ y ∈ extra, y ∉ g.verts) ∧ ∀ y ∈ extra, L.fetch y = .ok ()) := by
  induction n with
  | zero =>
    intro B g hg hB
    cases B with
    | nil =>
      exact ⟨[], by simp, by simp, by simp, (Grew.refl hg).congr (by simp)⟩
    | cons b bs => exact Or.inr ⟨rfl, [], by simp, by simp, by simp, by simp, by simp⟩
  | succ n ih =>
    intro B g hg hB
    cases B with
    | nil =>
      exact ⟨[], by simp, by simp, by simp, (Grew.refl hg).congr (by simp)⟩
    | cons b bs =>
      simp only [Loop.closure]
      have hp := hsched (b :: bs)
      have hr := round_spec L (sched (b :: bs)) g [] hg (fun x hx => hB x (hp.mem_iff.mp hx))
      cases hro : L.round (sched (b :: bs)) (g, []) with
      | error e =>
        rw [hro] at hr
        obtain ⟨x, hx, hf⟩ := hr
        exact Or.inl ⟨x, .base (hp.mem_iff.mp hx), hf⟩
      | ok r =>
        obtain ⟨g1, bp⟩ := r
        rw [hro] at hr
        obtain ⟨new1, h1, h2, h3, h4⟩ := hr
        simp only [List.nil_append] at h1
        subst h1
        simp only []
        have hexp1 : ∀ y ∈ bp, L.Exp g.verts (b :: bs) y := by
          intro y hy
          obtain ⟨x, hx, hR⟩ := h4.newK y hy
          exact .step (.base (hp.mem_iff.mp hx)) hR (h4.new_notin hy)
        have hlift : ∀ y, L.Exp g1.verts bp y → L.Exp g.verts (b :: bs) y := by
          intro y hy
          induction hy with
          | base h => exact hexp1 _ h
          | step _ hR hn ih => exact .step ih hR (fun hm => hn (by rw [h4.verts]; simp [hm]))
        have hbp : ∀ x ∈ bp, x ∈ g1.verts := fun x hx => by rw [h4.verts]; simp [hx]
        have hc := ih bp g1 h4.wf hbp
        cases hcl : L.closure over sched n bp g1 with
        | error e =>
          rw [hcl] at hc
          rcases hc with ⟨x, hx, hf⟩ | ⟨rfl, extra, e1, e2, e3, e4, e5⟩
          · refine Or.inl ⟨x, hlift x hx, ?_⟩
            rcases hf with hf | hf | ⟨z, hz, hz1, hz2⟩
            · exact Or.inl hf
            · exact Or.inr (Or.inl hf)
            · exact Or.inr (Or.inr ⟨z, hz, fun hm => hz1 (by rw [h4.verts]; simp [hm]), hz2⟩)
          · refine Or.inr ⟨rfl, ?_⟩
            have hnd : bp.Nodup := by
              have := h4.wf.nodup; rw [h4.verts, List.nodup_append] at this; exact this.2.1
            by_cases hn : n = 0
            · subst hn
              refine ⟨bp, hnd, ?_, by simp, fun _ y hy => h4.new_notin hy, h3⟩
              cases bp with
              | nil => exact absurd rfl e3
              | cons _ _ => simp
            · have e4' := e4 hn
              refine ⟨bp ++ extra, ?_, ?_, by simp, ?_, ?_⟩
              · rw [List.nodup_append]
                refine ⟨hnd, e1, ?_⟩
                intro a ha c hc heq
                subst heq
                exact e4' a hc (by rw [h4.verts]; simp [ha])
              · cases bp with
                | nil => exact absurd rfl e3
                | cons _ _ => simp; omega
              · intro _ y hy
                rcases List.mem_append.mp hy with hy | hy
                · exact h4.new_notin hy
                · exact fun hm => e4' y hy (by rw [h4.verts]; simp [hm])
              · intro y hy
                rcases List.mem_append.mp hy with hy | hy
                · exact h3 y hy
                · exact e5 y hy
        | ok g2 =>
          rw [hcl] at hc
          obtain ⟨new2, k1, k2, k3, k4⟩ := hc
          refine ⟨bp ++ new2, ?_, ?_, ?_, (h4.trans k4).congr ?_⟩
          · intro y hy
            rcases List.mem_append.mp hy with hy | hy
            · exact hexp1 y hy
            · exact hlift y (k1 y hy)
          · intro y hy
            rcases List.mem_append.mp hy with hy | hy
            · exact h3 y hy
            · exact k2 y hy
          · rintro x (hx | hx)
            · exact h2 x (hp.mem_iff.mpr hx)
            · exact k3 x (List.mem_append.mp hx)
          · intro x y
            rw [hp.mem_iff]
            constructor
            · rintro (⟨h, hR⟩ | ⟨h, hR⟩)
              · exact ⟨Or.inl h, hR⟩
              · exact ⟨Or.inr (List.mem_append.mpr h), hR⟩
            · rintro ⟨h | h, hR⟩
              · exact Or.inl ⟨h, hR⟩
              · exact Or.inr ⟨List.mem_append.mp h, hR⟩

/-- With a budget above the number of fetchable names the loop never runs out of budget. -/
theorem closure_err (over : ε) (sched : List α → List α) (hsched : ∀ l, (sched l).Perm l) (U : List α)
    (hU : ∀ y, L.fetch y = .ok () → y ∈ U) (B : List α) (g : Digraph α) (hg : g.WF)
    (hB : ∀ x ∈ B, x ∈ g.verts) (e : ε) (h : L.closure over sched (U.length + 1) B g = .error e) :
    ∃ x, L.Exp g.verts B x ∧ L.Fails g.verts x e := by
  have := closure_spec L over sched hsched (U.length + 1) B g hg hB
  rw [h] at this
  rcases this with h | ⟨_, extra, h1, h2, _, _, h5⟩
  · exact h
  · have := nodup_length_le h1 (fun y hy => hU y (h5 y hy))
    omega

/-- Exactly the expanded vertices are added. -/
theorem closure_exp {over : ε} {sched : List α → List α} (hsched : ∀ l, (sched l).Perm l) {n : Nat}
    {B : List α} {g g' : Digraph α} (hg : g.WF) (hB : ∀ x ∈ B, x ∈ g.verts)
    (h : L.closure over sched n B g = .ok g') :
    g'.WF ∧ (∀ x, x ∈ g'.verts ↔ x ∈ g.verts ∨ L.Exp g.verts B x) ∧
    (∀ x, L.Exp g.verts B x → L.Clean x) ∧
    (∀ x y, L.Exp g.verts B x → L.R x y → y ∈ g'.verts) ∧
    (∀ x, L.Exp g.verts B x → x ∉ g.verts → L.fetch x = .ok ()) ∧
    (L.dir = .fwd → ∀ u v, v ∈ g'.adj u ↔ v ∈ g.adj u ∨ (L.Exp g.verts B u ∧ L.R u v)) ∧
    (L.dir = .rev → ∀ u v, v ∈ g'.adj u → v ∈ g.adj u ∨
        (L.Exp g.verts B u ∧ u ∉ g.verts ∧ L.Exp g.verts B v ∧ L.R v u ∧ Pos g'.verts v u)) ∧
    (L.dir = .rev → ∀ u, L.Exp g.verts B u → u ∉ g.verts →
        ∃ v, L.Exp g.verts B v ∧ L.R v u ∧ v ∈ g'.adj u) ∧
    (∀ u v, v ∈ g.adj u → v ∈ g'.adj u) := by
  have hs := closure_spec L over sched hsched n B g hg hB
  rw [h] at hs
  obtain ⟨new, h1, h2, h3, h4⟩ := hs
  have hexp : ∀ x, L.Exp g.verts B x ↔ x ∈ B ∨ x ∈ new := by
    intro x
    constructor
    · intro hx
      induction hx with
      | base h => exact Or.inl h
      | step _ hR hn ih =>
        have := h4.allK _ _ ⟨ih, hR⟩
        rw [h4.verts] at this
        rcases List.mem_append.mp this with h | h
        · exact absurd h hn
        · exact Or.inr h
    · rintro (h | h)
      · exact .base h
      · exact h1 x h
  refine ⟨h4.wf, ?_, ?_, ?_, ?_, ?_, ?_, ?_, h4.mono⟩
  · intro x
    rw [h4.verts, List.mem_append, hexp]
    constructor
    · rintro (h | h)
      · exact Or.inl h
      · exact Or.inr (Or.inr h)
    · rintro (h | h | h)
      · exact Or.inl h
      · exact Or.inl (hB x h)
      · exact Or.inr h
  · intro x hx; exact h3 x ((hexp x).mp hx)
  · intro x y hx hR; exact h4.allK x y ⟨(hexp x).mp hx, hR⟩
  · intro x hx hn
    rcases (hexp x).mp hx with h | h
    · exact absurd (hB x h) hn
    · exact h2 x h
  · intro hd u v
    rw [h4.fwd hd u v, hexp u]
  · intro hd u v hv
    rcases h4.rev hd u v hv with h | ⟨a, ⟨b, hR⟩, c⟩
    · exact Or.inl h
    · exact Or.inr ⟨h1 u a, h4.new_notin a, (hexp v).mpr b, hR, c⟩
  · intro hd u hu hn
    rcases (hexp u).mp hu with h | h
    · exact absurd (hB u h) hn
    · obtain ⟨v, ⟨hv, hR⟩, hadj⟩ := h4.par hd u h
      exact ⟨v, (hexp v).mpr hv, hR, hadj⟩

/-- `for x in A: G_f.add_package(x)` -/
theorem addPackages_spec (get : α → Except (PErr α) (PkgInfo α)) (A : List α) :
    ∀ (g : Digraph α), g.WF → A.Nodup → (∀ x ∈ A, x ∉ g.verts) →
    match addPackages get A g with
    | .ok g' => g'.WF ∧ g'.verts = g.verts ++ A ∧ (∀ u, g'.adj u = g.adj u) ∧ ∀ x ∈ A, ∃ p, get x = .ok p
    | .error e => ∃ x ∈ A, get x = .error e := by
  induction A with
  | nil => intro g hg _ _; simp [addPackages, hg]
  | cons x xs ih =>
    intro g hg hnd hn
    simp only [addPackages]
    cases hx : get x with
    | error e => exact ⟨x, by simp, hx⟩
    | ok p =>
      simp only []
      have hxn : x ∉ g.verts := hn x (by simp)
      cases hv : g.addVertex x with
      | error e => exact absurd ((graph_add_vertex_error g x).mp ⟨e, hv⟩) hxn
      | ok g1 =>
        obtain ⟨rfl, _⟩ := addVertex_ok hv
        have hverts : (g.ensure x).verts = g.verts ++ [x] := by simp [Digraph.ensure, hxn]
        have := ih (g.ensure x) (ensure_wf g hg x) (List.nodup_cons.mp hnd).2 (by
          intro y hy hm
          rw [hverts] at hm
          rcases List.mem_append.mp hm with hm | hm
          · exact hn y (by simp [hy]) hm
          · simp only [List.mem_singleton] at hm
            exact (List.nodup_cons.mp hnd).1 (hm ▸ hy))
        simp only []
        cases ha : addPackages get xs (g.ensure x) with
        | error e => rw [ha] at this; obtain ⟨y, hy, h⟩ := this; exact ⟨y, by simp [hy], h⟩
        | ok g' =>
          rw [ha] at this
          obtain ⟨a, b, c, d⟩ := this
          refine ⟨a, by rw [b, hverts]; simp, fun u => by rw [c u, ensure_adj g hg], ?_⟩
          intro y hy
          rcases List.mem_cons.mp hy with rfl | hy
          · exact ⟨p, hx⟩
          · exact d y hy

end Pisi.Plan
