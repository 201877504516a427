import Verif.Model.Graph
import Verif.Lemmas.ListAux

/-! Helper lemmas: depth-first search invariants. -/

set_option linter.unusedSectionVars false
set_option linter.unusedSimpArgs false

namespace Pisi.Graph
variable {α : Type} [DecidableEq α]

/-- Well-formed graph: no duplicate vertices, edges between vertices. -/
structure Digraph.WF (g : Digraph α) : Prop where
  nodup : g.verts.Nodup
  src : ∀ u v, v ∈ g.adj u → u ∈ g.verts
  tgt : ∀ u v, v ∈ g.adj u → v ∈ g.verts

/-- `st = [u, par u, ..., root]`. -/
inductive ParChain (par : α → Option α) : List α → Prop
  | root (r : α) (h : par r = none) : ParChain par [r]
  | cons (x y : α) (l : List α) (h : par x = some y) (hl : ParChain par (y :: l)) :
      ParChain par (x :: y :: l)

theorem parentChain_of {par : α → Option α} {u : α} {l : List α} (h : ParChain par (u :: l))
    (n : Nat) (hn : l.length < n) : parentChain par n u = some (u :: l) := by
  induction l generalizing u n with
  | nil =>
    cases h with
    | root _ h =>
      cases n with
      | zero => omega
      | succ n => simp [parentChain, h]
  | cons y l ih =>
    cases h with
    | cons _ _ _ h hl =>
      cases n with
      | zero => omega
      | succ n => simp [parentChain, h, ih hl n (by simp at hn; omega)]

theorem ParChain.congr {par par' : α → Option α} {l : List α} (h : ParChain par l)
    (he : ∀ x ∈ l, par' x = par x) : ParChain par' l := by
  induction h with
  | root r h => exact ParChain.root r (by rw [he r (by simp), h])
  | cons x y l h hl ih =>
    exact ParChain.cons x y l (by rw [he x (by simp), h]) (ih (fun z hz => he z (by simp [hz])))

/-- Consecutive elements of a stack (top first): the lower one has an edge to the upper one. -/
def StackEdges (g : Digraph α) : List α → Prop
  | [] => True
  | [_] => True
  | x :: y :: l => x ∈ g.adj y ∧ StackEdges g (y :: l)

/-- What a reported cycle path really is. -/
structure CyclePath (g : Digraph α) (path : List α) : Prop where
  nodup : path.Nodup
  walk : StackEdges g path.reverse
  close : ∃ u v, path.getLast? = some u ∧ v ∈ path ∧ v ∈ g.adj u

structure Inv (g : Digraph α) (s : DState α) : Prop where
  finBlack : ∀ x, x ∈ s.fin ↔ s.color x = .b
  finNodup : s.fin.Nodup
  finVerts : ∀ x ∈ s.fin, x ∈ g.verts
  closed : ∀ l₁ u l₂, s.fin = l₁ ++ u :: l₂ → ∀ v ∈ g.adj u, v ∈ l₁

/-- White vertices have no parent yet. -/
def WhitePar (s : DState α) : Prop := ∀ x, s.color x = .w → s.par x = none

/-- Number of white vertices. -/
def whites (g : Digraph α) (s : DState α) : Nat := g.verts.countP (fun x => s.color x = .w)

/-- Effect of a completed visit (everything except which vertex became black). -/
structure Ext (s s' : DState α) : Prop where
  gray : ∀ x, s'.color x = .g ↔ s.color x = .g
  black : ∀ x, s.color x = .b → s'.color x = .b
  par : ∀ x, s.color x ≠ .w → s'.par x = s.par x

theorem Ext.refl (s : DState α) : Ext s s := ⟨fun _ => Iff.rfl, fun _ h => h, fun _ _ => rfl⟩

theorem Ext.white {s s' : DState α} (h : Ext s s') (x : α) (hx : s'.color x = .w) :
    s.color x = .w := by
  cases hc : s.color x with
  | w => rfl
  | g => rw [(h.gray x).mpr hc] at hx; simp at hx
  | b => rw [h.black x hc] at hx; simp at hx

theorem Ext.trans {s s' s'' : DState α} (h : Ext s s') (h' : Ext s' s'') : Ext s s'' := by
  refine ⟨fun x => (h'.gray x).trans (h.gray x), fun x hx => h'.black x (h.black x hx), ?_⟩
  intro x hx
  have : s'.color x ≠ .w := fun e => hx (h.white x e)
  rw [h'.par x this, h.par x hx]

theorem whites_le {g : Digraph α} {s s' : DState α} (h : Ext s s') : whites g s' ≤ whites g s := by
  apply List.countP_mono_left
  intro x _ hx
  simp only [decide_eq_true_eq] at *
  exact h.white x hx

theorem whites_paint {g : Digraph α} {s : DState α} {u : α} (c : Color) (hc : c ≠ .w)
    (hu : u ∈ g.verts) (hw : s.color u = .w) : whites g (s.paint u c) < whites g s := by
  have key : ∀ l : List α, l.countP (fun x => (s.paint u c).color x = .w) ≤
      l.countP (fun x => s.color x = .w) ∧
      (u ∈ l → l.countP (fun x => (s.paint u c).color x = .w) <
        l.countP (fun x => s.color x = .w)) := by
    intro l
    induction l with
    | nil => simp
    | cons x l ih =>
      simp only [List.countP_cons, DState.paint] at *
      by_cases hx : x = u
      · subst hx
        simp [hw, hc]; omega
      · have : u ≠ x := fun e => hx e.symm
        simp [hx, this]
        refine ⟨by omega, fun h => ?_⟩
        have := ih.2 h
        omega
  exact (key g.verts).2 hu

/-- Specification of one visit. -/
def VisitSpec (g : Digraph α) (s : DState α) (u : α) (r : Except (Err α) (DState α)) : Prop :=
  match r with
  | .ok s' => Inv g s' ∧ WhitePar s' ∧ Ext (s.paint u .b) s'
  | .error (.cycle p) => CyclePath g p
  | .error _ => False

/-- Precondition of a visit of `u` with `st` the stack of green vertices. -/
structure Pre (g : Digraph α) (s : DState α) (u : α) (st : List α) : Prop where
  inv : Inv g s
  wpar : ∀ x, x ≠ u → s.color x = .w → s.par x = none
  gray : ∀ x, s.color x = .g ↔ x ∈ st
  chain : ParChain s.par (u :: st)
  edges : StackEdges g (u :: st)
  nodup : (u :: st).Nodup
  verts : ∀ x ∈ u :: st, x ∈ g.verts

theorem explore_spec (g : Digraph α) (hg : g.WF) (n : Nat)
    (ih : ∀ (u : α) (s : DState α) (st : List α), Pre g s u st → s.color u = .w → whites g s ≤ n →
      VisitSpec g s u (dfsVisit g n u s))
    (u : α) (st : List α) (vs : List α) (hvs : ∀ v ∈ vs, v ∈ g.adj u) (s : DState α)
    (hinv : Inv g s) (hwp : WhitePar s) (hgray : ∀ x, s.color x = .g ↔ x ∈ u :: st)
    (hchain : ParChain s.par (u :: st)) (hedges : StackEdges g (u :: st))
    (hnodup : (u :: st).Nodup) (hverts : ∀ x ∈ u :: st, x ∈ g.verts)
    (hw : whites g s ≤ n) :
    match explore (g.verts.length + 1) (dfsVisit g n) u vs s with
    | .ok s' => Inv g s' ∧ WhitePar s' ∧ Ext s s' ∧ ∀ v ∈ vs, s'.color v = .b
    | .error (.cycle p) => CyclePath g p
    | .error _ => False := by
  induction vs generalizing s with
  | nil => exact ⟨hinv, hwp, Ext.refl s, by simp⟩
  | cons v vs ihvs =>
    have hv : v ∈ g.adj u := hvs v (by simp)
    have hvs' : ∀ v ∈ vs, v ∈ g.adj u := fun x hx => hvs x (by simp [hx])
    simp only [explore]
    cases hc : s.color v with
    | w =>
      simp only []
      have hvst : v ∉ u :: st := fun h => by
        have := (hgray v).mpr h; rw [hc] at this; simp at this
      have hpre : Pre g (s.setPar v u) v (u :: st) := by
        refine ⟨⟨hinv.finBlack, hinv.finNodup, hinv.finVerts, hinv.closed⟩, ?_, hgray, ?_, ⟨hv, hedges⟩,
          List.nodup_cons.mpr ⟨hvst, hnodup⟩, ?_⟩
        · intro x hxv hx
          simp only [DState.setPar, hxv, if_false]
          exact hwp x hx
        · apply ParChain.cons
          · simp [DState.setPar]
          · apply hchain.congr
            intro x hx
            have : x ≠ v := fun e => hvst (e ▸ hx)
            simp [DState.setPar, this]
        · intro x hx
          rcases List.mem_cons.mp hx with rfl | hx
          · exact hg.tgt u _ hv
          · exact hverts x hx
      have h := ih v (s.setPar v u) (u :: st) hpre hc hw
      generalize hr : dfsVisit g n v (s.setPar v u) = r at h
      match r, h with
      | .error (.cycle p), h => exact h
      | .error .fuel, h => exact h.elim
      | .error .assertion, h => exact h.elim
      | .ok s', ⟨hi', hwp', hext⟩ =>
        simp only []
        have hext' : Ext s s' := by
          constructor
          · intro x
            rw [hext.gray x]
            simp only [DState.paint, DState.setPar]
            split
            · next e => subst e; simp [hc]
            · rfl
          · intro x hx
            apply hext.black
            simp only [DState.paint, DState.setPar]
            split
            · rfl
            · exact hx
          · intro x hx
            have hxv : x ≠ v := fun e => hx (e ▸ hc)
            rw [hext.par x (by simp [DState.paint, DState.setPar, hxv, hx])]
            simp [DState.paint, DState.setPar, hxv]
        have hb : s'.color v = .b := hext.black v (by simp [DState.paint])
        have hgr : ∀ x, s'.color x = .g ↔ x ∈ u :: st := fun x => (hext'.gray x).trans (hgray x)
        have hch : ParChain s'.par (u :: st) := hchain.congr (fun x hx => hext'.par x (by
          rw [(hgray x).mpr hx]; simp))
        have hrec := ihvs hvs' s' hi' hwp' hgr hch (Nat.le_trans (whites_le hext') hw)
        generalize explore (g.verts.length + 1) (dfsVisit g n) u vs s' = r2 at hrec
        match r2, hrec with
        | .error (.cycle p), h => exact h
        | .error .fuel, h => exact h.elim
        | .error .assertion, h => exact h.elim
        | .ok s2, ⟨a, b, c, d⟩ =>
          refine ⟨a, b, hext'.trans c, ?_⟩
          intro x hx
          rcases List.mem_cons.mp hx with rfl | hx
          · exact c.black _ hb
          · exact d x hx
    | g =>
      simp only []
      have hlen : (u :: st).length ≤ g.verts.length :=
        nodup_length_le hnodup hverts
      rw [parentChain_of hchain _ (by simp at hlen; omega)]
      refine ⟨?_, ?_, u, v, ?_, ?_, hv⟩
      · exact List.nodup_reverse.mpr hnodup
      · rw [List.reverse_reverse]; exact hedges
      · simp
      · have := (hgray v).mp hc
        simpa [or_comm] using this
    | b =>
      simp only []
      have hrec := ihvs hvs' s hinv hwp hgray hchain hw
      generalize explore (g.verts.length + 1) (dfsVisit g n) u vs s = r2 at hrec
      match r2, hrec with
      | .error (.cycle p), h => exact h
      | .error .fuel, h => exact h.elim
      | .error .assertion, h => exact h.elim
      | .ok s2, ⟨a, b, c, d⟩ =>
        refine ⟨a, b, c, ?_⟩
        intro x hx
        rcases List.mem_cons.mp hx with rfl | hx
        · exact c.black _ hc
        · exact d x hx

theorem dfsVisit_spec (g : Digraph α) (hg : g.WF) (n : Nat) :
    ∀ (u : α) (s : DState α) (st : List α), Pre g s u st → s.color u = .w → whites g s ≤ n →
      VisitSpec g s u (dfsVisit g n u s) := by
  induction n with
  | zero =>
    intro u s st hpre hc hw
    have : 0 < whites g s := by
      apply List.countP_pos_iff.mpr
      exact ⟨u, hpre.verts u (by simp), by simpa using hc⟩
    omega
  | succ n ih =>
    intro u s st hpre hc hw
    have huv : u ∈ g.verts := hpre.verts u (by simp)
    have hufin : u ∉ s.fin := fun h => by
      rw [(hpre.inv.finBlack u).mp h] at hc; simp at hc
    have h := explore_spec g hg n ih u st (g.adj u) (fun _ h => h) (s.paint u .g)
      ⟨by
        intro x
        simp only [DState.paint]
        split
        · next e => subst e; simp [hufin]
        · exact hpre.inv.finBlack x, hpre.inv.finNodup, hpre.inv.finVerts, hpre.inv.closed⟩
      (by
        intro x hx
        simp only [DState.paint] at hx ⊢
        split at hx
        · simp at hx
        · next e => exact hpre.wpar x e hx)
      (by
        intro x
        simp only [DState.paint]
        split
        · next e => simp [e]
        · next e => rw [hpre.gray x]; simp [e])
      hpre.chain hpre.edges hpre.nodup hpre.verts
      (by have := whites_paint (g := g) (s := s) .g (by simp) huv hc; omega)
    simp only [dfsVisit]
    generalize explore (g.verts.length + 1) (dfsVisit g n) u (g.adj u) (s.paint u .g) = r at h
    match r, h with
    | .error (.cycle p), h => exact h
    | .error .fuel, h => exact h.elim
    | .error .assertion, h => exact h.elim
    | .ok s', ⟨hi, hwp, hext, hall⟩ =>
      have hug : s'.color u = .g := (hext.gray u).mpr (by simp [DState.paint])
      have hufin' : u ∉ s'.fin := fun h => by
        rw [(hi.finBlack u).mp h] at hug; simp at hug
      refine ⟨⟨?_, ?_, ?_, ?_⟩, ?_, ?_, ?_, ?_⟩
      · intro x
        simp only [DState.paint, List.mem_append, List.mem_singleton]
        split
        · next e => simp [e]
        · next e => simp [e, hi.finBlack x]
      · simp only [DState.paint]
        rw [List.nodup_append]
        exact ⟨hi.finNodup, by simp, by
          intro a ha b hb e
          simp only [List.mem_singleton] at hb
          exact hufin' (hb ▸ e ▸ ha)⟩
      · intro x hx
        simp only [DState.paint, List.mem_append, List.mem_singleton] at hx
        rcases hx with hx | rfl
        · exact hi.finVerts x hx
        · exact huv
      · intro l₁ w l₂ he v hv
        simp only [DState.paint] at he
        rcases List.eq_nil_or_concat l₂ with rfl | ⟨l₂', z, rfl⟩
        · have := List.append_inj' he (by simp)
          simp only [List.cons.injEq, and_true] at this
          obtain ⟨rfl, rfl⟩ := this
          exact (hi.finBlack v).mpr (hall v hv)
        · have he' : s'.fin ++ [u] = (l₁ ++ w :: l₂') ++ [z] := by simpa using he
          have := List.append_inj' he' (by simp)
          exact hi.closed l₁ w l₂' this.1 v hv
      · intro x hx
        simp only [DState.paint] at hx ⊢
        split at hx
        · simp at hx
        · exact hwp x hx
      · intro x
        simp only [DState.paint]
        split
        · rfl
        · next e => rw [hext.gray x]; simp [DState.paint, e]
      · intro x hx
        simp only [DState.paint] at hx ⊢
        split
        · rfl
        · next e =>
          rw [if_neg e] at hx
          exact hext.black x (by simp [DState.paint, e, hx])
      · intro x hx
        simp only [DState.paint] at hx ⊢
        apply hext.par x
        simp only [DState.paint]
        split
        · simp
        · next e => rw [if_neg e] at hx; exact hx

theorem dfsLoop_spec (g : Digraph α) (hg : g.WF) (us : List α) (hus : ∀ u ∈ us, u ∈ g.verts)
    (s : DState α) (hi : Inv g s) (hwp : WhitePar s) (hgr : ∀ x, s.color x ≠ .g) :
    match dfsLoop g us s with
    | .ok s' => Inv g s' ∧ (∀ x, s'.color x ≠ .g) ∧ (∀ x, s.color x = .b → s'.color x = .b) ∧
        ∀ u ∈ us, s'.color u = .b
    | .error (.cycle p) => CyclePath g p
    | .error _ => False := by
  induction us generalizing s with
  | nil => exact ⟨hi, hgr, fun _ h => h, by simp⟩
  | cons u us ih =>
    have hus' : ∀ v ∈ us, v ∈ g.verts := fun x hx => hus x (by simp [hx])
    simp only [dfsLoop]
    cases hc : s.color u with
    | g => exact absurd hc (hgr u)
    | b =>
      simp only []
      have h := ih hus' s hi hwp hgr
      generalize dfsLoop g us s = r at h
      match r, h with
      | .error (.cycle p), h => exact h
      | .error .fuel, h => exact h.elim
      | .error .assertion, h => exact h.elim
      | .ok s', ⟨a, b, c, d⟩ =>
        refine ⟨a, b, c, ?_⟩
        intro x hx
        rcases List.mem_cons.mp hx with rfl | hx
        · exact c _ hc
        · exact d x hx
    | w =>
      simp only []
      have hpre : Pre g s u [] :=
        ⟨hi, fun x _ hx => hwp x hx, fun x => by simp [hgr x], ParChain.root u (hwp u hc), trivial,
          by simp, by simpa using hus u (by simp)⟩
      have h := dfsVisit_spec g hg g.verts.length u s [] hpre hc (List.countP_le_length)
      generalize dfsVisit g g.verts.length u s = r at h
      match r, h with
      | .error (.cycle p), h => exact h
      | .error .fuel, h => exact h.elim
      | .error .assertion, h => exact h.elim
      | .ok s', ⟨hi', hwp', hext⟩ =>
        simp only []
        have hgr' : ∀ x, s'.color x ≠ .g := by
          intro x hx
          have := (hext.gray x).mp hx
          simp only [DState.paint] at this
          split at this
          · simp at this
          · exact hgr x this
        have hbl : ∀ x, s.color x = .b → s'.color x = .b := by
          intro x hx
          apply hext.black
          simp only [DState.paint]
          split
          · rfl
          · exact hx
        have h := ih hus' s' hi' hwp' hgr'
        generalize dfsLoop g us s' = r at h
        match r, h with
        | .error (.cycle p), h => exact h
        | .error .fuel, h => exact h.elim
        | .error .assertion, h => exact h.elim
        | .ok s'', ⟨a, b, c, d⟩ =>
          refine ⟨a, b, fun x hx => c x (hbl x hx), ?_⟩
          intro x hx
          rcases List.mem_cons.mp hx with rfl | hx
          · exact c _ (hext.black _ (by simp [DState.paint]))
          · exact d x hx

/-- Outcome of a whole search. -/
theorem dfs_spec (g : Digraph α) (hg : g.WF) :
    match dfs g with
    | .ok s => s.fin.Nodup ∧ (∀ x, x ∈ s.fin ↔ x ∈ g.verts) ∧
        ∀ l₁ u l₂, s.fin = l₁ ++ u :: l₂ → ∀ v ∈ g.adj u, v ∈ l₁
    | .error (.cycle p) => CyclePath g p
    | .error _ => False := by
  have h := dfsLoop_spec g hg g.verts (fun _ h => h) DState.init
    ⟨by simp [DState.init], by simp [DState.init], by simp [DState.init], by simp [DState.init]⟩
    (fun _ _ => rfl) (by simp [DState.init])
  unfold dfs
  generalize dfsLoop g g.verts DState.init = r at h
  match r, h with
  | .error (.cycle p), h => exact h
  | .error .fuel, h => exact h.elim
  | .error .assertion, h => exact h.elim
  | .ok s, ⟨hi, _, _, d⟩ =>
    exact ⟨hi.finNodup, fun x => ⟨hi.finVerts x, fun hx => (hi.finBlack x).mpr (d x hx)⟩, hi.closed⟩

end Pisi.Graph
