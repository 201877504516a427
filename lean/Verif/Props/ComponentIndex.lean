import Verif.Props.Component

/-!
# The components of a repository after reading its index: C189
-/
set_option linter.unusedSectionVars false

namespace Pisi.DB
open Pisi.DBSpec
variable {α ρ : Type} [DecidableEq α]

/-! ## The loops -/

/-- One component of the index, for the cell of the component `n`. -/
def compStep (n : α) (o : Option (Comp α)) (x : α × Comp α) : Option (Comp α) :=
  if n = x.1 then some { x.2 with packages := (o.map (·.packages)).getD x.2.packages } else o

/-- One package. -/
def pkgStep (n : α) (o : Option (Comp α)) (m : Meta α) : Option (Comp α) :=
  if m.partOf = some n then some (Comp.addPackage m.name (o.getD {})) else o

/-- One source. -/
def srcStep (n : α) (o : Option (Comp α)) (m : SrcSpec α) : Option (Comp α) :=
  if m.partOf = some n then some (Comp.addSource m.name (o.getD {})) else o

theorem updateComponents_cell (r : RepoId) (cs : List (α × Comp α)) (n : α) : ∀ c c' : ItemDB α (Comp α), c.WF →
    forM' (fun c (x : α × Comp α) => updateComponent c x.1 x.2 r) cs c = .ok c' →
    c'.cell n r = cs.foldl (compStep n)
      (c.cell n r) := by
  induction cs with
  | nil => intro c c' _ h; cases h; rfl
  | cons x cs ih =>
    intro c c' hw h
    obtain ⟨c1, e1, w1, _, h1⟩ := updateComponent_spec hw x.1 x.2 r
    simp only [forM', e1] at h
    rw [ih c1 c' w1 h, List.foldl_cons, h1]
    unfold compStep
    by_cases hn : n = x.1
    · simp only [hn, if_true]
    · simp only [hn, if_false]

theorem addPackages_cell (r : RepoId) (ms : List (Meta α)) (n : α) : ∀ s s' : Stores α, s.WF → forM' (addPackage r) ms s = .ok s' →
    s'.comp.cell n r = ms.foldl (pkgStep n) (s.comp.cell n r) := by
  induction ms with
  | nil => intro s s' _ h; cases h; rfl
  | cons m ms ih =>
    intro s s' hw h
    simp only [forM'] at h
    cases ha : addPackage r s m with
    | error e => rw [ha] at h; cases h
    | ok s1 =>
      rw [ha] at h
      rw [ih s1 s' ((addPackage_spec hw r m).2 s1 ha).1 h, List.foldl_cons, addPackage_comp hw r m ha]; rfl

theorem addSpec_comp {s s' : Stores α} (h : s.WF) (r : RepoId) (sp : SrcSpec α) (ha : addSpec r s sp = .ok s') (c : α) :
    s'.comp.cell c r = if sp.partOf = some c then some (Comp.addSource sp.name ((s.comp.cell c r).getD {})) else s.comp.cell c r := by
  unfold addSpec at ha
  split at ha
  · have hs := compAdd_spec h.comp sp.partOf r (Comp.addSource sp.name)
    cases hp : sp.partOf with
    | none => rw [hp] at ha hs; dsimp only at hs; rw [hs] at ha; cases ha
    | some k =>
      rw [hp] at ha hs
      obtain ⟨c', e, _, _, hcell⟩ := hs
      rw [e] at ha
      cases ha
      show ItemDB.cell _ c r = _
      rw [hcell]
      by_cases hck : c = k
      · subst hck; simp
      · have : k ≠ c := fun e => hck e.symm
        simp [hck, this]
  · cases ha

theorem addSpecs_cell (r : RepoId) (ms : List (SrcSpec α)) (n : α) : ∀ s s' : Stores α, s.WF → forM' (addSpec r) ms s = .ok s' →
    s'.comp.cell n r = ms.foldl (srcStep n) (s.comp.cell n r) := by
  induction ms with
  | nil => intro s s' _ h; cases h; rfl
  | cons m ms ih =>
    intro s s' hw h
    simp only [forM'] at h
    cases ha : addSpec r s m with
    | error e => rw [ha] at h; cases h
    | ok s1 =>
      rw [ha] at h
      rw [ih s1 s' ((addSpec_spec hw r m).2 s1 ha).1 h, List.foldl_cons, addSpec_comp hw r m ha]; rfl

/-! ## What the loops make -/

/-- `l` with the new ones of `add` behind. -/
structure Grown (l : List α) (add : α → Prop) (l' : List α) : Prop where
  start : l <+: l'
  mem : ∀ p, p ∈ l' ↔ p ∈ l ∨ add p
  nodup : l.Nodup → l'.Nodup

theorem Grown.refl (l : List α) {add : α → Prop} (h : ∀ p, ¬ add p) : Grown l add l :=
  ⟨List.prefix_rfl, fun p => ⟨Or.inl, fun h' => h'.elim id (fun a => absurd a (h p))⟩, id⟩

theorem Grown.step {l l' : List α} {p : α} {add add' : α → Prop} (hg : Grown (if p ∈ l then l else l ++ [p]) add l')
    (ha : ∀ q, add' q ↔ q = p ∨ add q) : Grown l add' l' := by
  by_cases hp : p ∈ l
  · rw [if_pos hp] at hg
    refine ⟨hg.start, fun q => ?_, hg.nodup⟩
    rw [hg.mem, ha]
    exact ⟨fun h => h.imp id Or.inr, fun h => h.elim Or.inl (fun h => h.elim (fun e => Or.inl (e ▸ hp)) Or.inr)⟩
  · rw [if_neg hp] at hg
    refine ⟨(List.prefix_append _ _).trans hg.start, fun q => ?_, fun hn => hg.nodup ?_⟩
    · rw [hg.mem, ha, List.mem_append, List.mem_singleton, or_assoc]
    · exact List.nodup_append.mpr ⟨hn, by simp, fun a ha' b hb => by simp at hb; subst hb; exact fun e => hp (e ▸ ha')⟩

theorem packages_fold (n : α) (ms : List (Meta α)) : ∀ o : Option (Comp α),
    let o' := ms.foldl (pkgStep n) o
    (o'.isSome = true ↔ o.isSome = true ∨ ∃ m ∈ ms, m.partOf = some n) ∧ (o'.getD {}).sources = (o.getD {}).sources ∧
      Grown (o.getD {}).packages (fun p => ∃ m ∈ ms, m.partOf = some n ∧ m.name = p) (o'.getD {}).packages := by
  induction ms with
  | nil => intro o; exact ⟨by simp, rfl, Grown.refl _ (by simp)⟩
  | cons m ms ih =>
    intro o
    dsimp only
    rw [List.foldl_cons]
    obtain ⟨h1, h2, h3⟩ := ih (pkgStep n o m)
    have hst : pkgStep n o m = if m.partOf = some n then some (Comp.addPackage m.name (o.getD {})) else o := rfl
    rw [hst] at h1 h2 h3 ⊢
    by_cases hm : m.partOf = some n
    · rw [if_pos hm] at h1 h2 h3 ⊢
      refine ⟨?_, h2.trans ?_, ?_⟩
      · rw [h1]; simp [hm]
      · unfold Comp.addPackage; simp only [Option.getD_some]; split <;> rfl
      · refine Grown.step (p := m.name) (add := fun p => ∃ m ∈ ms, m.partOf = some n ∧ m.name = p) ?_ (fun q => ?_)
        · have e : (Comp.addPackage m.name (o.getD {})).packages =
              if m.name ∈ (o.getD {}).packages then (o.getD {}).packages else (o.getD {}).packages ++ [m.name] := by
            unfold Comp.addPackage; split <;> rfl
          rw [← e]; exact h3
        · simp [hm, eq_comm]
    · rw [if_neg hm] at h1 h2 h3 ⊢
      refine ⟨by rw [h1]; simp [hm], h2, ⟨h3.start, fun p => by rw [h3.mem]; simp [hm], h3.nodup⟩⟩

theorem sources_fold (n : α) (ms : List (SrcSpec α)) : ∀ o : Option (Comp α),
    let o' := ms.foldl (srcStep n) o
    (o'.isSome = true ↔ o.isSome = true ∨ ∃ m ∈ ms, m.partOf = some n) ∧ (o'.getD {}).packages = (o.getD {}).packages ∧
      Grown (o.getD {}).sources (fun p => ∃ m ∈ ms, m.partOf = some n ∧ m.name = p) (o'.getD {}).sources := by
  induction ms with
  | nil => intro o; exact ⟨by simp, rfl, Grown.refl _ (by simp)⟩
  | cons m ms ih =>
    intro o
    dsimp only
    rw [List.foldl_cons]
    obtain ⟨h1, h2, h3⟩ := ih (srcStep n o m)
    have hst : srcStep n o m = if m.partOf = some n then some (Comp.addSource m.name (o.getD {})) else o := rfl
    rw [hst] at h1 h2 h3 ⊢
    by_cases hm : m.partOf = some n
    · rw [if_pos hm] at h1 h2 h3 ⊢
      refine ⟨?_, h2.trans ?_, ?_⟩
      · rw [h1]; simp [hm]
      · unfold Comp.addSource; simp only [Option.getD_some]; split <;> rfl
      · refine Grown.step (p := m.name) (add := fun p => ∃ m ∈ ms, m.partOf = some n ∧ m.name = p) ?_ (fun q => ?_)
        · have e : (Comp.addSource m.name (o.getD {})).sources =
              if m.name ∈ (o.getD {}).sources then (o.getD {}).sources else (o.getD {}).sources ++ [m.name] := by
            unfold Comp.addSource; split <;> rfl
          rw [← e]; exact h3
        · simp [hm, eq_comm]
    · rw [if_neg hm] at h1 h2 h3 ⊢
      refine ⟨by rw [h1]; simp [hm], h2, ⟨h3.start, fun p => by rw [h3.mem]; simp [hm], h3.nodup⟩⟩

/-- What a list of components of an index says about the parts of `n`: the packages of the first with that name and the sources
of the last. -/
def Said (cs : List (α × Comp α)) (n : α) (ps ss : List α) : Prop :=
  ((∀ x ∈ cs, x.1 ≠ n) ∧ ps = [] ∧ ss = []) ∨
  ((∃ x a b, cs = a ++ (n, x) :: b ∧ (∀ y ∈ a, y.1 ≠ n) ∧ ps = x.packages) ∧
    ∃ x a b, cs = a ++ (n, x) :: b ∧ (∀ y ∈ b, y.1 ≠ n) ∧ ss = x.sources)

theorem components_fold (n : α) (cs : List (α × Comp α)) : 
    let o := cs.foldl (compStep n) none
    (o.isSome = true ↔ ∃ x ∈ cs, x.1 = n) ∧ Said cs n (o.getD {}).packages (o.getD {}).sources := by
  induction cs using snoc_induction with
  | h0 => exact ⟨by simp, .inl ⟨by simp, rfl, rfl⟩⟩
  | hs cs x ih =>
    dsimp only at ih ⊢
    obtain ⟨h1, h2⟩ := ih
    rw [List.foldl_append, List.foldl_cons, List.foldl_nil]
    generalize cs.foldl (compStep n) none = o at h1 h2 ⊢
    obtain ⟨m, x⟩ := x
    unfold compStep
    by_cases hn : n = m
    · subst hn
      rw [if_pos rfl]
      refine ⟨by simp, .inr ⟨?_, x, cs, [], rfl, by simp, rfl⟩⟩
      rcases h2 with ⟨g1, g2, g3⟩ | ⟨⟨y, a, b, g1, g2, g3⟩, _⟩
      · have ho : o = none := by
          cases o with
          | none => rfl
          | some z => obtain ⟨w, hw, e⟩ := h1.1 rfl; exact absurd e (g1 w hw)
        subst ho
        exact ⟨x, cs, [], rfl, g1, rfl⟩
      · have ho : o.isSome = true := h1.2 ⟨(n, y), by rw [g1]; simp, rfl⟩
        obtain ⟨z, rfl⟩ := Option.isSome_iff_exists.1 ho
        exact ⟨y, a, b ++ [(n, x)], by rw [g1]; simp, g2, g3⟩
    · rw [if_neg hn]
      have hm : m ≠ n := fun e => hn e.symm
      refine ⟨by rw [h1]; simp [hm], ?_⟩
      rcases h2 with ⟨g1, g2, g3⟩ | ⟨⟨y, a, b, g1, g2, g3⟩, z, a', b', k1, k2, k3⟩
      · refine .inl ⟨fun y hy => ?_, g2, g3⟩
        rcases List.mem_append.1 hy with hy | hy
        · exact g1 y hy
        · cases List.mem_singleton.1 hy; exact hm
      · refine .inr ⟨⟨y, a, b ++ [(m, x)], by rw [g1]; simp, g2, g3⟩, z, a', b' ++ [(m, x)], by rw [k1]; simp, fun y hy => ?_, k3⟩
        rcases List.mem_append.1 hy with hy | hy
        · exact k2 y hy
        · cases List.mem_singleton.1 hy; exact hm

/-! ## C189 -/

/-- C189: after a successful update the repository has exactly the components that the index describes or that its packages and
sources belong to, each with the parts it is described with, followed by those that declare it, none twice. -/
theorem update_components (ops : List (SysOp α ρ)) (ix : Index α) (r : RepoId) (s : Stores α)
    (hu : ix.updateDb r (SysOp.run ops).stores = .ok s) (n : α) :
    ((∃ x, s.comp.getItem [] n (.one r) = .ok x) ↔ (∃ x ∈ ix.components, x.1 = n) ∨ (∃ m ∈ ix.packages, m.partOf = some n) ∨
      ∃ sp ∈ ix.specs, sp.partOf = some n) ∧
    ∀ x, s.comp.getItem [] n (.one r) = .ok x → ∃ ps ss, Said ix.components n ps ss ∧
      Grown ps (fun p => ∃ m ∈ ix.packages, m.partOf = some n ∧ m.name = p) x.packages ∧
      Grown ss (fun p => ∃ sp ∈ ix.specs, sp.partOf = some n ∧ sp.name = p) x.sources := by
  obtain ⟨l, h⟩ := sys_run ops
  have hw := h.wf
  generalize (SysOp.run ops).stores = s0 at hu hw
  obtain ⟨s1, e1, w1, _, _, _, _, _, n1⟩ := compRemoveRepo_spec hw r
  obtain ⟨c, ec, wc, _⟩ := updateComponents_spec r ix.components s1.comp w1.comp
  have w1' : Stores.WF { s1 with comp := c } := ⟨w1.pkg, w1.rev, w1.src, w1.p2s, wc⟩
  obtain ⟨s2, e2, w2, _, _, _, c2, _, _⟩ := pkgRemoveRepo_spec w1' r
  have hc := updateComponents_cell r ix.components n s1.comp c w1.comp ec
  rw [n1 n] at hc
  unfold Index.updateDb at hu
  simp only [e1, ec, e2] at hu
  cases h3 : forM' (addPackage r) ix.packages s2 with
  | error e => rw [h3] at hu; cases hu
  | ok s3 =>
    rw [h3] at hu
    dsimp only at hu
    have w3 := ((addPackages_spec' r ix.packages s2 w2).2 s3 h3).1
    have h3c := addPackages_cell r ix.packages n s2 s3 w2 h3
    obtain ⟨s4, e4, w4, _, _, _, c4, _, _⟩ := srcRemoveRepo_spec w3 r
    rw [e4] at hu
    have h5 := addSpecs_cell r ix.specs n s4 s w4 hu
    rw [c4, h3c, c2] at h5
    have h5 : s.comp.cell n r = ix.specs.foldl _ (ix.packages.foldl _ (c.cell n r)) := h5
    rw [hc] at h5
    obtain ⟨a1, a2⟩ := components_fold n ix.components
    obtain ⟨b1, b2, b3⟩ := packages_fold n ix.packages (ix.components.foldl (compStep n) none)
    obtain ⟨d1, d2, d3⟩ := sources_fold n ix.specs (ix.packages.foldl (pkgStep n)
      (ix.components.foldl (compStep n) none))
    rw [← h5] at d1 d2 d3
    rw [getItem_one]
    constructor
    · rw [← or_assoc, ← a1, ← b1, ← d1]
      cases s.comp.cell n r <;> simp
    · intro x hx
      cases hcell : s.comp.cell n r with
      | none => rw [hcell] at hx; cases hx
      | some y =>
        rw [hcell] at hx d2 d3
        cases hx
        exact ⟨_, _, a2, (by rw [← show (x.packages = _) from d2] at b3; exact b3), (by rw [b2] at d3; exact d3)⟩

/-- C189: an index without repeated names, in which the components list nothing by themselves, makes
lists of exactly the packages and sources that declare the component. -/
theorem update_components_plain (ops : List (SysOp α ρ)) (ix : Index α) (r : RepoId) (s : Stores α)
    (hu : ix.updateDb r (SysOp.run ops).stores = .ok s) (hp : ∀ x ∈ ix.components, x.2.packages = [] ∧ x.2.sources = []) (n : α) (x : Comp α)
    (hx : s.comp.getItem [] n (.one r) = .ok x) :
    x.packages.Nodup ∧ x.sources.Nodup ∧ (∀ p, p ∈ x.packages ↔ ∃ m ∈ ix.packages, m.partOf = some n ∧ m.name = p) ∧
      ∀ p, p ∈ x.sources ↔ ∃ sp ∈ ix.specs, sp.partOf = some n ∧ sp.name = p := by
  obtain ⟨ps, ss, hs, g1, g2⟩ := (update_components ops ix r s hu n).2 x hx
  have e : ps = [] ∧ ss = [] := by
    rcases hs with ⟨_, e1, e2⟩ | ⟨⟨y, a, b, e, _, e1⟩, z, a', b', e', _, e2⟩
    · exact ⟨e1, e2⟩
    · exact ⟨by rw [e1]; exact (hp (n, y) (by rw [e]; simp)).1, by rw [e2]; exact (hp (n, z) (by rw [e']; simp)).2⟩
  obtain ⟨rfl, rfl⟩ := e
  refine ⟨g1.nodup (by simp), g2.nodup (by simp), fun p => ?_, fun p => ?_⟩
  · rw [g1.mem]; simp
  · rw [g2.mem]; simp

/-! ## Non-vacuity -/

def compsEx : Index Nat where
  components := [(9, {}), (8, {})]
  packages := [{ name := 1, info := { version := ['1'], release := ['1'] }, partOf := some 9 },
    { name := 2, info := { version := ['1'], release := ['1'] }, partOf := some 9 },
    { name := 1, info := { version := ['2'], release := ['1'] }, partOf := some 9 }]
  specs := [{ name := 5, packages := [1, 2], partOf := some 9, valid := true }]

example : ∃ s x, compsEx.updateDb (.repo ['a']) (SysOp.run ([] : List (SysOp Nat Nat))).stores = .ok s ∧
    s.comp.getItem [] 9 (.one (.repo ['a'])) = .ok x ∧ x.packages = [1, 2] ∧ x.sources = [5] := ⟨_, _, rfl, rfl, rfl, rfl⟩

end Pisi.DB
