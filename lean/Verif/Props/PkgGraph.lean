import Verif.Model.PkgGraph
import Verif.Lemmas.InstallPlan
import Verif.Spec.Dot

/-!
# Properties of package_graph, write_graphviz and emerge (C128-C130)
-/
set_option linter.unusedSectionVars false

namespace Pisi.Plan
open Pisi.Graph Pisi.PlanSpec
variable {α : Type} [DecidableEq α]

/-! ### C128: the graph of package relations -/

/-- `x` depends on `y` in `src`, and if installed packages are to be ignored, that dependency is not
satisfied by the installed system. -/
def DependsIn (w : World α) (src : Dict α (PkgInfo α)) (ign : Bool) (x y : α) : Prop :=
  ∃ p d, src.get x = some p ∧ d ∈ p.deps ∧ d.package = y ∧ (ign = true → ¬ Satisfied w d)

/-- The dependencies of `x` can be examined: it is in `src`, has no component dependencies, and, if
installed packages are to be ignored, the versions to compare are well-formed. -/
def Known (w : World α) (src : Dict α (PkgInfo α)) (ign : Bool) (x : α) : Prop :=
  ∃ p, src.get x = some p ∧ p.compDeps = [] ∧ (ign = true → ∀ d ∈ p.deps, TestableInstalled w d)

/-- The property in full: for packages all of whose dependencies, direct and indirect, are known,
the graph has exactly the packages that can be reached as vertices and exactly the dependencies among
them as edges. -/
def PackageGraphFull (α : Type) [DecidableEq α] : Prop :=
  ∀ (w : World α) (src : Dict α (PkgInfo α)) (ign : Bool) (front : List α → List α) (A : List α),
    (∀ l, (front l).Perm l) →
    (∀ x, Reach (DependsIn w src ign) A x → Known w src ign x) →
    ∃ g, packageGraph w src ign front A = .ok g ∧
      (∀ x, x ∈ g.verts ↔ Reach (DependsIn w src ign) A x) ∧
      ∀ x y, y ∈ g.adj x ↔ Reach (DependsIn w src ign) A x ∧ DependsIn w src ign x y

section
variable (w : World α) (src : Dict α (PkgInfo α)) (ign : Bool)

theorem graphLoop_deps_ok (x : α) (ds : List (Dep α)) :
    (graphLoop w src ign).deps x = .ok ds ↔
      ∃ p, src.get x = some p ∧ p.compDeps = [] ∧ ds = p.deps := by
  simp only [graphLoop, getFrom]
  cases src.get x with
  | none => simp
  | some p => simp [PkgInfo.runtimeDeps]; split <;> simp_all [eq_comm]

theorem graphLoop_keep_ok (x : α) (d : Dep α) :
    (∃ b, (graphLoop w src ign).keep x d = .ok b) ↔ (ign = true → TestableInstalled w d) := by
  rw [← installedSatisfies_ok]
  simp only [graphLoop]
  cases ign
  · simp
  · simp only [if_true, true_implies]
    cases w.installedSatisfies d <;> simp

theorem graphLoop_clean (x : α) : (graphLoop w src ign).Clean x ↔ Known w src ign x := by
  unfold Loop.Clean Known
  constructor
  · rintro ⟨ds, h1, h2⟩
    obtain ⟨p, hp, hc, rfl⟩ := (graphLoop_deps_ok w src ign x ds).mp h1
    exact ⟨p, hp, hc, fun hi d hd => (graphLoop_keep_ok w src ign x d).mp (h2 d hd) hi⟩
  · rintro ⟨p, hp, hc, h⟩
    exact ⟨p.deps, (graphLoop_deps_ok w src ign x _).mpr ⟨p, hp, hc, rfl⟩,
      fun d hd => (graphLoop_keep_ok w src ign x d).mpr (fun hi => h hi d hd)⟩

theorem graphLoop_keep_true {x : α} {d : Dep α}
    (hk : ∃ b, (graphLoop w src ign).keep x d = .ok b) :
    (graphLoop w src ign).keep x d = .ok true ↔ (ign = true → ¬ Satisfied w d) := by
  rw [← installedSatisfies_true]
  simp only [graphLoop] at hk ⊢
  cases ign
  · simp
  · simp only [if_true, true_implies] at hk ⊢
    cases h : w.installedSatisfies d with
    | error e => rw [h] at hk; obtain ⟨b, hb⟩ := hk; cases hb
    | ok b => cases b <;> simp

theorem graphLoop_R_depends {x y : α} (h : (graphLoop w src ign).R x y) :
    DependsIn w src ign x y := by
  obtain ⟨ds, d, h1, h2, h3, rfl⟩ := h
  obtain ⟨p, hp, hc, rfl⟩ := (graphLoop_deps_ok w src ign x ds).mp h1
  exact ⟨p, d, hp, h2, rfl, (graphLoop_keep_true w src ign ⟨true, h3⟩).mp h3⟩

theorem graphLoop_R_iff {x : α} (hc : Known w src ign x) (y : α) :
    (graphLoop w src ign).R x y ↔ DependsIn w src ign x y := by
  refine ⟨graphLoop_R_depends w src ign, ?_⟩
  rintro ⟨p, d, hp, hd, rfl, hn⟩
  obtain ⟨p', hp', hcd, hw⟩ := hc
  rw [hp] at hp'; cases hp'
  refine ⟨p.deps, d, (graphLoop_deps_ok w src ign x _).mpr ⟨p, hp, hcd, rfl⟩, hd, ?_, rfl⟩
  exact (graphLoop_keep_true w src ign
    ((graphLoop_keep_ok w src ign x d).mpr (fun hi => hw hi d hd))).mpr hn

end

theorem getFrom_ok (src : Dict α (PkgInfo α)) (x : α) (p : PkgInfo α) :
    getFrom src x = .ok p ↔ src.get x = some p := by
  unfold getFrom; cases src.get x <;> simp

/-- Whatever `package_graph` returns is exactly the graph of the dependencies that can be reached. -/
theorem package_graph_exact (w : World α) (src : Dict α (PkgInfo α)) (ign : Bool)
    (front : List α → List α) (A : List α) (hf : ∀ l, (front l).Perm l) (hA : A.Nodup)
    (g : Digraph α) (h : packageGraph w src ign front A = .ok g) :
    g.verts.Nodup ∧
    (∀ x, x ∈ g.verts ↔ Reach (DependsIn w src ign) A x) ∧
    (∀ x y, y ∈ g.adj x ↔ Reach (DependsIn w src ign) A x ∧ DependsIn w src ign x y) := by
  unfold packageGraph at h
  have h0 := addPackages_spec (getFrom src) A Digraph.empty empty_wf hA (by simp [Digraph.empty])
  cases ha : addPackages (getFrom src) A Digraph.empty with
  | error e => simp [ha] at h
  | ok g0 =>
    simp only [ha] at h h0
    obtain ⟨hw0, hv, hadj, hpres⟩ := h0
    have hv0 : ∀ x, x ∈ g0.verts ↔ x ∈ A := by intro x; rw [hv]; simp [Digraph.empty]
    obtain ⟨k1, k2, k3, k4, k5, k6, _⟩ :=
      closure_exp (graphLoop w src ign) hf hw0 (fun x hx => (hv0 x).mpr hx) h
    have hexp := exp_reach (graphLoop w src ign) g0.verts A hv0
    have hclean : ∀ x, Reach (graphLoop w src ign).R A x → Known w src ign x := fun x hx =>
      (graphLoop_clean w src ign x).mp (k3 x ((hexp x).mpr hx))
    have hcongr := reach_congr (R := (graphLoop w src ign).R) (R' := DependsIn w src ign) (A := A)
      (fun x hx y => graphLoop_R_iff w src ign (hclean x hx) y)
    refine ⟨k1.nodup, ?_, ?_⟩
    · intro x
      rw [k2 x, hexp x, hv0 x, hcongr x]
      exact ⟨fun h => h.elim (fun h => ⟨x, h, .refl⟩) id, Or.inr⟩
    · intro x y
      rw [k6 rfl x y, hadj x, hexp x]
      constructor
      · rintro (h | ⟨h1, h2⟩)
        · simp [Digraph.empty] at h
        · exact ⟨(hcongr x).mp h1, graphLoop_R_depends w src ign h2⟩
      · rintro ⟨h1, h2⟩
        have h1' := (hcongr x).mpr h1
        exact Or.inr ⟨h1', (graphLoop_R_iff w src ign (hclean x h1') y).mpr h2⟩

/-- C128 (partial): when no package is given twice. -/
theorem package_graph_partial (w : World α) (src : Dict α (PkgInfo α)) (ign : Bool)
    (front : List α → List α) (A : List α) (hf : ∀ l, (front l).Perm l) (hA : A.Nodup)
    (hk : ∀ x, Reach (DependsIn w src ign) A x → Known w src ign x) :
    ∃ g, packageGraph w src ign front A = .ok g ∧ g.verts.Nodup ∧
      (∀ x, x ∈ g.verts ↔ Reach (DependsIn w src ign) A x) ∧
      ∀ x y, y ∈ g.adj x ↔ Reach (DependsIn w src ign) A x ∧ DependsIn w src ign x y := by
  have hfetch : ∀ y, (graphLoop w src ign).fetch y = .ok () ↔ ∃ p, src.get y = some p := by
    intro y
    simp only [graphLoop, getFrom]
    cases src.get y <;> simp
  have h0 := addPackages_spec (getFrom src) A Digraph.empty empty_wf hA (by simp [Digraph.empty])
  cases hres : packageGraph w src ign front A with
  | ok g => exact ⟨g, rfl, package_graph_exact w src ign front A hf hA g hres⟩
  | error e =>
    exfalso
    unfold packageGraph at hres
    cases ha : addPackages (getFrom src) A Digraph.empty with
    | error e' =>
      rw [ha] at h0
      obtain ⟨x, hx, he⟩ := h0
      obtain ⟨p, hp, _⟩ := hk x ⟨x, hx, .refl⟩
      rw [(getFrom_ok src x p).mpr hp] at he
      cases he
    | ok g0 =>
      simp only [ha] at h0 hres
      obtain ⟨hw0, hv, hadj, hpres⟩ := h0
      have hv0 : ∀ x, x ∈ g0.verts ↔ x ∈ A := by intro x; rw [hv]; simp [Digraph.empty]
      obtain ⟨x, hx, hfail⟩ := closure_err (graphLoop w src ign) .fuel front hf src.keys (by
        intro y hy
        obtain ⟨p, hp⟩ := (hfetch y).mp hy
        exact (Dict.mem_keys _ _).mpr (by simp [hp])) A g0 hw0 (fun x hx => (hv0 x).mpr hx) e hres
      have hx' := reach_mono (fun a b => graphLoop_R_depends w src ign)
        ((exp_reach (graphLoop w src ign) g0.verts A hv0 x).mp hx)
      have hkx := hk x hx'
      obtain ⟨ds, hd1, hd2⟩ := (graphLoop_clean w src ign x).mpr hkx
      rcases hfail with hfail | ⟨ds', d, e1, e2, e3⟩ | ⟨y, hR, hn, he⟩
      · rw [hd1] at hfail; cases hfail
      · rw [hd1] at e1
        cases e1
        obtain ⟨b, hb⟩ := hd2 d e2
        rw [hb] at e3; cases e3
      · obtain ⟨a, ha', hr⟩ := hx'
        obtain ⟨p, hp, _⟩ := hk y ⟨a, ha', hr.tail (graphLoop_R_depends w src ign hR)⟩
        rw [(hfetch y).mpr ⟨p, hp⟩] at he
        cases he

/-- C128, a package given twice: nothing is written but an AssertionError. -/
theorem package_graph_twice (w : World α) (src : Dict α (PkgInfo α)) (ign : Bool)
    (front : List α → List α) (A : List α) (hA : ¬ A.Nodup)
    (hk : ∀ x ∈ A, ∃ p, src.get x = some p) :
    packageGraph w src ign front A = .error .assertion := by
  have key : ∀ (A : List α) (g : Digraph α), (∀ x ∈ A, ∃ p, src.get x = some p) →
      (¬ A.Nodup ∨ ∃ x ∈ A, x ∈ g.verts) →
      addPackages (getFrom src) A g = .error .assertion := by
    intro A
    induction A with
    | nil => rintro g _ (h | ⟨x, hx, _⟩)
             · exact absurd List.nodup_nil h
             · cases hx
    | cons x xs ih =>
      intro g hk h
      obtain ⟨p, hp⟩ := hk x (List.mem_cons_self ..)
      unfold addPackages
      rw [(getFrom_ok src x p).mpr hp]
      dsimp only
      cases hv : g.addVertex x with
      | error e => rfl
      | ok g1 =>
        dsimp only
        obtain ⟨rfl, hxn⟩ := addVertex_ok hv
        apply ih _ (fun y hy => hk y (List.mem_cons_of_mem _ hy))
        have hverts : (g.ensure x).verts = g.verts ++ [x] := by simp [Digraph.ensure, hxn]
        rcases h with h | ⟨y, hy, hyg⟩
        · rw [List.nodup_cons] at h
          by_cases hxx : x ∈ xs
          · exact Or.inr ⟨x, hxx, by rw [hverts]; simp⟩
          · exact Or.inl (fun hn => h ⟨hxx, hn⟩)
        · rcases List.mem_cons.mp hy with rfl | hy
          · exact absurd hyg hxn
          · exact Or.inr ⟨y, hy, by rw [hverts]; simp [hyg]⟩
  unfold packageGraph
  rw [key A Digraph.empty hk (Or.inl hA)]

/-- C128: the first package that is not known is reported. -/
theorem package_graph_unknown (w : World α) (src : Dict α (PkgInfo α)) (ign : Bool)
    (front : List α → List α) (A B : List α) (x : α) (hA : A.Nodup)
    (hk : ∀ x ∈ A, ∃ p, src.get x = some p) (hx : src.get x = none) :
    packageGraph w src ign front (A ++ x :: B) = .error (.notFound x) := by
  have key : ∀ (A : List α) (g : Digraph α), (∀ x ∈ A, ∃ p, src.get x = some p) → A.Nodup → (∀ x ∈ A, x ∉ g.verts) →
      addPackages (getFrom src) (A ++ x :: B) g = .error (.notFound x) := by
    intro A
    induction A with
    | nil => intro g _ _ _; simp [addPackages, getFrom, hx]
    | cons a A ih =>
      intro g hk hn hg
      obtain ⟨p, hp⟩ := hk a (List.mem_cons_self ..)
      rw [List.nodup_cons] at hn
      rw [List.cons_append]
      unfold addPackages
      rw [(getFrom_ok src a p).mpr hp]
      dsimp only
      cases hv : g.addVertex a with
      | error e =>
        exfalso
        have := hg a (List.mem_cons_self ..)
        simp [Digraph.addVertex, this] at hv
      | ok g1 =>
        dsimp only
        obtain ⟨rfl, han⟩ := addVertex_ok hv
        apply ih _ (fun y hy => hk y (List.mem_cons_of_mem _ hy)) hn.2
        intro y hy
        have hverts : (g.ensure a).verts = g.verts ++ [a] := by simp [Digraph.ensure, han]
        rw [hverts, List.mem_append, List.mem_singleton, not_or]
        exact ⟨hg y (List.mem_cons_of_mem _ hy), fun e => hn.1 (e ▸ hy)⟩
  unfold packageGraph
  rw [key A Digraph.empty hk hA (by simp [Digraph.empty])]

example : packageGraph (⟨[], [], [], [], []⟩ : World Nat) [(0, ⟨['1'], ['1'], none, [], [], [], []⟩)] false id
    ([0] ++ 1 :: [2]) = .error (.notFound 1) :=
  package_graph_unknown _ _ _ _ _ _ _ (by decide) (by intro x hx; rw [List.mem_singleton] at hx; subst hx; exact ⟨_, rfl⟩) rfl

/-- C128 does not hold in full: `pisi graph a a`. -/
theorem package_graph_refuted : ¬ PackageGraphFull Nat := by
  intro h
  have hk : ∀ x, Reach (DependsIn (⟨[], [], [], [], []⟩ : World Nat)
      [(0, ⟨['1'], ['1'], none, [], [], [], []⟩)] false) [0, 0] x →
      Known (⟨[], [], [], [], []⟩ : World Nat)
        [(0, ⟨['1'], ['1'], none, [], [], [], []⟩)] false x := by
    rintro x ⟨a, ha, hr⟩
    have ha0 : a = 0 := by simpa using ha
    have : x = 0 := by
      subst ha0
      induction hr with
      | refl => rfl
      | tail _ h2 ih =>
        subst ih
        obtain ⟨p, d, hp, hd, _⟩ := h2
        have : p = ⟨['1'], ['1'], none, [], [], [], []⟩ := by
          injection (show some (⟨['1'], ['1'], none, [], [], [], []⟩ : PkgInfo Nat) = some p from hp)
            with hp
          exact hp.symm
        subst this
        cases hd
    subst this
    exact ⟨_, rfl, rfl, by intro h; cases h⟩
  obtain ⟨g, hg, _⟩ := h ⟨[], [], [], [], []⟩ [(0, ⟨['1'], ['1'], none, [], [], [], []⟩)] false id
    [0, 0] (fun l => List.Perm.refl _) hk
  rw [package_graph_twice _ _ _ _ _ (by decide) (by
    intro x hx
    have : x = 0 := by simpa using hx
    subst this
    exact ⟨_, rfl⟩)] at hg
  cases hg

/-- Non-vacuity of C128: 0 needs 1 needs 2, 3 is apart. -/
example : ∃ g, packageGraph (⟨[], [], [], [], []⟩ : World Nat)
    [(0, ⟨['1'], ['1'], none, [⟨1, none, none, none, none, none, none⟩], [], [], []⟩),
     (1, ⟨['1'], ['1'], none, [⟨2, none, none, none, none, none, none⟩], [], [], []⟩),
     (2, ⟨['1'], ['1'], none, [], [], [], []⟩), (3, ⟨['1'], ['1'], none, [], [], [], []⟩)]
    true id [0] = .ok g ∧ g.verts = [0, 1, 2] ∧ g.adj 0 = [1] ∧ g.adj 1 = [2] := by
  refine ⟨_, rfl, by decide, by decide, by decide⟩

/-! ### C129: the graph that is written -/

/-- The nodes of a file. -/
def dotNodes : List Stmt → List (Str × Str)
  | [] => []
  | .node i l :: ss => (i, l) :: dotNodes ss
  | .edge _ _ :: ss => dotNodes ss

/-- The edges of a file. -/
def dotEdges : List Stmt → List (Str × Str)
  | [] => []
  | .node _ _ :: ss => dotEdges ss
  | .edge i j :: ss => (i, j) :: dotEdges ss

/-- The property in full: for every graph of packages with names of letters, digits and punctuation,
the file describes the graph. -/
def GraphvizFull : Prop :=
  ∀ (label : Str → Str) (g : Digraph Str), g.WF →
    (∀ u ∈ g.verts, u ≠ [] ∧ ∀ c ∈ u, c.isAlphanum = true ∨ c ∈ punctuation) →
    ∃ ss, writeGraphviz label g = some ss ∧
      Dot.Describes (dotNodes ss) (dotEdges ss) (· ∈ g.verts) (fun u v => v ∈ g.adj u) label

/-- The name with underscores for punctuation. -/
def under (u : Str) : Str := u.map (fun c => if c ∈ punctuation then '_' else c)

theorem idStr_of_ne {u : Str} (h : u ≠ []) : idStr u = some (under u) := by
  unfold idStr
  rw [if_neg h]
  rfl

theorem allSome_map {β γ : Type} {f : β → Option γ} {h : β → γ} {l : List β}
    (hf : ∀ b ∈ l, f b = some (h b)) : allSome f l = some (l.map h) := by
  induction l with
  | nil => rfl
  | cons b l ih =>
    unfold allSome
    rw [hf b (List.mem_cons_self ..), ih (fun c hc => hf c (List.mem_cons_of_mem _ hc))]
    rfl

theorem writeGraphviz_eq (label : Str → Str) (g : Digraph Str) (hg : g.WF)
    (hne : ∀ u ∈ g.verts, u ≠ []) : writeGraphviz label g =
      some (g.verts.map (fun u => Stmt.node (under u) (label u)) ++
        (g.verts.flatMap (fun u => (g.adj u).map (fun v => (u, v)))).map
          (fun e => Stmt.edge (under e.1) (under e.2))) := by
  unfold writeGraphviz
  rw [allSome_map (h := fun u => Stmt.node (under u) (label u)) (by
    intro u hu
    rw [idStr_of_ne (hne u hu)]
    rfl)]
  dsimp only
  rw [allSome_map (h := fun e : Str × Str => Stmt.edge (under e.1) (under e.2)) (by
    rintro ⟨u, v⟩ huv
    obtain ⟨u', hu', hv⟩ := List.mem_flatMap.mp huv
    obtain ⟨v', hv', e⟩ := List.mem_map.mp hv
    injection e with e1 e2
    subst e1 e2
    dsimp only
    rw [idStr_of_ne (hne u' hu'), idStr_of_ne (hne v' (hg.tgt u' v' hv'))])]

theorem dotNodes_append (as bs : List Stmt) : dotNodes (as ++ bs) = dotNodes as ++ dotNodes bs := by
  induction as with
  | nil => rfl
  | cons a as ih => cases a <;> simp [dotNodes, ih]

theorem dotEdges_append (as bs : List Stmt) : dotEdges (as ++ bs) = dotEdges as ++ dotEdges bs := by
  induction as with
  | nil => rfl
  | cons a as ih => cases a <;> simp [dotEdges, ih]

theorem dotNodes_nodes {β : Type} (f g : β → Str) (l : List β) :
    dotNodes (l.map (fun u => Stmt.node (f u) (g u))) = l.map (fun u => (f u, g u)) := by
  induction l with
  | nil => rfl
  | cons a as ih => simp [dotNodes, ih]

theorem dotNodes_edges {β : Type} (f g : β → Str) (l : List β) :
    dotNodes (l.map (fun u => Stmt.edge (f u) (g u))) = [] := by
  induction l with
  | nil => rfl
  | cons a as ih => simp [dotNodes, ih]

theorem dotEdges_nodes {β : Type} (f g : β → Str) (l : List β) :
    dotEdges (l.map (fun u => Stmt.node (f u) (g u))) = [] := by
  induction l with
  | nil => rfl
  | cons a as ih => simp [dotEdges, ih]

theorem dotEdges_edges {β : Type} (f g : β → Str) (l : List β) :
    dotEdges (l.map (fun u => Stmt.edge (f u) (g u))) = l.map (fun u => (f u, g u)) := by
  induction l with
  | nil => rfl
  | cons a as ih => simp [dotEdges, ih]

theorem isId_under {u : Str} (hne : u ≠ [])
    (hc : ∀ c ∈ u, c.isAlphanum = true ∨ c ∈ punctuation)
    (hd : ∀ c, u.head? = some c → c.isDigit = false)
    (hk : (under u).map Char.toLower ∉ Dot.keywords) : Dot.IsId (under u) := by
  refine ⟨by unfold under; simpa using hne, ?_, Or.inl ?_, hk⟩
  · intro c hcu
    obtain ⟨b, hb, rfl⟩ := List.mem_map.mp hcu
    by_cases hp : b ∈ punctuation
    · rw [if_pos hp]; exact Or.inr rfl
    · rw [if_neg hp]; exact Or.inl ((hc b hb).resolve_right hp)
  · intro c hcu
    cases u with
    | nil => exact absurd rfl hne
    | cons b u =>
      have hcu' : (if b ∈ punctuation then '_' else b) = c := by
        injection hcu
      by_cases hp : b ∈ punctuation
      · rw [if_pos hp] at hcu'; rw [← hcu']; rfl
      · rw [if_neg hp] at hcu'; rw [← hcu']; exact hd b rfl

/-- C129 (partial): names that do not begin with a digit, that stay different when punctuation is
not looked at, and that are not reserved words of the language. -/
theorem graphviz_partial (label : Str → Str) (g : Digraph Str) (hg : g.WF)
    (hc : ∀ u ∈ g.verts, u ≠ [] ∧ ∀ c ∈ u, c.isAlphanum = true ∨ c ∈ punctuation)
    (hd : ∀ u ∈ g.verts, ∀ c, u.head? = some c → c.isDigit = false)
    (hk : ∀ u ∈ g.verts, (under u).map Char.toLower ∉ Dot.keywords)
    (hu : ∀ u ∈ g.verts, ∀ v ∈ g.verts, under u = under v → u = v) :
    ∃ ss, writeGraphviz label g = some ss ∧
      Dot.Describes (dotNodes ss) (dotEdges ss) (· ∈ g.verts) (fun u v => v ∈ g.adj u) label := by
  refine ⟨_, writeGraphviz_eq label g hg (fun u hu => (hc u hu).1), ?_⟩
  rw [dotNodes_append, dotEdges_append, dotNodes_nodes, dotNodes_edges, dotEdges_nodes,
    dotEdges_edges, List.append_nil, List.nil_append]
  have hid : ∀ u ∈ g.verts, Dot.IsId (under u) := fun u hu' =>
    isId_under (hc u hu').1 (hc u hu').2 (hd u hu') (hk u hu')
  have hes : ∀ i j, (i, j) ∈ (g.verts.flatMap (fun u => (g.adj u).map (fun v => (u, v)))).map
      (fun e => (under e.1, under e.2)) ↔ ∃ u v, v ∈ g.adj u ∧ i = under u ∧ j = under v := by
    intro i j
    simp only [List.mem_map, List.mem_flatMap, Prod.mk.injEq, Prod.exists]
    constructor
    · rintro ⟨u, v, ⟨u', hu', v', hv', e1, e2⟩, rfl, rfl⟩
      subst e1 e2
      exact ⟨u', v', hv', rfl, rfl⟩
    · rintro ⟨u, v, hv, rfl, rfl⟩
      exact ⟨u, v, ⟨u, (hg.src u v hv), v, hv, rfl, rfl⟩, rfl, rfl⟩
  refine ⟨?_, ?_, under, fun u v h1 h2 => hu u h1 v h2, ?_, hes⟩
  · rintro ⟨i, l⟩ hn
    obtain ⟨u, hu', e⟩ := List.mem_map.mp hn
    injection e with e1 e2
    subst e1
    exact hid u hu'
  · rintro ⟨i, j⟩ he
    obtain ⟨u, v, hv, rfl, rfl⟩ := (hes i j).mp he
    exact ⟨hid u (hg.src u v hv), hid v (hg.tgt u v hv)⟩
  · intro i l
    simp only [List.mem_map, Prod.mk.injEq]
    constructor
    · rintro ⟨u, hu', rfl, rfl⟩
      exact ⟨u, hu', rfl, rfl⟩
    · rintro ⟨u, hu', rfl, rfl⟩
      exact ⟨u, hu', rfl, rfl⟩

/-- C129: nodes of different packages fall together exactly if their names are the same up to
punctuation. -/
theorem graphviz_collide (u v : Str) (hu : u ≠ []) (hv : v ≠ []) :
    idStr u = idStr v ↔ under u = under v := by
  rw [idStr_of_ne hu, idStr_of_ne hv, Option.some.injEq]

/-- The graph of the packages a-b and a_b, without edges. -/
def twoNames : Digraph Str :=
  { verts := [['a', '-', 'b'], ['a', '_', 'b']], adj := fun _ => [] }

/-- C129 does not hold in full: the packages a-b and a_b become one node. -/
theorem graphviz_refuted : ¬ GraphvizFull := by
  intro h
  obtain ⟨ss, h1, h2⟩ := h (fun _ => []) twoNames
    ⟨by decide, fun u v h => absurd h (List.not_mem_nil), fun u v h => absurd h (List.not_mem_nil)⟩ (by decide)
  have h3 : writeGraphviz (fun _ => []) twoNames =
      some [.node ['a', '_', 'b'] [], .node ['a', '_', 'b'] []] := by decide
  rw [h3] at h1
  injection h1 with h1
  subst h1
  obtain ⟨_, _, f, hf, hn, _⟩ := h2
  have e1 := (hn (f ['a', '-', 'b']) []).mpr ⟨_, by decide, rfl, rfl⟩
  have e2 := (hn (f ['a', '_', 'b']) []).mpr ⟨_, by decide, rfl, rfl⟩
  simp only [dotNodes, List.mem_cons, Prod.mk.injEq, List.not_mem_nil, or_false, and_true,
    or_self] at e1 e2
  have := hf ['a', '-', 'b'] ['a', '_', 'b'] (by decide) (by decide) (by rw [e1, e2])
  revert this
  decide

/-- C129: nor is a name that begins with a digit a word of the language. -/
theorem graphviz_digit : idStr ['4', 's', 'u', 'i', 't', 'e'] = some ['4', 's', 'u', 'i', 't', 'e'] ∧
    ¬ Dot.IsId ['4', 's', 'u', 'i', 't', 'e'] := by
  refine ⟨by decide, ?_⟩
  rintro ⟨_, _, h | h, _⟩
  · have := h '4' rfl
    revert this
    decide
  · have := h 's' (by decide)
    revert this
    decide

/-- Non-vacuity of C129: gtk+ needs glib-2. -/
example : ∃ ss, writeGraphviz (fun u => u) (⟨[['g', '+'], ['l', '-', '2']],
      fun u => if u = ['g', '+'] then [['l', '-', '2']] else []⟩ : Digraph Str) = some ss ∧
    ss = [.node ['g', '_'] ['g', '+'], .node ['l', '_', '2'] ['l', '-', '2'],
      .edge ['g', '_'] ['l', '_', '2']] := by
  exact ⟨_, by decide, rfl⟩

/-! ### C130: emerge -/

/-- The property in full: if every build and installation succeeds and the user agrees, `emerge` of
some sources builds each of them and installs what it has built. -/
def EmergeFull (α : Type) [DecidableEq α] : Prop :=
  ∀ (ignoreDep pisiInst : Bool) (isPisi : α → Bool) (order : List α → List α) (A : List α),
    (∀ l, (order l).Perm l) → ∀ x ∈ A,
      EmergeEv.installBuilt x ∈ (emerge ignoreDep false true pisiInst isPisi order (fun _ => true) A).1

/-- C130, what happens: with dependencies `emerge` fails before it does anything, whatever it is
given. -/
theorem emerge_fails (dryRun confirm pisiInst : Bool) (isPisi : α → Bool)
    (order : List α → List α) (ok : EmergeEv α → Bool) (A : List α) (hA : A ≠ []) :
    emerge false dryRun confirm pisiInst isPisi order ok A = ([], .attribute) := by
  unfold emerge
  rw [if_neg hA]
  rfl

/-- C130 does not hold in full. -/
theorem emerge_refuted : ¬ EmergeFull Nat := by
  intro h
  have := h false false (fun _ => false) id [0] (fun l => List.Perm.refl _) 0 (by simp)
  rw [emerge_fails _ _ _ _ _ _ _ (by simp)] at this
  cases this

theorem doAll_true (ok : EmergeEv α → Bool) (es : List (EmergeEv α)) (h : ∀ e ∈ es, ok e = true) :
    doAll ok es = (es, true) := by
  induction es with
  | nil => rfl
  | cons e es ih =>
    unfold doAll
    rw [if_pos (h e (List.mem_cons_self ..)), ih (fun e he => h e (List.mem_cons_of_mem _ he))]

theorem doAll_spec (ok : EmergeEv α → Bool) (es : List (EmergeEv α)) :
    (doAll ok es = (es, true) ∧ ∀ e ∈ es, ok e = true) ∨
    ∃ pre e post, es = pre ++ e :: post ∧ (∀ e ∈ pre, ok e = true) ∧ ok e = false ∧
      doAll ok es = (pre ++ [e], false) := by
  induction es with
  | nil => exact Or.inl ⟨rfl, by simp⟩
  | cons e es ih =>
    unfold doAll
    cases he : ok e with
    | false => exact Or.inr ⟨[], e, es, rfl, by simp, he, by simp⟩
    | true =>
      rw [if_pos rfl]
      rcases ih with ⟨h1, h2⟩ | ⟨pre, e', post, h1, h2, h3, h4⟩
      · exact Or.inl ⟨by rw [h1], by
          intro e' he'
          rcases List.mem_cons.mp he' with rfl | he'
          · exact he
          · exact h2 e' he'⟩
      · exact Or.inr ⟨e :: pre, e', post, by rw [h1]; rfl, by
          intro x hx
          rcases List.mem_cons.mp hx with rfl | hx
          · exact he
          · exact h2 x hx, h3, by rw [h4]; rfl⟩

/-- C130 (partial): when dependencies are ignored: each source is built, and what it gives is
installed right after, once, in the order of the set; it stops at the first failure. -/
theorem emerge_partial (confirm pisiInst : Bool) (isPisi : α → Bool) (order : List α → List α)
    (ok : EmergeEv α → Bool) (A : List α) (ho : (order A).Perm A) :
    let todo := (order A).flatMap (fun x => [EmergeEv.build x, EmergeEv.installBuilt x])
    let r := emerge true false confirm pisiInst isPisi order ok A
    ((∀ e ∈ todo, ok e = true) → r.1 = todo ∧
      (A ≠ [] → (r.2 = .done ∨ (r.2 = .pisiUpgraded ∧ ∃ x ∈ A, isPisi x = true)))) ∧
    ((∃ e ∈ todo, ok e = false) → r.2 = .failed ∧ ∃ pre e post, todo = pre ++ e :: post ∧
      (∀ e ∈ pre, ok e = true) ∧ ok e = false ∧ r.1 = pre ++ [e]) := by
  intro todo r
  have hlen : (order A).length = A.length := ho.length_eq
  have hr : A ≠ [] → r = if (doAll ok todo).2 then
      (if (order A).any isPisi || ((order A ++ []).any isPisi && pisiInst) then
        ((doAll ok todo).1, .pisiUpgraded) else ((doAll ok todo).1, .done))
      else ((doAll ok todo).1, .failed) := by
    intro hA
    show emerge true false confirm pisiInst isPisi order ok A = _
    unfold emerge
    rw [if_neg hA]
    simp only [if_true]
    rw [if_neg (by decide), if_neg (by simp [hlen])]
    rfl
  by_cases hA : A = []
  · have ho' : order A = [] := by rw [hA] at ho ⊢; exact List.perm_nil.mp ho
    have htodo : todo = [] := by show (order A).flatMap _ = []; rw [ho']; rfl
    refine ⟨fun _ => ⟨?_, fun h => absurd hA h⟩, ?_⟩
    · rw [htodo]
      show (emerge true false confirm pisiInst isPisi order ok A).1 = []
      unfold emerge
      rw [if_pos hA]
    · rintro ⟨e, he, _⟩
      rw [htodo] at he
      cases he
  · rw [hr hA]
    rcases doAll_spec ok todo with ⟨h1, h2⟩ | ⟨pre, e, post, h1, h2, h3, h4⟩
    · rw [h1]
      dsimp only
      rw [if_pos rfl]
      refine ⟨fun _ => ⟨by split <;> rfl, fun _ => ?_⟩, ?_⟩
      · by_cases hp : ((order A).any isPisi || ((order A ++ []).any isPisi && pisiInst)) = true
        · rw [if_pos hp]
          refine Or.inr ⟨rfl, ?_⟩
          rw [List.append_nil, Bool.or_eq_true, Bool.and_eq_true] at hp
          have hp' : (order A).any isPisi = true := hp.elim id (·.1)
          rw [List.any_eq_true] at hp'
          obtain ⟨x, hx, hx'⟩ := hp'
          exact ⟨x, ho.mem_iff.mp hx, hx'⟩
        · rw [if_neg hp]
          exact Or.inl rfl
      · rintro ⟨e, he, he'⟩
        rw [h2 e he] at he'
        cases he'
    · rw [h4]
      dsimp only
      rw [if_neg (by decide)]
      refine ⟨?_, fun _ => ⟨rfl, pre, e, post, h1, h2, h3, rfl⟩⟩
      intro h
      have := h e (by rw [h1]; simp)
      rw [h3] at this
      cases this

/-- C130: every source is among the things done, when dependencies are ignored. -/
theorem emerge_all_partial (pisiInst : Bool) (isPisi : α → Bool) (order : List α → List α)
    (A : List α) (ho : (order A).Perm A) (x : α) (hx : x ∈ A) : EmergeEv.installBuilt x ∈
      (emerge true false true pisiInst isPisi order (fun _ => true) A).1 := by
  have h := (emerge_partial true pisiInst isPisi order (fun _ => true) A ho).1 (fun _ _ => rfl)
  rw [h.1]
  exact List.mem_flatMap.mpr ⟨x, ho.mem_iff.mpr hx, by simp⟩

/-- C130: a dry run does nothing. -/
theorem emerge_dry (ignoreDep confirm pisiInst : Bool) (isPisi : α → Bool)
    (order : List α → List α) (ok : EmergeEv α → Bool) (A : List α) :
    (emerge ignoreDep true confirm pisiInst isPisi order ok A).1 = [] := by
  unfold emerge
  by_cases hA : A = []
  · rw [if_pos hA]
  · rw [if_neg hA]
    cases ignoreDep <;> rfl

/-- Non-vacuity of C130: two sources, the second installation fails. -/
example : emerge true false true false (fun _ => false) id
    (fun e => e != EmergeEv.installBuilt 7) [5, 7, 9] =
    ([.build 5, .installBuilt 5, .build 7, .installBuilt 7], .failed) := by
  decide

end Pisi.Plan
