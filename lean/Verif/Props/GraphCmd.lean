import Verif.Spec.GraphCmd
import Verif.Props.PkgGraph
import Verif.Props.ItemByRepo

/-!
# What `graph` writes (C228)
-/
set_option linter.unusedSectionVars false

namespace Pisi.Plan
open Pisi.Graph Pisi.PlanSpec Pisi.DB

/-- The property in full: if the records of all packages to be shown are there, the file describes
the packages to be shown and the dependencies among them. -/
def GraphCmdFull : Prop :=
  ∀ (front : List Str → List Str) (y : GraphSys) (o : GraphOpts) (args : List Str)
    (out : Option DotFile), (∀ l, (front l).Perm l) → GraphSys.Sound y →
    (∀ x, ToShow y o args x → Examinable y o x) →
    (∀ x, ToShow y o args x → x ≠ [] ∧ ∀ c ∈ x, c.isAlphanum = true ∨ c ∈ punctuation) →
    ∃ ss label, graphCmd front y o true args out = (some (.text ss), .ok ()) ∧ Labelled y o label ∧
      Dot.Describes (dotNodes ss) (dotEdges ss) (ToShow y o args)
        (fun x z => ToShow y o args x ∧ ShowsDep y o x z) label

/-- What the description of the command says: conflicts are in the graph, too. -/
def GraphConflictsFull : Prop :=
  ∀ (front : List Str → List Str) (y : GraphSys) (o : GraphOpts) (args : List Str)
    (out : Option DotFile) (ss : List Stmt), (∀ l, (front l).Perm l) → GraphSys.Sound y →
    graphCmd front y o true args out = (some (.text ss), .ok ()) →
    ∀ x z, ToShow y o args x → ToShow y o args z → Clashes y o x z →
      (under x, under z) ∈ dotEdges ss

/-- What the description of `--ignore-installed` says: installed packages are not shown. -/
def GraphIgnoreFull : Prop :=
  ∀ (front : List Str → List Str) (y : GraphSys) (o : GraphOpts) (args : List Str)
    (out : Option DotFile) (ss : List Stmt), (∀ l, (front l).Perm l) → GraphSys.Sound y →
    o.ignoreInstalled = true →
    graphCmd front y o true args out = (some (.text ss), .ok ()) →
    ∀ x i, y.world.inst.get x = some i → ∀ l, (under x, l) ∉ dotNodes ss

theorem filterMap_get {β γ : Type} (f : Str → Option γ) (d : Dict Str β) (x : Str) :
    Dict.get (d.filterMap (fun e => (f e.1).map (fun v => (e.1, v)))) x =
      if (d.get x).isSome then f x else none := by
  induction d with
  | nil => simp
  | cons e d ih =>
    obtain ⟨k, b⟩ := e
    rw [List.filterMap_cons]
    by_cases hk : k = x
    · subst hk
      cases hf : f k with
      | none =>
        simp only [Option.map_none, Dict.get, if_pos, Option.isSome_some]
        rw [ih, hf]
        split <;> rfl
      | some v => simp [Dict.get]
    · cases hf : f k with
      | none =>
        simp only [Option.map_none, Dict.get, if_neg hk]
        exact ih
      | some v =>
        simp only [Option.map_some, Dict.get, if_neg hk]
        exact ih

theorem holds_getItem (y : GraphSys) (o : GraphOpts) (x : Str) (m : Meta Str) :
    y.pkg.getItem y.repos x o.query = .ok m ↔ Holds y o x m := by
  unfold ItemDB.getItem ItemDB.getItemRepo Holds
  cases hx : y.pkg.get x with
  | none => simp
  | some s =>
    simp only [Option.some.injEq, exists_eq_left']
    have hrepos : (ItemDB.firstOf s (ItemDB.order y.repos .repos)).map Prod.fst = some m ↔
        ∃ l r l', y.repos = l ++ r :: l' ∧ s.get (.repo r) = some m ∧
          ∀ r' ∈ l, s.get (.repo r') = none := by
      unfold ItemDB.order
      induction y.repos with
      | nil => simp [ItemDB.firstOf]
      | cons r rs ih =>
        rw [List.map_cons, ItemDB.firstOf]
        cases hr : s.get (.repo r) with
        | some v =>
          simp only [Option.map_some, Option.some.injEq]
          constructor
          · rintro rfl
            exact ⟨[], r, rs, rfl, hr, by simp⟩
          · rintro ⟨l, r1, l', h1, h2, h3⟩
            cases l with
            | nil =>
              injection h1 with h1 h1'
              subst h1
              rw [hr] at h2
              exact Option.some.inj h2
            | cons a l =>
              injection h1 with h1 h1'
              subst h1
              have := h3 r (by simp)
              rw [hr] at this; cases this
        | none =>
          simp only
          rw [ih]
          constructor
          · rintro ⟨l, r1, l', h1, h2, h3⟩
            refine ⟨r :: l, r1, l', by rw [h1]; rfl, h2, ?_⟩
            intro r' hr'
            rcases List.mem_cons.mp hr' with rfl | h
            · exact hr
            · exact h3 r' h
          · rintro ⟨l, r1, l', h1, h2, h3⟩
            cases l with
            | nil =>
              injection h1 with h1 h1'
              subst h1
              rw [hr] at h2; cases h2
            | cons a l =>
              injection h1 with h1 h1'
              exact ⟨l, r1, l', h1', h2, fun r' h => h3 r' (List.mem_cons_of_mem _ h)⟩
    unfold GraphOpts.query
    cases hi : o.installed with
    | true =>
      simp only [if_true]
      cases s.get .installed <;> simp
    | false =>
      simp only [Bool.false_eq_true, if_false]
      match o.repository with
      | none => simp only; rw [← hrepos]; cases ItemDB.firstOf s (ItemDB.order y.repos .repos) <;> simp
      | some [] => simp only [if_true]; rw [← hrepos]; cases ItemDB.firstOf s (ItemDB.order y.repos .repos) <;> simp
      | some (c :: r) =>
        simp only [reduceCtorEq, if_false]
        cases s.get (.repo (c :: r)) <;> simp

theorem view_get (y : GraphSys) (o : GraphOpts) (x : Str) (p : PkgInfo Str) :
    (y.view o.query).get x = some p ↔ ∃ m, Holds y o x m ∧ m.info = p := by
  have h : y.view o.query = y.pkg.filterMap (fun e =>
      ((match y.pkg.getItem y.repos e.1 o.query with
        | .ok m => some m.info
        | .error _ => none) : Option (PkgInfo Str)).map (fun v => (e.1, v))) := by
    unfold GraphSys.view
    congr 1
    funext e
    cases y.pkg.getItem y.repos e.1 o.query <;> rfl
  rw [h, filterMap_get (fun x => match y.pkg.getItem y.repos x o.query with
        | .ok m => some m.info
        | .error _ => none)]
  constructor
  · intro hg
    by_cases hs : (y.pkg.get x).isSome
    · rw [if_pos hs] at hg
      cases hi : y.pkg.getItem y.repos x o.query with
      | error e => simp [hi] at hg
      | ok m =>
        simp only [hi, Option.some.injEq] at hg
        exact ⟨m, (holds_getItem y o x m).mp hi, hg⟩
    · rw [if_neg hs] at hg; cases hg
  · rintro ⟨m, hm, rfl⟩
    obtain ⟨s, hs, _⟩ := id hm
    rw [if_pos (by simp [hs]), (holds_getItem y o x m).mpr hm]

theorem holds_fun {y : GraphSys} {o : GraphOpts} {x : Str} {m m' : Meta Str} (h : Holds y o x m)
    (h' : Holds y o x m') : m = m' := by
  have h1 := (holds_getItem y o x m).mpr h
  rw [(holds_getItem y o x m').mpr h'] at h1
  injection h1 with h1
  exact h1.symm

theorem depends_needs (y : GraphSys) (o : GraphOpts) :
    DependsIn y.world (y.view o.query) o.ignoreInstalled = ShowsDep y o := by
  funext x z
  apply propext
  constructor
  · rintro ⟨p, d, hp, h⟩
    obtain ⟨m, hm, rfl⟩ := (view_get y o x p).mp hp
    exact ⟨m, d, hm, h⟩
  · rintro ⟨m, d, hm, h⟩
    exact ⟨m.info, d, (view_get y o x _).mpr ⟨m, hm, rfl⟩, h⟩

theorem known_examinable (y : GraphSys) (o : GraphOpts) (x : Str) :
    Known y.world (y.view o.query) o.ignoreInstalled x ↔ Examinable y o x := by
  constructor
  · rintro ⟨p, hp, h⟩
    obtain ⟨m, hm, rfl⟩ := (view_get y o x p).mp hp
    exact ⟨m, hm, h⟩
  · rintro ⟨m, hm, h⟩
    exact ⟨m.info, (view_get y o x _).mpr ⟨m, hm, rfl⟩, h⟩

/-- The packages the command starts from are those asked for. -/
theorem names_asked {y : GraphSys} (hy : GraphSys.Sound y) (o : GraphOpts) (args : List Str) (x : Str) :
    x ∈ o.names y args ↔ Asked y o args x := by
  unfold GraphOpts.names Asked
  by_cases ha : args ≠ []
  · rw [if_pos ha, if_pos ha]
  · rw [if_neg ha, if_neg ha]
    unfold GraphOpts.query Holds
    cases hi : o.installed with
    | true =>
      simp only [if_true]
      rw [Dict.mem_keys, Option.isSome_iff_exists, hy.tracked x]
      constructor
      · rintro ⟨s, hs, h⟩
        obtain ⟨m, hm⟩ := Option.isSome_iff_exists.mp h
        exact ⟨m, s, hs, hm⟩
      · rintro ⟨m, s, hs, hm⟩
        exact ⟨s, hs, by rw [hm]; rfl⟩
    | false =>
      simp only [Bool.false_eq_true, if_false]
      have hmem : ∀ s, (x, s) ∈ y.pkg ↔ y.pkg.get x = some s := Dict.mem_iff_get hy.uniq x
      have hrepos : x ∈ y.pkg.list .repos ↔ ∃ m s, y.pkg.get x = some s ∧
          ∃ l r l', y.repos = l ++ r :: l' ∧ s.get (.repo r) = some m ∧
            ∀ r' ∈ l, s.get (.repo r') = none := by
        rw [show x ∈ y.pkg.list .repos ↔ ∃ s, (x, s) ∈ y.pkg ∧ notJustTracking s = true by
          simp [ItemDB.list]]
        constructor
        · rintro ⟨s, hs, hn⟩
          have hs := (hmem s).mp hs
          obtain ⟨h1, h2⟩ := hy.inner x s hs
          obtain ⟨r, hr⟩ := (notJustTracking_iff s h2 h1).mp hn
          have hrm := hy.known x s r hs hr
          suffices h : ∀ l : List Str, r ∈ l → ∃ m l1 r1 l', l = l1 ++ r1 :: l' ∧
              s.get (.repo r1) = some m ∧ ∀ r' ∈ l1, s.get (.repo r') = none by
            obtain ⟨m, h⟩ := h _ hrm
            exact ⟨m, s, hs, h⟩
          intro l
          induction l with
          | nil => intro h; cases h
          | cons a l ih =>
            intro h
            cases ha : s.get (.repo a) with
            | some m => exact ⟨m, [], a, l, rfl, ha, by simp⟩
            | none =>
              have hrl : r ∈ l := by
                rcases List.mem_cons.mp h with rfl | h
                · rw [ha] at hr; cases hr
                · exact h
              obtain ⟨m, l1, r1, l', h1, h2, h3⟩ := ih hrl
              refine ⟨m, a :: l1, r1, l', by rw [h1]; rfl, h2, ?_⟩
              intro r' hr'
              rcases List.mem_cons.mp hr' with rfl | h
              · exact ha
              · exact h3 r' h
        · rintro ⟨m, s, hs, l, r, l', _, hm, _⟩
          obtain ⟨h1, h2⟩ := hy.inner x s hs
          exact ⟨s, (hmem s).mpr hs, (notJustTracking_iff s h2 h1).mpr ⟨r, by rw [hm]; rfl⟩⟩
      match o.repository with
      | none => exact hrepos
      | some [] => exact hrepos
      | some (c :: r) =>
        simp only [reduceCtorEq, if_false, ItemDB.list, List.mem_map,
          List.mem_filter, Prod.exists, exists_and_right, exists_eq_right]
        constructor
        · rintro ⟨s, hs, hn⟩
          obtain ⟨m, hm⟩ := Option.isSome_iff_exists.mp hn
          exact ⟨m, s, (hmem s).mp hs, hm⟩
        · rintro ⟨m, s, hs, hm⟩
          exact ⟨s, (hmem s).mpr hs, by simp [Dict.has, hm]⟩

theorem names_nodup {y : GraphSys} (hy : GraphSys.Sound y) (o : GraphOpts) (args : List Str)
    (ha : args.Nodup) : (o.names y args).Nodup := by
  have hsub : ∀ q, (y.pkg.list q).Nodup := by
    intro q
    have hk : (y.pkg.map Prod.fst).Nodup := hy.uniq
    cases q with
    | alldb => exact hk
    | repos => exact hk.sublist (List.filter_sublist.map _)
    | one r => exact hk.sublist (List.filter_sublist.map _)
  unfold GraphOpts.names
  split
  · exact ha
  · split
    · exact hy.instUniq
    · exact hsub _

theorem reach_toShow {y : GraphSys} (hy : GraphSys.Sound y) (o : GraphOpts) (args : List Str) (x : Str) :
    Reach (DependsIn y.world (y.view o.query) o.ignoreInstalled) (o.names y args) x ↔
      ToShow y o args x := by
  rw [depends_needs]
  constructor
  · rintro ⟨a, ha, h⟩; exact ⟨a, (names_asked hy o args a).mp ha, h⟩
  · rintro ⟨a, ha, h⟩; exact ⟨a, (names_asked hy o args a).mpr ha, h⟩

theorem vlabel_labelled (y : GraphSys) (o : GraphOpts) : Labelled y o (vlabel (y.view o.query)) := by
  intro x m hm
  unfold vlabel
  rw [(view_get y o x _).mpr ⟨m, hm, rfl⟩]

theorem describes_congr {V V' : Str → Prop} {E E' : Str → Str → Prop} {ns es} {label : Str → Str}
    (hV : ∀ x, V x ↔ V' x) (hE : ∀ x z, E x z ↔ E' x z) (h : Dot.Describes ns es V E label) :
    Dot.Describes ns es V' E' label := by
  rwa [show V' = V from funext fun x => propext (hV x).symm,
    show E' = E from funext fun x => funext fun z => propext (hE x z).symm]

/-- The record of every package in the graph is there. -/
theorem package_graph_all_known {w : World Str} {src : Dict Str (PkgInfo Str)} {ign : Bool}
    {front : List Str → List Str} {A : List Str} (hf : ∀ l, (front l).Perm l) (hA : A.Nodup)
    {g : Digraph Str} (h : packageGraph w src ign front A = .ok g) :
    ∀ x ∈ g.verts, Known w src ign x := by
  unfold packageGraph at h
  have h0 := addPackages_spec (getFrom src) A Digraph.empty empty_wf hA (by simp [Digraph.empty])
  cases ha : addPackages (getFrom src) A Digraph.empty with
  | error e => simp [ha] at h
  | ok g0 =>
    simp only [ha] at h h0
    obtain ⟨hw0, hv, hadj, hpres⟩ := h0
    have hv0 : ∀ x, x ∈ g0.verts ↔ x ∈ A := by intro x; rw [hv]; simp [Digraph.empty]
    obtain ⟨k1, k2, k3, _⟩ := closure_exp (graphLoop w src ign) hf hw0 (fun x hx => (hv0 x).mpr hx) h
    have hexp := exp_reach (graphLoop w src ign) g0.verts A hv0
    intro x hx
    refine (graphLoop_clean w src ign x).mp (k3 x ?_)
    rcases (k2 x).mp hx with h | h
    · exact (hexp x).mpr ⟨x, (hv0 x).mp h, .refl⟩
    · exact h

/-- C228 (partial): when no package is given twice and names do not fall together, begin with a digit
or are reserved words. -/
theorem graphCmd_partial (front : List Str → List Str) (y : GraphSys) (o : GraphOpts)
    (args : List Str) (out : Option DotFile) (hf : ∀ l, (front l).Perm l) (hy : GraphSys.Sound y)
    (ha : args.Nodup)
    (hk : ∀ x, ToShow y o args x → Examinable y o x)
    (hc : ∀ x, ToShow y o args x → x ≠ [] ∧ ∀ c ∈ x, c.isAlphanum = true ∨ c ∈ punctuation)
    (hd : ∀ x, ToShow y o args x → ∀ c, x.head? = some c → c.isDigit = false)
    (hw : ∀ x, ToShow y o args x → (under x).map Char.toLower ∉ Dot.keywords)
    (hu : ∀ x z, ToShow y o args x → ToShow y o args z → under x = under z → x = z) :
    ∃ ss label, graphCmd front y o true args out = (some (.text ss), .ok ()) ∧ Labelled y o label ∧
      Dot.Describes (dotNodes ss) (dotEdges ss) (ToShow y o args)
        (fun x z => ToShow y o args x ∧ ShowsDep y o x z) label := by
  obtain ⟨g, hg, hn, hv, he⟩ := package_graph_partial y.world (y.view o.query) o.ignoreInstalled front
    (o.names y args) hf (names_nodup hy o args ha) (fun x hx =>
      (known_examinable y o x).mpr (hk x ((reach_toShow hy o args x).mp hx)))
  have hv' : ∀ x, x ∈ g.verts ↔ ToShow y o args x := fun x => (hv x).trans (reach_toShow hy o args x)
  have he' : ∀ x z, z ∈ g.adj x ↔ ToShow y o args x ∧ ShowsDep y o x z := fun x z => by
    rw [he x z, reach_toShow hy o args x, depends_needs]
  have hwf : g.WF := ⟨hn, fun x z h => (hv' x).mpr ((he' x z).mp h).1, fun x z h => by
    obtain ⟨⟨a, h1, h2⟩, h3⟩ := (he' x z).mp h
    exact (hv' z).mpr ⟨a, h1, h2.tail h3⟩⟩
  obtain ⟨ss, hs, hD⟩ := graphviz_partial (vlabel (y.view o.query)) g hwf
    (fun u h => hc u ((hv' u).mp h)) (fun u h => hd u ((hv' u).mp h)) (fun u h => hw u ((hv' u).mp h))
    (fun u h v h' => hu u v ((hv' u).mp h) ((hv' v).mp h'))
  refine ⟨ss, vlabel (y.view o.query), ?_, vlabel_labelled y o, describes_congr hv' he' hD⟩
  unfold graphCmd
  rw [hg]
  simp only [if_true, hs]

/-- C228: whatever is written without an error is a node for each package to be shown and an edge for
each dependency of one, under names without punctuation. -/
theorem graphCmd_exact (front : List Str → List Str) (y : GraphSys) (o : GraphOpts) (canOpen : Bool)
    (args : List Str) (out out' : Option DotFile) (hf : ∀ l, (front l).Perm l) (hy : GraphSys.Sound y)
    (ha : args.Nodup) (h : graphCmd front y o canOpen args out = (out', .ok ())) :
    ∃ ss, out' = some (.text ss) ∧
      (∀ i l, (i, l) ∈ dotNodes ss ↔ ∃ x m, ToShow y o args x ∧ Holds y o x m ∧ i = under x ∧
        l = x ++ ['('] ++ m.info.version ++ [','] ++ m.info.release ++ [')']) ∧
      (∀ i j, (i, j) ∈ dotEdges ss ↔ ∃ x z, ToShow y o args x ∧ ShowsDep y o x z ∧
        i = under x ∧ j = under z) := by
  unfold graphCmd at h
  cases hg : packageGraph y.world (y.view o.query) o.ignoreInstalled front (o.names y args) with
  | error e => rw [hg] at h; injection h with _ h; cases h
  | ok g =>
    rw [hg] at h
    dsimp only at h
    obtain ⟨hn, hv, he⟩ := package_graph_exact y.world (y.view o.query) o.ignoreInstalled front
      (o.names y args) hf (names_nodup hy o args ha) g hg
    have hv' : ∀ x, x ∈ g.verts ↔ ToShow y o args x := fun x => (hv x).trans (reach_toShow hy o args x)
    have he' : ∀ x z, z ∈ g.adj x ↔ ToShow y o args x ∧ ShowsDep y o x z := fun x z => by
      rw [he x z, reach_toShow hy o args x, depends_needs]
    have hwf : g.WF := ⟨hn, fun x z h => (hv' x).mpr ((he' x z).mp h).1, fun x z h => by
      obtain ⟨⟨a, h1, h2⟩, h3⟩ := (he' x z).mp h
      exact (hv' z).mpr ⟨a, h1, h2.tail h3⟩⟩
    cases canOpen with
    | false => simp at h
    | true =>
      simp only [if_true] at h
      cases hs : writeGraphviz (vlabel (y.view o.query)) g with
      | none => rw [hs] at h; injection h with _ h; cases h
      | some ss =>
        rw [hs] at h
        injection h with h _
        subst h
        have hne : ∀ u ∈ g.verts, u ≠ [] := by
          intro u hu e
          subst e
          unfold writeGraphviz at hs
          have hnone : ∀ l : List Str, ([] : Str) ∈ l → allSome (fun u => (idStr u).map
              (fun i => Stmt.node i (vlabel (y.view o.query) u))) l = none := by
            intro l
            induction l with
            | nil => intro h; cases h
            | cons a l ih =>
              intro h
              unfold allSome
              rcases List.mem_cons.mp h with h | h
              · subst h; rfl
              · rw [ih h]
                cases (idStr a).map (fun i => Stmt.node i (vlabel (y.view o.query) a)) <;> rfl
          rw [hnone _ hu] at hs
          cases hs
        rw [writeGraphviz_eq _ g hwf hne] at hs
        injection hs with hs
        subst hs
        refine ⟨_, rfl, ?_, ?_⟩
        · intro i l
          rw [dotNodes_append, dotNodes_nodes, dotNodes_edges, List.append_nil]
          simp only [List.mem_map, Prod.mk.injEq]
          constructor
          · rintro ⟨x, hx, rfl, rfl⟩
            obtain ⟨m, hm, _⟩ := (known_examinable y o x).mp
              (package_graph_all_known hf (names_nodup hy o args ha) hg x hx)
            exact ⟨x, m, (hv' x).mp hx, hm, rfl, vlabel_labelled y o x m hm⟩
          · rintro ⟨x, m, hx, hm, rfl, rfl⟩
            exact ⟨x, (hv' x).mpr hx, rfl, vlabel_labelled y o x m hm⟩
        · intro i j
          rw [dotEdges_append, dotEdges_nodes, dotEdges_edges, List.nil_append]
          simp only [List.mem_map, List.mem_flatMap, Prod.mk.injEq, Prod.exists]
          constructor
          · rintro ⟨u, v, ⟨u', hu', v', hv1, e1, e2⟩, rfl, rfl⟩
            subst e1 e2
            obtain ⟨h1, h2⟩ := (he' u' v').mp hv1
            exact ⟨u', v', h1, h2, rfl, rfl⟩
          · rintro ⟨x, z, h1, h2, rfl, rfl⟩
            exact ⟨x, z, ⟨x, (hv' x).mpr h1, z, (he' x z).mpr ⟨h1, h2⟩, rfl, rfl⟩, rfl, rfl⟩

/-- C228: if the packages or their dependencies are not known, the output file is as before. -/
theorem graphCmd_kept (front : List Str → List Str) (y : GraphSys) (o : GraphOpts) (canOpen : Bool)
    (args : List Str) (out out' : Option DotFile) (e : PErr Str)
    (h : graphCmd front y o canOpen args out = (out', .error (.plan e))) : out' = out := by
  unfold graphCmd at h
  split at h
  · injection h with h _; exact h.symm
  · split at h
    · split at h
      · injection h with _ h; cases h
      · injection h with _ h; injection h with h; cases h
    · injection h with _ h; injection h with h; cases h

/-- A system with the packages a, which needs b and conflicts with c, and b and c, all in the repository
r; b is installed. -/
def abc : GraphSys :=
  let ma : Meta Str := ⟨['a'], ⟨['1'], ['2'], none, [⟨['b'], none, none, none, none, none, none⟩], [], [['c']], []⟩, none, [], [], []⟩
  let mb : Meta Str := ⟨['b'], ⟨['3'], ['4'], none, [], [], [], []⟩, none, [], [], []⟩
  let mc : Meta Str := ⟨['c'], ⟨['5'], ['6'], none, [], [], [], []⟩, none, [], [], []⟩
  ⟨[(['a'], [(.repo ['r'], ma)]), (['b'], [(.repo ['r'], mb), (.installed, mb)]), (['c'], [(.repo ['r'], mc)])],
   [['r']], ⟨[], [(['b'], ⟨['3'], ['4'], none⟩)], [(['b'], mb.info)], [], []⟩⟩

theorem abc_sound : GraphSys.Sound abc := by
  refine ⟨by decide, ?_, ?_, ?_, by decide⟩
  · intro x s h
    have := (Dict.mem_iff_get (show abc.pkg.keys.Nodup by decide) x s).mpr h
    revert this
    simp only [abc, List.mem_cons, Prod.mk.injEq, List.not_mem_nil, or_false]
    rintro (⟨_, rfl⟩ | ⟨_, rfl⟩ | ⟨_, rfl⟩) <;> exact ⟨by simp, by simp [Dict.keys]⟩
  · intro x s r h
    have := (Dict.mem_iff_get (show abc.pkg.keys.Nodup by decide) x s).mpr h
    revert this
    simp only [abc, List.mem_cons, Prod.mk.injEq, List.not_mem_nil, or_false]
    rintro (⟨_, rfl⟩ | ⟨_, rfl⟩ | ⟨_, rfl⟩) <;>
      simp only [Dict.get, RepoId.repo.injEq, reduceCtorEq, if_false] <;>
      intro hr <;> by_cases hh : ['r'] = r <;> simp_all
  · intro x
    show (∃ i, Dict.get [(['b'], _)] x = some i) ↔ _
    by_cases hb : ['b'] = x
    · subst hb
      exact ⟨fun _ => ⟨_, rfl, rfl⟩, fun _ => ⟨_, rfl⟩⟩
    · constructor
      · rintro ⟨i, hi⟩
        simp [Dict.get, hb] at hi
      · rintro ⟨s, hs, h⟩
        have := (Dict.mem_iff_get (show abc.pkg.keys.Nodup by decide) x s).mpr hs
        revert this
        simp only [abc, List.mem_cons, Prod.mk.injEq, List.not_mem_nil, or_false]
        rintro (⟨_, rfl⟩ | ⟨rfl, rfl⟩ | ⟨_, rfl⟩)
        · simp [Dict.get] at h
        · exact absurd rfl hb
        · simp [Dict.get] at h

example : graphCmd id abc {} true [['a'], ['c']] none =
    (some (.text [.node ['a'] ['a', '(', '1', ',', '2', ')'], .node ['c'] ['c', '(', '5', ',', '6', ')'],
      .node ['b'] ['b', '(', '3', ',', '4', ')'], .edge ['a'] ['b']]), .ok ()) := by
  decide

/-- `c` needs nothing. -/
theorem abc_c (o : GraphOpts) (ho : o.query = .repos) (z : Str) : ¬ ShowsDep abc o ['c'] z := by
  rintro ⟨m, d, hm, hd, _⟩
  have h := (holds_getItem abc o ['c'] m).mpr hm
  rw [ho] at h
  have h' : (Except.ok ⟨['c'], ⟨['5'], ['6'], none, [], [], [], []⟩, none, [], [], []⟩ : Except IErr (Meta Str)) = .ok m := h
  injection h' with h'
  subst h'
  cases hd

theorem abc_show (x : Str) (h : ToShow abc {} [['c'], ['c']] x) : x = ['c'] := by
  obtain ⟨a, ha, h⟩ := h
  have ha' : a ∈ [['c'], ['c']] := by unfold Asked at ha; rwa [if_pos (by simp)] at ha
  have : a = ['c'] := by simpa using ha'
  subst this
  rcases Relation.ReflTransGen.cases_head h with h | ⟨z, hz, _⟩
  · exact h.symm
  · exact absurd hz (abc_c {} rfl z)

/-- Non-vacuity of C228: `pisi graph c`. -/
example : ∃ ss label, graphCmd id abc {} true [['c']] none = (some (.text ss), .ok ()) ∧
    Labelled abc {} label ∧ Dot.Describes (dotNodes ss) (dotEdges ss) (ToShow abc {} [['c']])
      (fun x z => ToShow abc {} [['c']] x ∧ ShowsDep abc {} x z) label := by
  have hs : ∀ x, ToShow abc {} [['c']] x → x = ['c'] := by
    rintro x ⟨a, ha, h⟩
    exact abc_show x ⟨a, by unfold Asked at ha ⊢; rw [if_pos (by simp)] at ha ⊢; simpa using ha, h⟩
  refine graphCmd_partial id abc {} [['c']] none (fun l => List.Perm.refl _) abc_sound (by simp) ?_ ?_
    ?_ ?_ ?_
  · intro x hx
    rw [hs x hx]
    exact ⟨_, (holds_getItem abc {} ['c'] _).mp rfl, rfl, by intro h; cases h⟩
  · intro x hx; rw [hs x hx]; decide
  · intro x hx; rw [hs x hx]; decide
  · intro x hx; rw [hs x hx]; decide
  · intro x z hx hz _; rw [hs x hx, hs z hz]

/-- C228 does not hold in full: `pisi graph c c`. -/
theorem graphCmd_refuted : ¬ GraphCmdFull := by
  intro h
  obtain ⟨ss, label, h1, _⟩ := h id abc {} [['c'], ['c']] none (fun l => List.Perm.refl _) abc_sound
    (by
      intro x hx
      rw [abc_show x hx]
      exact ⟨_, (holds_getItem abc {} ['c'] _).mp rfl, rfl, by intro h; cases h⟩)
    (by
      intro x hx
      rw [abc_show x hx]
      decide)
  revert h1
  rw [show graphCmd id abc {} true [['c'], ['c']] none = (none, .error (.plan .assertion)) by decide]
  intro h1
  injection h1 with h1 _
  cases h1

/-- C228: conflicts are not in the graph, although the description says so. -/
theorem graphCmd_conflicts_refuted : ¬ GraphConflictsFull := by
  intro h
  have h1 := h id abc {} [['a'], ['c']] none _ (fun l => List.Perm.refl _) abc_sound
    (show graphCmd id abc {} true [['a'], ['c']] none = (some (.text [.node ['a'] ['a', '(', '1', ',', '2', ')'], .node ['c'] ['c', '(', '5', ',', '6', ')'],
      .node ['b'] ['b', '(', '3', ',', '4', ')'], .edge ['a'] ['b']]), .ok ()) by decide)
    ['a'] ['c'] ⟨['a'], by unfold Asked; simp, .refl⟩ ⟨['c'], by unfold Asked; simp, .refl⟩
    ⟨_, (holds_getItem abc {} ['a'] _).mp rfl, by decide⟩
  revert h1
  decide

/-- C228: with `--ignore-installed` and no names installed packages are shown, too. -/
theorem graphCmd_ignore_refuted : ¬ GraphIgnoreFull := by
  intro h
  have h1 := h id abc { ignoreInstalled := true } [] none _ (fun l => List.Perm.refl _) abc_sound rfl
    (show graphCmd id abc { ignoreInstalled := true } true [] none = (some (.text [.node ['a'] ['a', '(', '1', ',', '2', ')'], .node ['b'] ['b', '(', '3', ',', '4', ')'],
      .node ['c'] ['c', '(', '5', ',', '6', ')']]), .ok ()) by decide)
    ['b'] ⟨['3'], ['4'], none⟩ rfl ['b', '(', '3', ',', '4', ')']
  revert h1
  decide

/-- C228: with `--ignore-installed` an installed package is shown only if it was asked for, or if the
dependency on it of one that is shown is not satisfied. -/
theorem graphCmd_ignore (y : GraphSys) (o : GraphOpts) (args : List Str)
    (ho : o.ignoreInstalled = true) (x : Str) (h : ToShow y o args x) :
    Asked y o args x ∨ ∃ u m d, ToShow y o args u ∧ Holds y o u m ∧ d ∈ m.info.deps ∧ d.package = x ∧
      ¬ Satisfied y.world d := by
  obtain ⟨a, ha, h⟩ := h
  rcases Relation.ReflTransGen.cases_tail h with h | ⟨u, hu, m, d, hm, hd, hx, hs⟩
  · exact Or.inl (h ▸ ha)
  · exact Or.inr ⟨u, m, d, ⟨a, ha, hu⟩, hm, hd, hx, hs ho⟩

/-- C228: with `--installed` the repository given does not matter. -/
theorem graphCmd_installed (front : List Str → List Str) (y : GraphSys) (o : GraphOpts) (canOpen : Bool)
    (args : List Str) (out : Option DotFile) (ho : o.installed = true) (r : Option Str) :
    graphCmd front y { o with repository := r } canOpen args out = graphCmd front y o canOpen args out := by
  unfold graphCmd GraphOpts.names GraphOpts.query
  simp only [ho, if_true]

end Pisi.Plan
