import Verif.Model.ListCmd
import Verif.Props.PackageDB

/-!
# Listing packages, sources and components (C138, C139)
-/
set_option linter.unusedSectionVars false

namespace Pisi.ListCmd
open Pisi.DB Pisi.DBSpec
variable {α ρ : Type} [DecidableEq α]

/-! ### C138: list-available -/

theorem getPackage_ok (ops : List (SysOp α ρ)) (R : Str) (p : α) (v : Meta α)
    (hp : (SysOp.run ops).stores.pkg.cell p (.repo R) = some v) :
    ∃ m R', getPackage (SysOp.run ops) p = .ok m ∧ (SysOp.run ops).stores.pkg.cell p (.repo R') = some m ∧
      ∃ l, (SysOp.run ops).repos.list = .ok l ∧
        FirstWith (fun x => ((SysOp.run ops).stores.pkg.cell p (.repo x)).isSome = true) l R' := by
  obtain ⟨l, h⟩ := sys_run ops
  have hl : (SysOp.run ops).repos.list = .ok l := by simp [RepoDB.list, h.repos.order]
  have hk : (SysOp.run ops).stores.pkg.hasKey p .repos = true := by
    unfold ItemDB.hasKey
    unfold ItemDB.cell at hp
    cases hg : (SysOp.run ops).stores.pkg.get p with
    | none => rw [hg] at hp; cases hp
    | some s =>
      rw [hg] at hp
      obtain ⟨hu, hne⟩ := h.wf.pkg.inner p s hg
      exact (notJustTracking_iff s hu hne).2 ⟨R, by simpa using (by rw [show s.get (.repo R) = some v from hp]; rfl)⟩
  obtain ⟨w, hw⟩ := (exists_iff_lookup_cells h.wf.pkg l h.pkg p).1 hk
  have hw' := hw
  unfold ItemDB.getItem at hw
  cases hg : (SysOp.run ops).stores.pkg.getItemRepo l p .repos with
  | error e => rw [hg] at hw; cases hw
  | ok vr =>
    obtain ⟨v', r⟩ := vr
    rw [hg] at hw
    cases hw
    obtain ⟨h2, h3⟩ := (getItemRepo_order _ l p .repos (Or.inl rfl) _ _).mp hg
    obtain ⟨x, rfl, h4⟩ := (firstWith_map _ _ _ _).mp h3
    exact ⟨_, x, by rw [getPackage, hl]; dsimp only; rw [hw']; rfl, h2, l, hl, h4⟩

/-- What one line says. -/
def LineOk (o : Opts) (y : System α ρ) (inst : List α) (line : Line α) : Prop :=
  getPackage y line.name = .ok line.shown ∧ line.green = (!o.long && decide (line.name ∈ inst))

theorem printLoop_spec (o : Opts) (y : System α ρ) (inst : List α) (ps : List α)
    (h : ∀ p ∈ ps, ∃ m, getPackage y p = .ok m) : ∃ ls, printLoop o y inst ps = .ok ls ∧
      ls.map Line.name = ps.filter (fun p => o.long || !o.uninstalled || !decide (p ∈ inst)) ∧
      ∀ line ∈ ls, LineOk o y inst line := by
  induction ps with
  | nil => exact ⟨[], rfl, rfl, by simp⟩
  | cons p ps ih =>
    obtain ⟨m, hm⟩ := h p (by simp)
    obtain ⟨ls, h1, h2, h3⟩ := ih fun q hq => h q (by simp [hq])
    rw [printLoop, hm, h1]
    dsimp only
    by_cases ho : o.long = true
    · refine ⟨_, by rw [if_pos ho], by simp [ho, h2], fun line hline => ?_⟩
      rcases List.mem_cons.1 hline with rfl | hline
      · exact ⟨hm, by simp [ho]⟩
      · exact h3 line hline
    · rw [if_neg ho]
      by_cases hi : p ∈ inst
      · rw [if_pos hi]
        by_cases hu : o.uninstalled = true
        · exact ⟨_, by rw [if_pos hu], by simp [ho, hu, hi, h2], h3⟩
        · refine ⟨_, by rw [if_neg hu], by simp [hu, h2], fun line hline => ?_⟩
          rcases List.mem_cons.1 hline with rfl | hline
          · exact ⟨hm, by simp [ho, hi]⟩
          · exact h3 line hline
      · refine ⟨_, by rw [if_neg hi], by simp [hi, h2], fun line hline => ?_⟩
        rcases List.mem_cons.1 hline with rfl | hline
        · exact ⟨hm, by simp [ho, hi]⟩
        · exact h3 line hline

/-- The full statement: list-available with a repository shows every package of it (with `--uninstalled`, every one that is not
installed) once, and what it shows is in the repository. -/
def AvailableFull (α ρ : Type) [DecidableEq α] : Prop :=
  ∀ (sort : List α → List α), (∀ l, (sort l).Perm l) → ∀ (ops : List (SysOp α ρ)) (o : Opts) (inst : List α) (R : Str),
    ∃ ls, printPackages sort o (SysOp.run ops) inst R = .ok ls ∧ (ls.map Line.name).Nodup ∧
      (∀ p, p ∈ ls.map Line.name ↔ (∃ m, Has (SysOp.run ops).stores (.repo R) p m) ∧ (o.uninstalled = true → p ∉ inst)) ∧
      ∀ line ∈ ls, Has (SysOp.run ops).stores (.repo R) line.name line.shown

/-- What is shown is always in the first repository that has a package of the name. -/
theorem available_first (sort : List α → List α) (hs : ∀ l, (sort l).Perm l) (ops : List (SysOp α ρ)) (o : Opts)
    (inst : List α) (R : Str) : ∃ ls, printPackages sort o (SysOp.run ops) inst R = .ok ls ∧
      ls.map Line.name = (sort ((SysOp.run ops).stores.pkg.list (.one (.repo R)))).filter
        (fun p => o.long || !o.uninstalled || !decide (p ∈ inst)) ∧
      ∀ line ∈ ls, (line.green = true ↔ o.long = false ∧ line.name ∈ inst) ∧
        ∃ R' l, (SysOp.run ops).repos.list = .ok l ∧ Has (SysOp.run ops).stores (.repo R') line.name line.shown ∧
          FirstWith (fun x => ∃ m, Has (SysOp.run ops).stores (.repo x) line.name m) l R' := by
  obtain ⟨l, h⟩ := sys_run ops
  have hm : ∀ p ∈ sort ((SysOp.run ops).stores.pkg.list (.one (.repo R))),
      ∃ v, (SysOp.run ops).stores.pkg.cell p (.repo R) = some v := by
    intro p hp
    exact Option.isSome_iff_exists.1 ((mem_list_iff h.wf.pkg p (.repo R)).1 ((hs _).mem_iff.1 hp))
  obtain ⟨ls, h1, h2, h3⟩ := printLoop_spec o (SysOp.run ops) inst _ fun p hp => by
    obtain ⟨v, hv⟩ := hm p hp
    obtain ⟨m, _, h4, _⟩ := getPackage_ok ops R p v hv
    exact ⟨m, h4⟩
  refine ⟨ls, h1, h2, fun line hline => ?_⟩
  have h4 := h3 line hline
  have hmem : line.name ∈ sort ((SysOp.run ops).stores.pkg.list (.one (.repo R))) := by
    have : line.name ∈ ls.map Line.name := List.mem_map.2 ⟨line, hline, rfl⟩
    rw [h2] at this
    exact (List.mem_filter.1 this).1
  obtain ⟨v, hv⟩ := hm _ hmem
  obtain ⟨m, R', h5, h6, l', h7, h8⟩ := getPackage_ok ops R line.name v hv
  have : m = line.shown := by
    have := h4.1
    rw [h5] at this
    cases this
    rfl
  subst this
  refine ⟨by rw [h4.2]; simp, R', l', h7, (has_iff_cell _ _ _ _).2 h6, ?_⟩
  obtain ⟨a, b, e, h9, h10⟩ := h8
  refine ⟨a, b, e, ⟨_, (has_iff_cell _ _ _ _).2 h6⟩, fun y hy => ?_⟩
  rintro ⟨m', hm'⟩
  rw [has_iff_cell] at hm'
  refine h10 y hy ?_
  show ((SysOp.run ops).stores.pkg.cell line.name (.repo y)).isSome = true
  rw [hm']; rfl

theorem list_nodup {ν : Type} {d : ItemDB α ν} (h : d.WF) (q : RepoId) : (d.list (.one q)).Nodup := by
  unfold ItemDB.list
  exact (List.filter_sublist.map Prod.fst).nodup h.uniq

/-- list-available with a repository shows every package of it (with `--uninstalled`, every one that is not installed) once,
and what it shows is in the repository, if no other repository has a package of one of these names, and not both options are
given.  Missing for the full statement: see `available_refuted` and `available_refuted_long`. -/
theorem available_partial (sort : List α → List α) (hs : ∀ l, (sort l).Perm l) (ops : List (SysOp α ρ)) (o : Opts)
    (inst : List α) (R : Str) (ho : o.long = true → o.uninstalled = false)
    (hR : ∀ p m R' m', Has (SysOp.run ops).stores (.repo R) p m → Has (SysOp.run ops).stores (.repo R') p m' → R' = R) :
    ∃ ls, printPackages sort o (SysOp.run ops) inst R = .ok ls ∧ (ls.map Line.name).Nodup ∧
      (∀ p, p ∈ ls.map Line.name ↔ (∃ m, Has (SysOp.run ops).stores (.repo R) p m) ∧ (o.uninstalled = true → p ∉ inst)) ∧
      ∀ line ∈ ls, Has (SysOp.run ops).stores (.repo R) line.name line.shown := by
  obtain ⟨l, h⟩ := sys_run ops
  obtain ⟨ls, h1, h2, h3⟩ := available_first sort hs ops o inst R
  have hmem : ∀ p, p ∈ ls.map Line.name ↔ (∃ m, Has (SysOp.run ops).stores (.repo R) p m) ∧ (o.uninstalled = true → p ∉ inst) := by
    intro p
    rw [h2, List.mem_filter, (hs _).mem_iff, mem_list_iff h.wf.pkg, Option.isSome_iff_exists]
    simp only [has_iff_cell]
    cases hu : o.uninstalled
    · simp
    · cases hl : o.long
      · simp
      · exact absurd (ho hl) (by simp [hu])
  refine ⟨ls, h1, ?_, hmem, fun line hline => ?_⟩
  · rw [h2]
    exact ((hs _).nodup_iff.2 (list_nodup h.wf.pkg _)).filter _
  · obtain ⟨_, R', l', _, h5, _⟩ := h3 line hline
    obtain ⟨⟨m, hm⟩, _⟩ := (hmem line.name).1 (List.mem_map.2 ⟨line, hline, rfl⟩)
    have := hR _ _ _ _ hm h5
    rwa [this] at h5

/-- A repository that does not exist is listed as if it were empty. -/
theorem available_unknown (sort : List α → List α) (hs : ∀ l, (sort l).Perm l) (ops : List (SysOp α ρ)) (o : Opts)
    (inst : List α) (R : Str) (hR : (SysOp.run ops).repos.hasRepo R = false) :
    printPackages sort o (SysOp.run ops) inst R = .ok [] := by
  obtain ⟨l, h⟩ := sys_run ops
  obtain ⟨ls, h1, h2, h3⟩ := available_first sort hs ops o inst R
  have : ls = [] := by
    cases ls with
    | nil => rfl
    | cons x ls =>
      have hx : x.name ∈ (x :: ls).map Line.name := by simp
      rw [h2, List.mem_filter, (hs _).mem_iff, mem_list_iff h.wf.pkg] at hx
      have := (h.repos.mem R).1 (h.pkg _ _ hx.1)
      rw [RepoDB.hasRepo] at hR
      rw [hR] at this
      cases this
  rw [h1, this]

theorem printRepos_ok (sort : List α → List α) (hs : ∀ l, (sort l).Perm l) (ops : List (SysOp α ρ)) (o : Opts) (inst : List α)
    (rs : List Str) : ∃ xs, printRepos sort o (SysOp.run ops) inst rs = .ok xs ∧ xs.map Prod.fst = rs ∧
      ∀ x ∈ xs, printPackages sort o (SysOp.run ops) inst x.1 = .ok x.2 := by
  induction rs with
  | nil => exact ⟨[], rfl, rfl, by simp⟩
  | cons r rs ih =>
    obtain ⟨xs, h1, h2, h3⟩ := ih
    obtain ⟨ls, h4, _⟩ := available_first sort hs ops o inst r
    refine ⟨(r, ls) :: xs, by rw [printRepos, h4, h1], by simp [h2], fun x hx => ?_⟩
    rcases List.mem_cons.1 hx with rfl | hx
    · exact h4
    · exact h3 x hx

/-- The command without arguments lists every repository in order. -/
theorem available_all (sort : List α → List α) (hs : ∀ l, (sort l).Perm l) (ops : List (SysOp α ρ)) (o : Opts) (inst : List α) :
    ∃ l xs, (SysOp.run ops).repos.list = .ok l ∧ listAvailable sort o (SysOp.run ops) inst [] = .ok xs ∧
      xs.map Prod.fst = l ∧ ∀ x ∈ xs, printPackages sort o (SysOp.run ops) inst x.1 = .ok x.2 := by
  obtain ⟨l, h⟩ := sys_run ops
  have hl : (SysOp.run ops).repos.list = .ok l := by simp [RepoDB.list, h.repos.order]
  obtain ⟨xs, h1, h2, h3⟩ := printRepos_ok sort hs ops o inst l
  exact ⟨l, xs, hl, by rw [listAvailable, if_neg (by simp), hl]; exact h1, h2, h3⟩

/-- The command with arguments lists exactly the repositories that are given, in this order. -/
theorem available_named (sort : List α → List α) (hs : ∀ l, (sort l).Perm l) (ops : List (SysOp α ρ)) (o : Opts) (inst : List α)
    (args : List Str) (ha : args ≠ []) :
    ∃ xs, listAvailable sort o (SysOp.run ops) inst args = .ok xs ∧ xs.map Prod.fst = args ∧
      ∀ x ∈ xs, printPackages sort o (SysOp.run ops) inst x.1 = .ok x.2 := by
  obtain ⟨xs, h1, h2, h3⟩ := printRepos_ok sort hs ops o inst args
  exact ⟨xs, by rw [listAvailable, if_pos ha]; exact h1, h2, h3⟩

/-- A repository with another package of the name. -/
def two : List (SysOp Nat Nat) :=
  [.addRepo ['a'] 0 none, .addRepo ['b'] 1 none, .updateRepo ['a'] { packages := [mOne] }, .updateRepo ['b'] { packages := [mOne'] }]

/-- The full statement is false: what is shown for repository `b` is in `a`. -/
theorem available_refuted : ¬ AvailableFull Nat Nat := by
  intro h
  obtain ⟨ls, h1, _, _, h4⟩ := h id (fun _ => List.Perm.refl _) two {} [] ['b']
  have e : printPackages id {} (SysOp.run two) [] ['b'] = .ok [⟨1, false, mOne⟩] := by rfl
  rw [e] at h1
  cases h1
  have := h4 ⟨1, false, mOne⟩ (by simp)
  rw [has_iff_cell] at this
  revert this
  decide

/-- It is also false because `--uninstalled` has no effect together with `--long`. -/
theorem available_refuted_long : ¬ AvailableFull Nat Nat := by
  intro h
  obtain ⟨ls, h1, _, h3, _⟩ := h id (fun _ => List.Perm.refl _) two { long := true, uninstalled := true } [1] ['a']
  have e : printPackages id { long := true, uninstalled := true } (SysOp.run two) [1] ['a'] = .ok [⟨1, false, mOne⟩] := by rfl
  rw [e] at h1
  cases h1
  exact ((h3 1).1 (by simp)).2 rfl (by simp)

example : ∀ p m R' m', Has (SysOp.run sysEx).stores (.repo ['a']) p m → Has (SysOp.run sysEx).stores (.repo R') p m' → R' = ['a'] := by
  intro p m R' m' _ h
  obtain ⟨l, hl⟩ := sys_run sysEx
  rw [has_iff_cell] at h
  have h1 := hl.pkg p R' (by rw [h]; rfl)
  have h2 : (SysOp.run sysEx).repos.list = .ok l := by simp [RepoDB.list, hl.repos.order]
  have h3 : (SysOp.run sysEx).repos.list = .ok [['b'], ['a']] := by rfl
  rw [h3] at h2
  cases h2
  simp only [List.mem_cons, List.not_mem_nil, or_false] at h1
  rcases h1 with rfl | rfl
  · have : p ∈ (SysOp.run sysEx).stores.pkg.list (.one (.repo ['b'])) := (mem_list_iff hl.wf.pkg p _).2 (by rw [h]; rfl)
    have e : (SysOp.run sysEx).stores.pkg.list (.one (.repo ['b'])) = [] := by rfl
    rw [e] at this
    cases this
  · rfl
example : (printPackages id {} (SysOp.run sysEx) [2] ['a']).toOption.map (·.length) = some 2 := by rfl
example : (SysOp.run sysEx).repos.hasRepo ['c'] = false := by rfl

/-! ### C139: list-sources and list-components -/

theorem lookLoop_spec {ν : Type} {d : ItemDB α ν} (l : List Str) (ps : List α)
    (h : ∀ p ∈ ps, ∃ v, d.getItem l p .repos = .ok v) : ∃ xs, lookLoop d l ps = .ok xs ∧ xs.map Prod.fst = ps ∧
      ∀ x ∈ xs, ∃ r, x.2.2 = .repo r ∧ d.cell x.1 (.repo r) = some x.2.1 ∧
        FirstWith (fun y => (d.cell x.1 (.repo y)).isSome = true) l r := by
  induction ps with
  | nil => exact ⟨[], rfl, rfl, by simp⟩
  | cons p ps ih =>
    obtain ⟨v, hv⟩ := h p (by simp)
    obtain ⟨xs, h1, h2, h3⟩ := ih fun q hq => h q (by simp [hq])
    unfold ItemDB.getItem at hv
    cases hg : d.getItemRepo l p .repos with
    | error e => rw [hg] at hv; cases hv
    | ok vr =>
      obtain ⟨w, r⟩ := vr
      refine ⟨(p, w, r) :: xs, by rw [lookLoop, hg]; dsimp only; rw [h1], by simp [h2], fun x hx => ?_⟩
      rcases List.mem_cons.1 hx with rfl | hx
      · obtain ⟨h4, h5⟩ := (getItemRepo_order _ l p .repos (Or.inl rfl) _ _).mp hg
        obtain ⟨y, rfl, h6⟩ := (firstWith_map _ _ _ _).mp h5
        exact ⟨y, rfl, h4, h6⟩
      · exact h3 x hx

theorem mem_list_repos {ν : Type} {d : ItemDB α ν} (h : d.WF) (n : α) : n ∈ d.list .repos ↔ d.hasKey n .repos = true := by
  simp only [ItemDB.list, List.mem_map, List.mem_filter, ItemDB.hasKey]
  constructor
  · rintro ⟨⟨k, s⟩, ⟨hm, hs⟩, rfl⟩
    rw [(Dict.mem_iff_get h.uniq k s).mp hm]; exact hs
  · intro hn
    cases hg : d.get n with
    | none => rw [hg] at hn; cases hn
    | some s => rw [hg] at hn; exact ⟨(n, s), ⟨(Dict.mem_iff_get h.uniq n s).mpr hg, hn⟩, rfl⟩

theorem look_exact {ν : Type} {d : ItemDB α ν} (hw : d.WF) (l : List Str) (ho : OnlyListed l d) (sort : List α → List α)
    (hs : ∀ l, (sort l).Perm l) : ∃ xs, lookLoop d l (sort (d.list .repos)) = .ok xs ∧ (xs.map Prod.fst).Nodup ∧
      (∀ p, p ∈ xs.map Prod.fst ↔ ∃ r, (d.cell p (.repo r)).isSome = true) ∧
      ∀ x ∈ xs, ∃ r, x.2.2 = .repo r ∧ d.cell x.1 (.repo r) = some x.2.1 ∧
        FirstWith (fun y => (d.cell x.1 (.repo y)).isSome = true) l r := by
  have hm : ∀ p, p ∈ sort (d.list .repos) ↔ d.hasKey p .repos = true := by
    intro p; rw [(hs _).mem_iff, mem_list_repos hw]
  obtain ⟨xs, h1, h2, h3⟩ := lookLoop_spec (d := d) l (sort (d.list .repos)) fun p hp =>
    (exists_iff_lookup_cells hw l ho p).1 ((hm p).1 hp)
  refine ⟨xs, h1, ?_, fun p => ?_, h3⟩
  · rw [h2]
    refine (hs _).nodup_iff.2 ?_
    unfold ItemDB.list
    exact (List.filter_sublist.map Prod.fst).nodup hw.uniq
  · rw [h2, hm]
    unfold ItemDB.hasKey ItemDB.cell
    cases hg : d.get p with
    | none => simp
    | some s =>
      obtain ⟨hu, hne⟩ := hw.inner p s hg
      simpa using notJustTracking_iff s hu hne

/-- list-sources shows exactly the sources of all repositories, each once, with the specification of the first repository
that has it. -/
theorem sources_exact (sort : List α → List α) (hs : ∀ l, (sort l).Perm l) (ops : List (SysOp α ρ)) :
    ∃ l xs, (SysOp.run ops).repos.list = .ok l ∧ listSources sort (SysOp.run ops) = .ok xs ∧ (xs.map Prod.fst).Nodup ∧
      (∀ p, p ∈ xs.map Prod.fst ↔ ∃ r, ((SysOp.run ops).stores.src.cell p (.repo r)).isSome = true) ∧
      ∀ x ∈ xs, ∃ r, x.2.2 = .repo r ∧ (SysOp.run ops).stores.src.cell x.1 (.repo r) = some x.2.1 ∧
        FirstWith (fun y => ((SysOp.run ops).stores.src.cell x.1 (.repo y)).isSome = true) l r := by
  obtain ⟨l, h⟩ := sys_run ops
  have hl : (SysOp.run ops).repos.list = .ok l := by simp [RepoDB.list, h.repos.order]
  obtain ⟨xs, h1, h2⟩ := look_exact h.wf.src l h.src sort hs
  exact ⟨l, xs, hl, by rw [listSources, hl]; exact h1, h2⟩

/-- list-components shows exactly the components of all repositories, each once, as described by the first repository that
has it. -/
theorem components_exact (sort : List α → List α) (hs : ∀ l, (sort l).Perm l) (ops : List (SysOp α ρ)) :
    ∃ l xs, (SysOp.run ops).repos.list = .ok l ∧ listComponents sort (SysOp.run ops) = .ok xs ∧ (xs.map Prod.fst).Nodup ∧
      (∀ p, p ∈ xs.map Prod.fst ↔ ∃ r, ((SysOp.run ops).stores.comp.cell p (.repo r)).isSome = true) ∧
      ∀ x ∈ xs, ∃ r, x.2.2 = .repo r ∧ (SysOp.run ops).stores.comp.cell x.1 (.repo r) = some x.2.1 ∧
        FirstWith (fun y => ((SysOp.run ops).stores.comp.cell x.1 (.repo y)).isSome = true) l r := by
  obtain ⟨l, h⟩ := sys_run ops
  have hl : (SysOp.run ops).repos.list = .ok l := by simp [RepoDB.list, h.repos.order]
  obtain ⟨xs, h1, h2⟩ := look_exact h.wf.comp l h.comp sort hs
  exact ⟨l, xs, hl, by rw [listComponents, hl]; exact h1, h2⟩

example : (listSources id (SysOp.run sysEx)).toOption.map (·.map Prod.fst) = some [5] := by rfl
example : (listComponents id (SysOp.run sysEx)).toOption.map (·.map Prod.fst) = some [9] := by rfl

end Pisi.ListCmd
