import Verif.Props.Session
import Verif.Props.UpgradePlan
import Verif.Props.Dependency
import Verif.Spec.StatusCmds

/-!
# list-upgrades, check and the texts of dependencies: C200, C201, C202
-/
namespace Pisi.DB
open Pisi.PlanSpec Pisi.Plan Pisi.DBSpec Pisi.Version.Spec
variable {α ρ : Type} [DecidableEq α]

/-- The package the planners read is that of the first repository that has it. -/
theorem world_repo {b : Both α ρ} {f : α → Option (Meta α)} (h : BothInv b f) (x : α) :
    b.world.repo.get x = (b.offer x).map (·.info) := by
  obtain ⟨l, hl⟩ := h.sys
  have := get_filterMap (fun s : Dict RepoId (Meta α) =>
    (ItemDB.firstOf s (ItemDB.order (b.sys.repos.order.getD []) .repos)).map (·.1.info)) b.sys.stores.pkg hl.wf.pkg.uniq x
  simp only [Option.map_map] at this
  refine Eq.trans this ?_
  unfold Both.offer ItemDB.getItem ItemDB.getItemRepo
  cases b.sys.stores.pkg.get x with
  | none => rfl
  | some s =>
    simp only [Option.bind_some]
    cases ItemDB.firstOf s (ItemDB.order (b.sys.repos.order.getD []) .repos) <;> rfl

theorem world_inst {b : Both α ρ} {f : α → Option (Meta α)} (h : BothInv b f) (x : α) :
    b.world.inst.get x = (f x).map (fun m => ⟨m.info.version, m.info.release, m.info.build⟩) := by
  have := get_filterMap (fun i : InstInfo Ver => if InstallDB.counts i then
    some (⟨i.ver.1, i.ver.2.1, i.ver.2.2⟩ : InstRec) else none) b.inst.d h.uniq x
  have e : (fun e : α × InstInfo Ver => (if InstallDB.counts e.2 then
    some (⟨e.2.ver.1, e.2.ver.2.1, e.2.ver.2.2⟩ : InstRec) else none).map (fun x => (e.1, x))) =
    (fun e : α × InstInfo Ver => if InstallDB.counts e.2 then some (e.1, (⟨e.2.ver.1, e.2.ver.2.1, e.2.ver.2.2⟩ : InstRec)) else none) := by
    funext e
    by_cases hc : InstallDB.counts e.2 = true
    · rw [if_pos hc, if_pos hc]; rfl
    · rw [if_neg hc, if_neg hc]; rfl
  rw [e] at this
  refine Eq.trans this ?_
  have hv := h.ver x
  unfold instVer at hv
  cases hd : b.inst.d.get x with
  | none =>
    rw [hd] at hv
    cases hf : f x with
    | none => rfl
    | some m => rw [hf] at hv; cases hv
  | some i =>
    rw [hd] at hv
    simp only [Option.bind_some]
    by_cases hc : InstallDB.counts i = true
    · rw [if_pos hc]
      simp only [Option.filter, hc, if_true, Option.map_some] at hv
      cases hf : f x with
      | none => rw [hf] at hv; cases hv
      | some m =>
        rw [hf] at hv
        simp only [Option.map_some, Option.some.injEq] at hv
        rw [hv]
        rfl
    · rw [if_neg hc]
      have hc' : InstallDB.counts i = false := by simpa using hc
      simp only [Option.filter, hc', Bool.false_eq_true, if_false, Option.map_none] at hv
      cases hf : f x with
      | none => rfl
      | some m => rw [hf] at hv; cases hv

theorem upgradable_iff {b : Both α ρ} {f : α → Option (Meta α)} (h : BothInv b f) (ign : Bool) (x : α) :
    Upgradable b.world ign x ↔ ∃ m p, f x = some m ∧ b.offer x = some p ∧ NewerOf ign m p := by
  unfold Upgradable
  rw [world_inst h, world_repo h]
  constructor
  · rintro ⟨i, q, hi, hq, hh⟩
    obtain ⟨m, hm, rfl⟩ := Option.map_eq_some_iff.mp hi
    obtain ⟨p, hp, rfl⟩ := Option.map_eq_some_iff.mp hq
    exact ⟨m, p, hm, hp, hh⟩
  · rintro ⟨m, p, hm, hp, hh⟩
    exact ⟨_, _, by rw [hm]; rfl, by rw [hp]; rfl, hh⟩

theorem filterUpgradable_ok (w : World α) (ib : Bool) (l : List α) :
    (∃ r, filterUpgradable w ib l = .ok r) ↔ ∀ x ∈ l, ∃ t, isUpgradable w ib x = .ok t := by
  induction l with
  | nil => simp [filterUpgradable]
  | cons y l ih =>
    unfold filterUpgradable
    cases hy : isUpgradable w ib y with
    | error e => simp [hy]
    | ok t =>
      cases hl : filterUpgradable w ib l with
      | error e =>
        rw [hl] at ih
        simp only [hy, List.mem_cons, forall_eq_or_imp]
        exact ⟨fun ⟨_, h⟩ => absurd h (by simp), fun h => absurd (ih.mpr h.2) (by simp)⟩
      | ok r =>
        rw [hl] at ih
        simp only [hy, List.mem_cons, forall_eq_or_imp]
        exact ⟨fun _ => ⟨⟨t, rfl⟩, ih.mp ⟨r, rfl⟩⟩, fun _ => ⟨_, rfl⟩⟩

theorem listInstalled_mem {b : Both α ρ} {f : α → Option (Meta α)} (h : BothInv b f) (p : α) :
    p ∈ b.inst.listInstalled ↔ ∃ m, f p = some m := by
  rw [← isInstalled_f h, isInstalled_iff]
  simp only [InstallDB.listInstalled, List.mem_map, List.mem_filter]
  constructor
  · rintro ⟨⟨k, x⟩, ⟨hm, hc⟩, rfl⟩
    exact ⟨x, (Dict.mem_iff_get h.uniq _ _).mp hm, hc⟩
  · rintro ⟨x, hx, hc⟩
    exact ⟨(p, x), ⟨(Dict.mem_iff_get h.uniq _ _).mpr hx, hc⟩, rfl⟩

theorem listInstalled_nodup {b : Both α ρ} {f : α → Option (Meta α)} (h : BothInv b f) : b.inst.listInstalled.Nodup :=
  List.Nodup.sublist (List.Sublist.map _ List.filter_sublist) h.uniq

/-- The loop never fails on installed packages and shows each of them. -/
theorem listLoop_shows {b : Both α ρ} {f : α → Option (Meta α)} (h : BothInv b f) (ps : List α) (hp : ∀ p ∈ ps, ∃ m, f p = some m) :
    ∃ lines, b.listLoop ps = some lines ∧ lines.map (fun x => x.1.name) = ps ∧
      ∀ m i, (m, i) ∈ lines → f m.name = some m ∧ b.inst.getInfo m.name = .ok i ∧ i.ver = m.ver := by
  induction ps with
  | nil => exact ⟨[], rfl, rfl, by simp⟩
  | cons p ps ih =>
    obtain ⟨lines, e, e2, e3⟩ := ih (fun q hq => hp q (List.mem_cons_of_mem _ hq))
    obtain ⟨m, hm⟩ := hp p List.mem_cons_self
    have hname : m.name = p := (h.inst p m (by rw [h.cell]; exact hm)).1
    obtain ⟨x, hx, hc⟩ := (isInstalled_iff _ _).1 ((isInstalled_f h p).mpr ⟨m, hm⟩)
    have hinfo : b.inst.getInfo p = .ok x := by unfold InstallDB.getInfo InstallDB.getItem; rw [hx]
    have hver : x.ver = m.ver := by
      have hv := h.ver p
      rw [hm] at hv
      unfold instVer at hv
      rw [hx] at hv
      simp only [Option.filter, hc] at hv
      simpa using hv
    refine ⟨(m, x) :: lines, ?_, ?_, ?_⟩
    · unfold Both.listLoop
      rw [show b.getInstalled p = some m by rw [getInstalled_eq h]; exact hm, hinfo, e]
      rfl
    · rw [List.map_cons, e2]
      simp only [hname]
    · intro m' i' hmi
      rcases List.mem_cons.mp hmi with he | he
      · cases he
        rw [hname]
        exact ⟨hm, hinfo, hver⟩
      · exact e3 m' i' he

/-- **C200, full statement.**  If all releases can be compared, list-upgrades ends without error and shows the installed packages that a
repository has a newer package of, by release alone with `--ignore-build-no`. -/
def ListUpgradesFull : Prop := ∀ (cs : List (Cmd Nat Unit)) (long ign : Bool),
  (¬ ∃ x m p, (Cmd.run cs).getInstalled x = some m ∧ (Cmd.run cs).offer x = some p ∧ Incomparable ign m p) →
  ∃ lines, (Cmd.run cs).listUpgrades id long ign = some lines ∧
    ∀ m, (∃ i, (m, i) ∈ lines) ↔ (Cmd.run cs).getInstalled m.name = some m ∧ ∃ p, (Cmd.run cs).offer m.name = some p ∧ NewerOf ign m p

/-- **C200, proved part.**  After any commands list-upgrades fails exactly if a release to be compared is none or, with `--long`, if there
is anything to show, and otherwise shows every installed package that the first repository offering it has a newer package of, by the
build numbers, once, in the order of the names, with what is recorded of its installation; `--ignore-build-no` makes no difference. -/
theorem list_upgrades_partial (sort : List α → List α) (hs : ∀ l, (sort l).Perm l) (cs : List (Cmd α ρ)) (long ign : Bool) :
    ((Cmd.run cs).listUpgrades sort long ign = none ↔
      ∃ x m p, (Cmd.run cs).getInstalled x = some m ∧ (Cmd.run cs).offer x = some p ∧
        (Incomparable false m p ∨ (long = true ∧ NewerOf false m p))) ∧
    ∀ lines, (Cmd.run cs).listUpgrades sort long ign = some lines →
      (∃ l, lines.map (fun x => x.1.name) = sort l) ∧ (lines.map (fun x => x.1.name)).Nodup ∧
      (∀ m, (∃ i, (m, i) ∈ lines) ↔
        (Cmd.run cs).getInstalled m.name = some m ∧ ∃ p, (Cmd.run cs).offer m.name = some p ∧ NewerOf false m p) ∧
      ∀ m i, (m, i) ∈ lines → (Cmd.run cs).inst.getInfo m.name = .ok i ∧ i.ver = m.ver := by
  have h := run_both cs
  generalize Cmd.run cs = b at h
  generalize hf : b.getInstalled = f at h
  have key : ∀ r, filterUpgradable b.world false b.inst.listInstalled = .ok r →
      ∃ lines, b.listUpgrades sort long ign = (if long = true ∧ r ≠ [] then none else some lines) ∧ lines.map (fun x => x.1.name) = sort r ∧
        ∀ m i, (m, i) ∈ lines → f m.name = some m ∧ b.inst.getInfo m.name = .ok i ∧ i.ver = m.ver := by
    intro r hr
    obtain ⟨hsub, hmem⟩ := filterUpgradable_mem _ _ _ _ hr
    obtain ⟨lines, e, e2, e3⟩ := listLoop_shows h (sort r) (fun p hp =>
      (listInstalled_mem h p).mp (hsub.subset ((hs r).mem_iff.mp hp)))
    refine ⟨lines, ?_, e2, e3⟩
    unfold Both.listUpgrades
    rw [hr]
    simp only [e]
    have : (sort r).isEmpty = true ↔ r = [] := by
      rw [List.isEmpty_iff]
      exact ⟨fun hh => List.perm_nil.mp (hh ▸ (hs r).symm), fun hh => List.perm_nil.mp (hh ▸ hs r)⟩
    by_cases hr0 : r = []
    · rw [this.mpr hr0]
      simp [hr0]
    · have : (sort r).isEmpty = false := by
        cases hh : (sort r).isEmpty with
        | false => rfl
        | true => exact absurd (this.mp hh) hr0
      simp [this, hr0]
  have up : ∀ r, filterUpgradable b.world false b.inst.listInstalled = .ok r → ∀ x,
      x ∈ r ↔ ∃ m p, f x = some m ∧ b.offer x = some p ∧ NewerOf false m p := by
    intro r hr x
    obtain ⟨_, hmem⟩ := filterUpgradable_mem _ _ _ _ hr
    rw [hmem x, is_upgradable_iff, upgradable_iff h, listInstalled_mem h]
    exact ⟨fun hh => hh.2, fun hh => ⟨hh.imp fun _ ⟨_, h1, _⟩ => h1, hh⟩⟩
  constructor
  · constructor
    · intro hn
      cases hr : filterUpgradable b.world false b.inst.listInstalled with
      | ok r =>
        obtain ⟨lines, e, _⟩ := key r hr
        rw [e] at hn
        by_cases hc : long = true ∧ r ≠ []
        · obtain ⟨x, hx⟩ := List.exists_mem_of_ne_nil r hc.2
          obtain ⟨m, p, h1, h2, h3⟩ := (up r hr x).mp hx
          exact ⟨x, m, p, h1, h2, Or.inr ⟨hc.1, h3⟩⟩
        · rw [if_neg hc] at hn
          cases hn
      | error er =>
        have : ¬ ∀ x ∈ b.inst.listInstalled, ∃ t, isUpgradable b.world false x = .ok t := fun hh => by
          obtain ⟨r, hr'⟩ := (filterUpgradable_ok _ _ _).mpr hh
          rw [hr] at hr'
          cases hr'
        obtain ⟨x, hx⟩ := Classical.not_forall.mp this
        obtain ⟨hx1, hx2⟩ := Classical.not_imp.mp hx
        cases hu : isUpgradable b.world false x with
        | ok t => exact absurd ⟨t, hu⟩ hx2
        | error e =>
          obtain ⟨_, i, p, hi, hp, hb, hv⟩ := (is_upgradable_error _ _ _ _).mp hu
          rw [world_inst h] at hi
          rw [world_repo h] at hp
          obtain ⟨m, hm, rfl⟩ := Option.map_eq_some_iff.mp hi
          obtain ⟨q, hq, rfl⟩ := Option.map_eq_some_iff.mp hp
          exact ⟨x, m, q, hm, hq, Or.inl ⟨hb, hv⟩⟩
    · rintro ⟨x, m, p, hm, hp, ⟨hb, hv⟩ | ⟨hlong, hnew⟩⟩
      · have hu := (is_upgradable_error b.world false x .value).mpr
          ⟨rfl, _, _, by rw [world_inst h, hm]; rfl, by rw [world_repo h, hp]; rfl, hb, hv⟩
        unfold Both.listUpgrades
        cases hr : filterUpgradable b.world false b.inst.listInstalled with
        | error er => rfl
        | ok r =>
          obtain ⟨t, ht⟩ := (filterUpgradable_ok _ _ _).mp ⟨r, hr⟩ x ((listInstalled_mem h x).mpr ⟨m, hm⟩)
          rw [hu] at ht
          cases ht
      · cases hr : filterUpgradable b.world false b.inst.listInstalled with
        | error er => unfold Both.listUpgrades; rw [hr]
        | ok r =>
          obtain ⟨lines, e, _⟩ := key r hr
          have hx := (up r hr x).mpr ⟨m, p, hm, hp, hnew⟩
          rw [e, if_pos ⟨hlong, fun hh => by rw [hh] at hx; cases hx⟩]
  · intro lines hl
    cases hr : filterUpgradable b.world false b.inst.listInstalled with
    | error er => unfold Both.listUpgrades at hl; rw [hr] at hl; cases hl
    | ok r =>
      obtain ⟨lines', e, e2, e3⟩ := key r hr
      rw [e] at hl
      by_cases hc : long = true ∧ r ≠ []
      · rw [if_pos hc] at hl; cases hl
      rw [if_neg hc] at hl
      cases hl
      obtain ⟨hsub, _⟩ := filterUpgradable_mem _ _ _ _ hr
      refine ⟨⟨r, e2⟩, by rw [e2]; exact (hs r).nodup_iff.mpr (List.Nodup.sublist hsub (listInstalled_nodup h)), fun m => ⟨?_, ?_⟩,
        fun m i hmi => (e3 m i hmi).2⟩
      · rintro ⟨i, hmi⟩
        have hm := (e3 m i hmi).1
        have hin : m.name ∈ r := (hs r).mem_iff.mp (e2 ▸ List.mem_map.mpr ⟨(m, i), hmi, rfl⟩)
        obtain ⟨m', p, h1, h2, h3⟩ := (up r hr m.name).mp hin
        rw [hm] at h1
        cases h1
        exact ⟨hm, p, h2, h3⟩
      · rintro ⟨hm, p, h2, h3⟩
        have hin : m.name ∈ r := (up r hr m.name).mpr ⟨m, p, hm, h2, h3⟩
        have : m.name ∈ lines.map (fun x => x.1.name) := by rw [e2]; exact (hs r).mem_iff.mpr hin
        obtain ⟨⟨m', i⟩, hmi, hn⟩ := List.mem_map.mp this
        have hm' := (e3 m' i hmi).1
        simp only at hn
        rw [hn, hm] at hm'
        cases hm'
        exact ⟨i, hmi⟩

/-- Operations on repositories and configurations leave the installed packages alone. -/
theorem other_same (cs : List (Cmd α ρ)) (op : BothOp α ρ) (hp : Plain (.other op : Cmd α ρ)) :
    (Cmd.run (cs ++ [.other op])).getInstalled = (Cmd.run cs).getInstalled := by
  have h := both_step (run_both cs) op
  rw [show Cmd.run (cs ++ [.other op]) = op.step (Cmd.run cs) by simp [Cmd.run, Cmd.step], getInstalled_eq h]
  cases op with
  | install m later => exact absurd hp id
  | remove p => exact absurd hp id
  | _ => rfl

section Witness

/-- A package with build 5 is installed, the repository has the same release with build 6. -/
def built (n : Int) : Meta Nat := { name := 1, info := { version := ['1'], release := ['1'], build := some n }, partOf := some 9 }
def rebuilt : List (Cmd Nat Unit) := [.install (built 5) false false, .other (.addRepo ['r'] () none),
  .other (.updateRepo ['r'] { components := [(9, {})], packages := [built 6], specs := [] })]

theorem rebuilt_shown : ((Cmd.run rebuilt).listUpgrades id false true).map (fun l => l.map (·.1)) = some [built 5] ∧
    ((Cmd.run rebuilt).listUpgrades id true false).isNone ∧ (Cmd.run rebuilt).offer 1 = some (built 6) ∧ (Cmd.run rebuilt).getInstalled 1 = some (built 5) := by decide +kernel

/-- **C200 is false of the code**: with `--ignore-build-no` packages are shown that only have another build number. -/
theorem list_upgrades_refuted : ¬ ListUpgradesFull := by
  intro h
  obtain ⟨h1, _, h2, h3⟩ := rebuilt_shown
  obtain ⟨lines, e1, e2⟩ := Option.map_eq_some_iff.mp h1
  obtain ⟨g, hg⟩ : ∃ r, Version.Spec.VersionG ['1'] r := by
    obtain ⟨v, r, hv, _⟩ := (satisfies_iff ({ package := ['a'] } : Dep Str) ['1'] ['1']).mp (by decide)
    exact ⟨v, hv⟩
  have : built 5 ∈ lines.map (·.1) := by rw [e2]; simp
  obtain ⟨⟨m, i⟩, hm, he⟩ := List.mem_map.mp this
  simp only at he
  subst he
  obtain ⟨lines', e1', hall⟩ := h rebuilt false true (by
    rintro ⟨x, m, p, hm, hp, _, hv⟩
    have hx : x = 1 := by
      apply Classical.byContradiction
      intro hne
      have hrun : rebuilt = ([] ++ [.install (built 5) false false]) ++ [.other (.addRepo ['r'] () none)] ++
        [.other (.updateRepo ['r'] { components := [(9, {})], packages := [built 6], specs := [] })] := rfl
      rw [hrun, other_same, other_same] at hm
      · by_cases ha : Accepted (Cmd.run ([] : List (Cmd Nat Unit))).getInstalled (built 5) false
        · rw [(install_exact [] (built 5) false false x).1 ha, if_neg (show ¬ x = (built 5).name from hne)] at hm
          simp [Cmd.run, Both.getInstalled, getItem_one, cell_nil] at hm
        · rw [(install_exact [] (built 5) false false x).2 ha] at hm
          simp [Cmd.run, Both.getInstalled, getItem_one, cell_nil] at hm
      · trivial
      · trivial
    subst hx
    rw [h3] at hm
    rw [h2] at hp
    cases hm
    cases hp
    rcases hv with hv | hv <;> exact hv ⟨g, hg⟩)
  rw [e1] at e1'
  cases e1'
  obtain ⟨_, p, hp, hn⟩ := (hall (built 5)).mp ⟨i, hm⟩
  rw [show (built 5).name = 1 from rfl, h2] at hp
  cases hp
  rcases hn with ⟨⟨hf, _⟩, _⟩ | ⟨_, r, s, hr, hs, ho⟩
  · cases hf
  · have := Version.version_grammar_unique _ _ _ hr hs
    subst this
    exact Version.SeqLt_irrefl_of_eq r r (fun _ => rfl) ((Version.older_iff r r).mp ho)

/-- Without the option the package is shown, as it should be. -/
example : ((Cmd.run rebuilt).listUpgrades id false false).map (fun l => l.map (·.1.name)) = some [1] := by decide +kernel

end Witness

/-! ## check -/

/-- **C201, full statement.**  check ends without error and tells of every package given, or of every installed one, whether it is not
installed or corrupt. -/
def CheckFull : Prop := ∀ (cs : List (Cmd Nat Unit)) (intact : Nat → Bool) (args : List Nat),
  (Cmd.run cs).check args =
    (checkLines (Cmd.run cs).inst.isInstalled intact (if args = [] then (Cmd.run cs).inst.listInstalled else args), true)

/-- **C201, proved part.**  The packages given before the first installed one are told to be not installed, and then the command fails;
without names it fails if anything is installed. -/
theorem check_partial (b : Both α ρ) (intact : α → Bool) (args : List α) (h : args ≠ []) :
    b.check args = (checkLines b.inst.isInstalled intact (args.takeWhile (fun p => !b.inst.isInstalled p)),
      args.all (fun p => !b.inst.isInstalled p)) := by
  unfold Both.check
  rw [if_neg h]
  clear h
  induction args with
  | nil => rfl
  | cons p ps ih =>
    unfold Both.checkLoop
    by_cases hp : b.inst.isInstalled p = true
    · simp [hp, checkLines]
    · have hp' : b.inst.isInstalled p = false := by simpa using hp
      rw [if_neg hp, ih]
      simp [hp', checkLines]

theorem check_all (cs : List (Cmd α ρ)) :
    ((Cmd.run cs).check []).2 = true ↔ ∀ p, (Cmd.run cs).getInstalled p = none := by
  have h := run_both cs
  unfold Both.check
  rw [if_pos rfl]
  cases hl : (Cmd.run cs).inst.listInstalled with
  | nil =>
    refine ⟨fun _ p => ?_, fun _ => rfl⟩
    cases hf : (Cmd.run cs).getInstalled p with
    | none => rfl
    | some m =>
      have := (listInstalled_mem h p).mpr ⟨m, hf⟩
      rw [hl] at this
      cases this
  | cons p ps =>
    obtain ⟨m, hm⟩ := (listInstalled_mem h p).mp (by rw [hl]; simp)
    unfold Both.checkLoop
    rw [if_pos ((isInstalled_f h p).mpr ⟨m, hm⟩)]
    simp only [Bool.false_eq_true, false_iff]
    intro hn
    rw [hn p] at hm
    cases hm

/-- **C201 is false of the code**: pisi.api has no `check`. -/
theorem check_refuted : ¬ CheckFull := by
  intro h
  have := congrArg Prod.snd (h rebuilt (fun _ => true) [1])
  have e : ((Cmd.run rebuilt).check [1]).2 = false := by decide +kernel
  rw [e] at this
  cases this

example : (Cmd.run rebuilt).check [2, 3, 1, 4] = ([.notInstalled 2, .notInstalled 3], false) := by decide +kernel

end Pisi.DB

/-! ## The text of a dependency -/
namespace Pisi
open Pisi.DepSpec

/-- **C202, full statement.**  Dependencies that are shown alike ask for the same. -/
def DepTextFull : Prop := ∀ d d' : Dep Str, d.text = d'.text → d.package = d'.package ∧ ∀ v r, Sat d v r ↔ Sat d' v r

theorem takeWhile_word (p r : Str) (hp : NoBlank p) (hr : r = [] ∨ ∃ t, r = ' ' :: t) :
    (p ++ r).takeWhile (· ≠ ' ') = p ∧ (p ++ r).dropWhile (· ≠ ' ') = r := by
  induction p with
  | nil =>
    rcases hr with rfl | ⟨t, rfl⟩ <;> simp
  | cons c p ih =>
    have hc : c ≠ ' ' := fun e => hp (by simp [e])
    obtain ⟨h1, h2⟩ := ih (fun h => hp (by simp [h]))
    simp only [List.cons_append, List.takeWhile_cons, List.dropWhile_cons, hc, ne_eq, not_false_eq_true, decide_true, if_true]
    exact ⟨by rw [h1], h2⟩

theorem word_inj {p q r s : Str} (hp : NoBlank p) (hq : NoBlank q) (hr : r = [] ∨ ∃ t, r = ' ' :: t) (hs : s = [] ∨ ∃ t, s = ' ' :: t)
    (h : p ++ r = q ++ s) : p = q ∧ r = s := by
  obtain ⟨a, b⟩ := takeWhile_word p r hp hr
  obtain ⟨c, d⟩ := takeWhile_word q s hq hs
  rw [h] at a b
  exact ⟨a.symm.trans c, b.symm.trans d⟩

/-- What follows begins with one of the words, if there is anything. -/
def Shape (ws : List Str) (r : Str) : Prop := r = [] ∨ ∃ w ∈ ws, ∃ t, r = w ++ t

theorem shape_blank {ws : List Str} {r : Str} (h : Shape ws r) (hw : ∀ w ∈ ws, ∃ t, w = ' ' :: t) : r = [] ∨ ∃ t, r = ' ' :: t := by
  rcases h with h | ⟨w, hm, t, rfl⟩
  · exact Or.inl h
  · obtain ⟨u, rfl⟩ := hw w hm
    exact Or.inr ⟨u ++ t, rfl⟩

theorem shape_bound {ws : List Str} {r : Str} (w : Str) (o : Option Str) (h : Shape ws r) : Shape (w :: ws) (bound w o ++ r) := by
  have weak : Shape (w :: ws) r := h.imp id fun ⟨x, hx, t⟩ => ⟨x, List.mem_cons_of_mem _ hx, t⟩
  cases o with
  | none => exact weak
  | some b =>
    cases b with
    | nil => exact weak
    | cons c b => exact Or.inr ⟨w, List.mem_cons_self, (c :: b) ++ r, by simp [bound]⟩

/-- Bounds that say the same. -/
def SameBound (o o' : Option Str) : Prop := ∀ b, Given o b ↔ Given o' b

theorem bound_inj {ws : List Str} {w r r' : Str} {o o' : Option Str} (hr : Shape ws r) (hr' : Shape ws r')
    (hw : ∀ x ∈ w :: ws, ∃ t, x = ' ' :: t) (hl : ∀ x ∈ ws, x.length = w.length) (hn : w ∉ ws)
    (ho : ∀ b, o = some b → NoBlank b) (ho' : ∀ b, o' = some b → NoBlank b)
    (h : bound w o ++ r = bound w o' ++ r') : SameBound o o' ∧ r = r' := by
  have no : ∀ {s : Str}, Shape ws s → ∀ t, s ≠ w ++ t := by
    rintro s (rfl | ⟨x, hx, u, rfl⟩) t e
    · obtain ⟨v, rfl⟩ := hw w List.mem_cons_self
      cases e
    · have := (List.append_inj e (hl x hx)).1
      exact hn (this ▸ hx)
  have sb : ∀ {s : Str}, Shape ws s → s = [] ∨ ∃ t, s = ' ' :: t := fun hs => shape_blank hs fun x hx => hw x (List.mem_cons_of_mem _ hx)
  have empty : ∀ {o : Option Str}, (∀ b, ¬ Given o b) → bound w o = [] := by
    intro o hh
    cases o with
    | none => rfl
    | some b =>
      cases b with
      | nil => rfl
      | cons c b => exact absurd ⟨rfl, by simp⟩ (hh (c :: b))
  have given : ∀ {o : Option Str} {b : Str}, Given o b → bound w o = w ++ b := by
    rintro o b ⟨rfl, hb⟩
    cases b with
    | nil => exact absurd rfl hb
    | cons c b => rfl
  by_cases h1 : ∃ b, Given o b
  · obtain ⟨b, hb⟩ := h1
    by_cases h2 : ∃ b', Given o' b'
    · obtain ⟨b', hb'⟩ := h2
      rw [given hb, given hb', List.append_assoc, List.append_assoc] at h
      obtain ⟨e1, e2⟩ := word_inj (ho b hb.1) (ho' b' hb'.1) (sb hr) (sb hr') (List.append_cancel_left h)
      refine ⟨?_, e2⟩
      rw [hb.1, hb'.1, e1]
      exact fun _ => Iff.rfl
    · rw [given hb, empty (fun b' hb' => h2 ⟨b', hb'⟩), List.nil_append, List.append_assoc] at h
      exact absurd h.symm (no hr' _)
  · by_cases h2 : ∃ b', Given o' b'
    · obtain ⟨b', hb'⟩ := h2
      rw [given hb', empty (fun b hb => h1 ⟨b, hb⟩), List.nil_append, List.append_assoc] at h
      exact absurd h (no hr _)
    · rw [empty (fun b hb => h1 ⟨b, hb⟩), empty (fun b hb => h2 ⟨b, hb⟩)] at h
      exact ⟨fun b => ⟨fun hb => absurd ⟨b, hb⟩ h1, fun hb => absurd ⟨b, hb⟩ h2⟩, by simpa using h⟩

/-- **C202, proved part.**  Dependencies on ranges whose words have no blanks are shown alike only if they name the same package and
bounds. -/
theorem dep_text_partial (d d' : Dep Str) (hd : Ranged d) (hd' : Ranged d') (h : d.text = d'.text) :
    d.package = d'.package ∧ SameBound d.versionFrom d'.versionFrom ∧ SameBound d.versionTo d'.versionTo ∧
    SameBound d.releaseFrom d'.releaseFrom ∧ SameBound d.releaseTo d'.releaseTo ∧ ∀ v r, Sat d v r ↔ Sat d' v r := by
  unfold Dep.text at h
  have s1 : ∀ d : Dep Str, Shape [" release <= ".toList] (bound " release <= ".toList d.releaseTo) := fun d => by
    have := shape_bound (ws := []) (r := []) " release <= ".toList d.releaseTo (Or.inl rfl)
    simpa using this
  have s2 := fun d : Dep Str => shape_bound " release >= ".toList d.releaseFrom (s1 d)
  have s3 := fun d : Dep Str => shape_bound " version <= ".toList d.versionTo (s2 d)
  have s4 := fun d : Dep Str => shape_bound " version >= ".toList d.versionFrom (s3 d)
  have bl : ∀ w ∈ [" version >= ".toList, " version <= ".toList, " release >= ".toList, " release <= ".toList], ∃ t, w = ' ' :: t := by
    intro w hw
    simp only [List.mem_cons, List.not_mem_nil, or_false] at hw
    rcases hw with rfl | rfl | rfl | rfl <;> exact ⟨_, rfl⟩
  obtain ⟨e0, h⟩ := word_inj hd.package hd'.package (shape_blank (s4 d) bl) (shape_blank (s4 d') bl) h
  obtain ⟨e1, h⟩ := bound_inj (s3 d) (s3 d') bl (by decide) (by decide) hd.versionFrom hd'.versionFrom h
  obtain ⟨e2, h⟩ := bound_inj (s2 d) (s2 d') (fun x hx => bl x (List.mem_cons_of_mem _ hx)) (by decide) (by decide) hd.versionTo hd'.versionTo h
  obtain ⟨e3, h⟩ := bound_inj (s1 d) (s1 d') (fun x hx => bl x (List.mem_cons_of_mem _ (List.mem_cons_of_mem _ hx))) (by decide) (by decide)
    hd.releaseFrom hd'.releaseFrom h
  obtain ⟨e4, _⟩ := bound_inj (ws := []) (r := []) (r' := []) (Or.inl rfl) (Or.inl rfl)
    (fun x hx => bl x (List.mem_cons_of_mem _ (List.mem_cons_of_mem _ (List.mem_cons_of_mem _ hx)))) (by simp) (by simp) hd.releaseTo hd'.releaseTo
    (by rw [h])
  refine ⟨e0, e1, e2, e3, e4, fun v r => ?_⟩
  have hh : ∀ {o o' : Option Str}, SameBound o o' → ∀ R v, Holds R v o → Holds R v o' := fun ho R v hv b hb => hv b ((ho b).mpr hb)
  have flip : ∀ {o o' : Option Str}, SameBound o o' → SameBound o' o := fun ho b => (ho b).symm
  exact ⟨fun s => ⟨fun b hb => absurd hb (hd'.noVersion b), hh e1 _ _ s.versionFrom, hh e2 _ _ s.versionTo,
      fun b hb => absurd hb (hd'.noRelease b), hh e3 _ _ s.releaseFrom, hh e4 _ _ s.releaseTo⟩,
    fun s => ⟨fun b hb => absurd hb (hd.noVersion b), hh (flip e1) _ _ s.versionFrom, hh (flip e2) _ _ s.versionTo,
      fun b hb => absurd hb (hd.noRelease b), hh (flip e3) _ _ s.releaseFrom, hh (flip e4) _ _ s.releaseTo⟩⟩

/-- **C202.**  The text never says which version or release is asked for. -/
theorem dep_text_hides (d : Dep Str) (v r : Option Str) : ({ d with version := v, release := r } : Dep Str).text = d.text := rfl

/-- **C202 is false of the code.** -/
theorem dep_text_refuted : ¬ DepTextFull := by
  intro h
  have := (h { package := ['a'] } { package := ['a'], version := some ['2'] } rfl).2
  obtain ⟨v, r, hv, hr, hs⟩ := (satisfies_iff ({ package := ['a'] } : Dep Str) ['1'] ['1']).mp (by decide)
  have h2 := (satisfies_iff ({ package := ['a'], version := some ['2'] } : Dep Str) ['1'] ['1']).mpr ⟨v, r, hv, hr, (this v r).mp hs⟩
  exact absurd h2 (by decide)

example : Ranged { package := "a".toList, versionFrom := some "1.0".toList, releaseTo := some "3".toList } := by
  constructor <;> simp [NoBlank, Given]
example : ({ package := "a".toList, versionFrom := some "1.0".toList, releaseTo := some "3".toList } : Dep Str).text =
    "a version >= 1.0 release <= 3".toList := by decide

end Pisi
