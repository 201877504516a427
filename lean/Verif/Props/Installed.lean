import Verif.Props.PackageDB
import Verif.Props.InstallDB
import Verif.Props.Component
import Verif.Spec.Installed

/-!
# Installed packages in both databases: C195
-/
namespace Pisi.DB
variable {α ρ : Type} [DecidableEq α]

/-- The packages of a store are found by their names and can be removed. -/
def NamedOK (s : Stores α) (r : RepoId) : Prop := ∀ p m, s.pkg.cell p r = some m →
  m.name = p ∧ m.info.compDeps = [] ∧ ∃ c, m.partOf = some c ∧ (s.comp.cell c r).isSome

theorem track_off {s s' : Stores α} {r q : RepoId} (h : s.SameOff r s') (hq : q ≠ r) (ht : NamedOK s q) : NamedOK s' q := by
  intro p m hm
  rw [h.pkg p q hq] at hm
  obtain ⟨h1, h2, c, h3, h4⟩ := ht p m hm
  exact ⟨h1, h2, c, h3, by rw [h.comp c q hq]; exact h4⟩

theorem track_add {s s' : Stores α} (hw : s.WF) {r : RepoId} {m : Meta α} (ha : addPackage r s m = .ok s') (ht : NamedOK s r) :
    NamedOK s' r := by
  obtain ⟨_, _, _, _, hc, _⟩ := (addPackage_spec hw r m).2 s' ha
  have hacc := (addPackage_spec hw r m).1.1 ⟨s', ha⟩
  have comp : ∀ c, (s.comp.cell c r).isSome → (s'.comp.cell c r).isSome := by
    intro c h
    rw [addPackage_comp hw r m ha c]
    by_cases hp : m.partOf = some c
    · rw [if_pos hp]; rfl
    · rw [if_neg hp]; exact h
  intro p k hk
  rw [hc p] at hk
  by_cases hp : p = m.name
  · rw [if_pos hp] at hk
    cases hk
    obtain ⟨c, hcc⟩ := Option.isSome_iff_exists.1 hacc.2
    exact ⟨hp.symm, hacc.1, c, hcc, by rw [addPackage_comp hw r _ ha c, if_pos hcc]; rfl⟩
  · rw [if_neg hp] at hk
    obtain ⟨h1, h2, c, h3, h4⟩ := ht p k hk
    exact ⟨h1, h2, c, h3, comp c h4⟩

theorem track_remove {s : Stores α} (hw : s.WF) {r : RepoId} {n : α} {m : Meta α} (hm : s.pkg.cell n r = some m) (ht : NamedOK s r) :
    ∃ s', removePackage r s n = .ok s' ∧ s'.WF ∧ s.SameOff r s' ∧ NamedOK s' r ∧
      ∀ p, s'.pkg.cell p r = if p = n then none else s.pkg.cell p r := by
  obtain ⟨_, h2, c, h3, h4⟩ := ht n m hm
  have hs := removePackage_comp hw r n m hm
  obtain ⟨s', e⟩ := hs.1.2 ⟨h2, c, h3, h4⟩
  obtain ⟨w, o, _, _, hc, _⟩ := removePackage_spec hw r n m hm e
  refine ⟨s', e, w, o, ?_, hc⟩
  intro p k hk
  rw [hc p] at hk
  by_cases hp : p = n
  · rw [if_pos hp] at hk; cases hk
  · rw [if_neg hp] at hk
    obtain ⟨g1, g2, d, g3, g4⟩ := ht p k hk
    refine ⟨g1, g2, d, g3, ?_⟩
    rw [hs.2 s' e d]
    by_cases hd : m.partOf = some d
    · rw [if_pos hd, Option.isSome_map]; exact g4
    · rw [if_neg hd]; exact g4

theorem removeTracking_ok {s : Stores α} (hw : s.WF) (n : α) (hi : NamedOK s .installed) (ht : NamedOK s .thirdparty) :
    ∃ s', removeTracking s n = .ok s' ∧ s'.WF ∧ NamedOK s' .installed ∧ NamedOK s' .thirdparty ∧
      ∀ p, s'.pkg.cell p .installed = if p = n then none else s.pkg.cell p .installed := by
  have one : ∀ (r : RepoId) (s : Stores α), s.WF → NamedOK s r →
      ∃ s', (if s.pkg.hasKey n (.one r) = true then removePackage r s n else .ok s) = .ok s' ∧ s'.WF ∧ s.SameOff r s' ∧ NamedOK s' r ∧
        ∀ p, s'.pkg.cell p r = if p = n then none else s.pkg.cell p r := by
    intro r s hw ht
    rw [hasKey_one]
    cases hc : s.pkg.cell n r with
    | none =>
      refine ⟨s, rfl, hw, Stores.SameOff.refl _ _, ht, fun p => ?_⟩
      by_cases hp : p = n
      · rw [if_pos hp, hp, hc]
      · rw [if_neg hp]
    | some m =>
      simp only [Option.isSome_some, if_true]
      exact track_remove hw hc ht
  obtain ⟨s1, e1, w1, o1, t1, c1⟩ := one .installed s hw hi
  obtain ⟨s2, e2, w2, o2, t2, _⟩ := one .thirdparty s1 w1 (track_off o1 (by simp) ht)
  refine ⟨s2, ?_, w2, track_off o2 (by simp) t1, t2, fun p => ?_⟩
  · unfold removeTracking
    simp only
    rw [e1]
    exact e2
  · rw [o2.pkg p _ (by simp), c1]

/-- The version recorded of an installed package. -/
def instVer (d : InstallDB α Ver) (p : α) : Option Ver := ((d.d.get p).filter InstallDB.counts).map (·.ver)

theorem isInstalled_ver (d : InstallDB α Ver) (p : α) : d.isInstalled p = (instVer d p).isSome := by
  unfold InstallDB.isInstalled instVer
  cases d.d.get p with
  | none => rfl
  | some x => cases h : InstallDB.counts x <;> simp [Option.filter, h]

theorem remove_ver {d : InstallDB α Ver} {p : α} (h : d.isInstalled p = true) :
    ∃ d', d.remove p = .ok d' ∧ (d.d.Uniq → d'.d.Uniq) ∧ ∀ q, instVer d' q = if q = p then none else instVer d q := by
  obtain ⟨x, hx, _⟩ := (isInstalled_iff d p).1 h
  unfold InstallDB.remove
  rw [hx]
  refine ⟨_, rfl, fun hu => Dict.uniq_put hu _ _, fun q => ?_⟩
  unfold instVer
  simp only [Dict.get_put]
  by_cases hq : q = p
  · subst hq; simp [Option.filter, InstallDB.counts]
  · rw [if_neg (fun e => hq e.symm), if_neg hq]

theorem install_ver {d : InstallDB α Ver} {p : α} (h : d.isInstalled p = false) (v : Ver) (later : Bool) :
    ∃ d', d.install p v later = .ok d' ∧ (d.d.Uniq → d'.d.Uniq) ∧ ∀ q, instVer d' q = if q = p then some v else instVer d q := by
  unfold InstallDB.install
  rw [h]
  cases later with
  | true =>
    refine ⟨_, rfl, fun hu => Dict.uniq_put hu _ _, fun q => ?_⟩
    unfold instVer
    simp only [Dict.get_put]
    by_cases hq : q = p
    · subst hq; simp [Option.filter, InstallDB.counts]
    · rw [if_neg (fun e => hq e.symm), if_neg hq]
  | false =>
    refine ⟨_, rfl, fun hu => Dict.uniq_put hu _ _, fun q => ?_⟩
    unfold instVer
    simp only [Dict.get_put]
    by_cases hq : q = p
    · subst hq; simp [Option.filter, InstallDB.counts]
    · rw [if_neg (fun e => hq e.symm), if_neg hq]

theorem clear_ver (d : InstallDB α Ver) (p : α) : (d.d.Uniq → ((InstOp.clear p).step d).d.Uniq) ∧
    ∀ q, instVer ((InstOp.clear p).step d) q = instVer d q := by
  unfold InstOp.step
  simp only [InstOp.apply]
  cases hc : d.clearPending p with
  | error e => exact ⟨id, fun _ => rfl⟩
  | ok d' =>
    unfold InstallDB.clearPending at hc
    cases hx : d.d.get p with
    | none => rw [hx] at hc; cases hc
    | some x =>
      rw [hx] at hc
      simp only at hc
      have key : ∀ y : InstInfo Ver, y.ver = x.ver → InstallDB.counts y = InstallDB.counts x →
          ∀ q, (((d.d.put p y).get q).filter InstallDB.counts).map (·.ver) = ((d.d.get q).filter InstallDB.counts).map (·.ver) := by
        intro y h1 h2 q
        rw [Dict.get_put]
        by_cases hq : p = q
        · subst hq
          rw [if_pos rfl, hx]
          simp only [Option.filter, h2]
          cases InstallDB.counts x <;> simp [h1]
        · rw [if_neg hq]
      by_cases h1 : d.isInstalled p = true
      · rw [if_pos h1] at hc
        by_cases h2 : x.state = .ip
        · rw [if_pos h2] at hc
          by_cases h3 : d.dp.has p = true
          · rw [if_pos h3] at hc
            cases hc
            exact ⟨fun hu => Dict.uniq_put hu _ _, key ⟨.i, x.ver⟩ rfl (by simp [InstallDB.counts, h2])⟩
          · rw [if_neg h3] at hc; cases hc
        · rw [if_neg h2] at hc; cases hc
      · rw [if_neg h1] at hc
        by_cases h3 : d.dp.has p = true
        · rw [if_pos h3] at hc
          cases hc
          exact ⟨fun hu => Dict.uniq_put hu _ _, key x rfl rfl⟩
        · rw [if_neg h3] at hc; cases hc

/-- What holds after every history; `f` is what should be installed. -/
structure BothInv (b : Both α ρ) (f : α → Option (Meta α)) : Prop where
  sys : ∃ l, SysOK b.sys l
  uniq : b.inst.d.Uniq
  inst : NamedOK b.sys.stores .installed
  third : NamedOK b.sys.stores .thirdparty
  cell : ∀ p, b.sys.stores.pkg.cell p .installed = f p
  ver : ∀ p, instVer b.inst p = (f p).map Meta.ver

theorem inv_removeDb {b : Both α ρ} {f : α → Option (Meta α)} (h : BothInv b f) {p : α} (hp : b.inst.isInstalled p = true) :
    ∃ b', b.removeDb p = some b' ∧ BothInv b' (fun q => if q = p then none else f q) := by
  obtain ⟨l, hl⟩ := h.sys
  obtain ⟨d, e, hu, hv⟩ := remove_ver hp
  obtain ⟨s, es, w, t1, t2, hc⟩ := removeTracking_ok hl.wf p h.inst h.third
  refine ⟨⟨d, { b.sys with stores := s }⟩, by unfold Both.removeDb; rw [e, es], ?_, hu h.uniq, t1, t2, fun q => ?_, fun q => ?_⟩
  · have := sys_step hl (SysOp.untrack p)
    simp only [SysOp.step, es] at this
    exact this
  · rw [hc q, h.cell]
  · rw [hv q, h.ver]
    by_cases hq : q = p
    · rw [if_pos hq, if_pos hq]; rfl
    · rw [if_neg hq, if_neg hq]

theorem inv_add {b : Both α ρ} {f : α → Option (Meta α)} (h : BothInv b f) {m : Meta α} (later : Bool)
    (hp : b.inst.isInstalled m.name = false) (hm : m.info.compDeps = [] ∧ m.partOf.isSome) :
    ∃ d s, b.inst.install m.name m.ver later = .ok d ∧ addPackage .installed b.sys.stores m = .ok s ∧
      BothInv ⟨d, { b.sys with stores := s }⟩ (fun q => if q = m.name then some m else f q) := by
  obtain ⟨l, hl⟩ := h.sys
  obtain ⟨d, e, hu, hv⟩ := install_ver hp m.ver later
  obtain ⟨s, es⟩ := (addPackage_spec hl.wf .installed m).1.2 hm
  obtain ⟨w, o, _, _, hc, _⟩ := (addPackage_spec hl.wf .installed m).2 s es
  refine ⟨d, s, e, es, ?_, hu h.uniq, track_add hl.wf es h.inst, track_off o (by simp) h.third, fun q => ?_, fun q => ?_⟩
  · have := sys_step hl (SysOp.track .installed m)
    simp only [SysOp.step, es] at this
    exact this
  · rw [hc q, h.cell]
  · rw [hv q, h.ver]
    by_cases hq : q = m.name
    · rw [if_pos hq, if_pos hq]; rfl
    · rw [if_neg hq, if_neg hq]

/-- Operations on repositories leave the tracking stores alone. -/
theorem inv_off {b : Both α ρ} {f : α → Option (Meta α)} (h : BothInv b f) {y : System α ρ} {n : Str} (hy : ∃ l, SysOK y l)
    (ho : b.sys.stores.SameOff (.repo n) y.stores) : BothInv { b with sys := y } f :=
  ⟨hy, h.uniq, track_off ho (by simp) h.inst, track_off ho (by simp) h.third,
    fun p => by rw [ho.pkg p _ (by simp)]; exact h.cell p, h.ver⟩

theorem both_step {b : Both α ρ} {f : α → Option (Meta α)} (h : BothInv b f) (op : BothOp α ρ) :
    BothInv (op.step b) (installedStep f op) := by
  obtain ⟨l, hl⟩ := h.sys
  cases op with
  | install m later =>
    simp only [BothOp.step, installedStep]
    by_cases hm : m.info.compDeps = [] ∧ m.partOf.isSome
    · simp only [hm]
      unfold Both.updateDatabases
      by_cases hi : b.inst.isInstalled m.name = true
      · obtain ⟨b', e, hb'⟩ := inv_removeDb h hi
        have hn : b'.inst.isInstalled m.name = false := by
          rw [isInstalled_ver, hb'.ver]; simp
        obtain ⟨d, s, e1, e2, hf⟩ := inv_add hb' later hn hm
        simp only [hi, if_true, e, e1, e2, Option.getD_some]
        have : (fun q => if q = m.name then some m else f q) =
            (fun q => if q = m.name then some m else if q = m.name then none else f q) := by
          funext q
          by_cases hq : q = m.name
          · simp [hq]
          · simp [hq]
        simp only [and_self, if_true, this]
        exact hf
      · have hn : b.inst.isInstalled m.name = false := by simpa using hi
        obtain ⟨d, s, e1, e2, hf⟩ := inv_add h later hn hm
        have e0 : (if b.inst.isInstalled m.name = true then b.removeDb m.name else some b) = some b := by rw [hn]; rfl
        simp only [e0, e1, e2, and_self, if_true, Option.getD_some]
        exact hf
    · have e : b.updateDatabases m later = none := by
        unfold Both.updateDatabases
        by_cases hi : b.inst.isInstalled m.name = true
        · obtain ⟨b', e, hb'⟩ := inv_removeDb h hi
          obtain ⟨l', hl'⟩ := hb'.sys
          simp only [hi, if_true, e]
          cases b'.inst.install m.name m.ver later with
          | error _ => rfl
          | ok d =>
            cases ha : addPackage .installed b'.sys.stores m with
            | error _ => rfl
            | ok s => exact absurd ((addPackage_spec hl'.wf .installed m).1.1 ⟨s, ha⟩) hm
        · have hn : b.inst.isInstalled m.name = false := by simpa using hi
          simp only [hn]
          cases hin : b.inst.install m.name m.ver later with
          | error _ => simp [hin]
          | ok d =>
            cases ha : addPackage .installed b.sys.stores m with
            | error _ => simp [hin, ha]
            | ok s => exact absurd ((addPackage_spec hl.wf .installed m).1.1 ⟨s, ha⟩) hm
      rw [e]
      simp only [hm, if_false]
      exact h
  | remove p =>
    simp only [BothOp.step, installedStep]
    by_cases hi : b.inst.isInstalled p = true
    · obtain ⟨b', e, hb'⟩ := inv_removeDb h hi
      rw [if_pos hi, e]
      exact hb'
    · rw [if_neg hi]
      have hn : f p = none := by
        rw [isInstalled_ver, h.ver] at hi
        cases hf : f p with
        | none => rfl
        | some m => rw [hf] at hi; simp at hi
      have e : (fun q => if q = p then none else f q) = f := by
        funext q
        by_cases hq : q = p
        · rw [if_pos hq, hq, hn]
        · rw [if_neg hq]
      rw [e]
      exact h
  | configured p =>
    simp only [BothOp.step, installedStep]
    obtain ⟨hu, hv⟩ := clear_ver b.inst p
    exact ⟨h.sys, hu h.uniq, h.inst, h.third, h.cell, fun q => by rw [hv q]; exact h.ver q⟩
  | thirdparty m =>
    simp only [BothOp.step, installedStep]
    have hs := sys_step hl (SysOp.track .thirdparty m)
    simp only [SysOp.step] at hs ⊢
    cases ha : addPackage .thirdparty b.sys.stores m with
    | error e => exact h
    | ok s =>
      rw [ha] at hs
      obtain ⟨w, o, _⟩ := (addPackage_spec hl.wf .thirdparty m).2 s ha
      exact ⟨hs, h.uniq, track_off o (by simp) h.inst, track_add hl.wf ha h.third,
        fun p => by rw [← h.cell p]; exact o.pkg p _ (by simp), h.ver⟩
  | addRepo n x pos =>
    simp only [BothOp.step, installedStep]
    refine inv_off (n := n) h (sys_step hl _) ?_
    simp only [SysOp.step]
    cases b.sys.repos.addRepo n x pos <;> exact Stores.SameOff.refl _ _
  | removeRepo n =>
    simp only [BothOp.step, installedStep]
    refine inv_off (n := n) h (sys_step hl _) ?_
    simp only [SysOp.step]
    rcases removeRepo_sys hl n with ⟨e, _⟩ | ⟨_, y', e, _, ho, _⟩
    · rw [e]; exact Stores.SameOff.refl _ _
    · rw [e]; exact ho
  | updateRepo n ix =>
    simp only [BothOp.step, installedStep]
    refine inv_off (n := n) h (sys_step hl _) ?_
    simp only [SysOp.step, System.updateRepo]
    by_cases hh : b.sys.repos.hasRepo n = true
    · simp only [hh, if_true]
      cases hu : ix.updateDb (.repo n) b.sys.stores with
      | error e => exact Stores.SameOff.refl _ _
      | ok s => exact ((updateDb_spec hl.wf ix (.repo n)).2 s hu).2.1
    · simp only [hh]; exact Stores.SameOff.refl _ _

theorem both_run (ops : List (BothOp α ρ)) : BothInv (BothOp.run ops) (InstalledAfter ops) := by
  induction ops using snoc_induction with
  | h0 =>
    refine ⟨?_, Dict.uniq_nil, ?_, ?_, ?_, ?_⟩
    · exact sys_run []
    · intro p m hm; simp [BothOp.run, cell_nil] at hm
    · intro p m hm; simp [BothOp.run, cell_nil] at hm
    · intro p; simp [BothOp.run, cell_nil, InstalledAfter]
    · intro p; rfl
  | hs l a ih =>
    have e1 : BothOp.run (l ++ [a]) = a.step (BothOp.run l) := by simp [BothOp.run]
    have e2 : InstalledAfter (l ++ [a]) = installedStep (InstalledAfter l) a := by simp [InstalledAfter]
    rw [e1, e2]
    exact both_step ih a

/-- **C195.**  Both databases have exactly the packages that were installed and not removed since, as they were installed last. -/
theorem installed_exact (ops : List (BothOp α ρ)) (p : α) :
    (BothOp.run ops).getInstalled p = InstalledAfter ops p ∧
    (BothOp.run ops).inst.isInstalled p = (InstalledAfter ops p).isSome ∧
    ∀ m, InstalledAfter ops p = some m → m.name = p ∧ ∃ i, (BothOp.run ops).inst.getInfo p = .ok i ∧ i.ver = m.ver := by
  have h := both_run ops
  have hi : (BothOp.run ops).inst.isInstalled p = (InstalledAfter ops p).isSome := by rw [isInstalled_ver, h.ver, Option.isSome_map]
  refine ⟨?_, hi, fun m hm => ⟨?_, ?_⟩⟩
  · unfold Both.getInstalled
    rw [getItem_one, h.cell]
    cases InstalledAfter ops p <;> rfl
  · exact (h.inst p m (by rw [h.cell]; exact hm)).1
  · rw [hm] at hi
    obtain ⟨x, hx, hc⟩ := (isInstalled_iff _ _).1 hi
    refine ⟨x, by unfold InstallDB.getInfo InstallDB.getItem; rw [hx], ?_⟩
    have hv := h.ver p
    rw [hm] at hv
    unfold instVer at hv
    rw [hx] at hv
    simp only [Option.filter, hc] at hv
    simpa using hv

/-- Removing an installed package never fails in the databases, and installing one fails only if it depends on a component or is
part of none. -/
theorem remove_succeeds (ops : List (BothOp α ρ)) (p : α) (h : (BothOp.run ops).inst.isInstalled p = true) :
    ((BothOp.run ops).removeDb p).isSome := by
  obtain ⟨b', e, _⟩ := inv_removeDb (both_run ops) h
  rw [e]; rfl

theorem install_succeeds (ops : List (BothOp α ρ)) (m : Meta α) (later : Bool) (hm : m.info.compDeps = []) (hp : m.partOf.isSome) :
    ((BothOp.run ops).updateDatabases m later).isSome := by
  have h := both_run ops
  unfold Both.updateDatabases
  by_cases hi : (BothOp.run ops).inst.isInstalled m.name = true
  · obtain ⟨b', e, hb'⟩ := inv_removeDb h hi
    have hn : b'.inst.isInstalled m.name = false := by
      rw [isInstalled_ver, hb'.ver]; simp
    obtain ⟨d, s, e1, e2, _⟩ := inv_add hb' later hn ⟨hm, hp⟩
    simp [hi, e, e1, e2]
  · have hn : (BothOp.run ops).inst.isInstalled m.name = false := by simpa using hi
    obtain ⟨d, s, e1, e2, _⟩ := inv_add h later hn ⟨hm, hp⟩
    simp [hn, e1, e2]

theorem listLoop_ok {b : Both α ρ} {g : α → Option (Meta α × InstInfo Ver)}
    (hg : ∀ p x, g p = some x → b.getInstalled p = some x.1 ∧ b.inst.getInfo p = .ok x.2) : ∀ (ps : List α), (∀ p ∈ ps, (g p).isSome) →
    b.listLoop ps = some (ps.filterMap g)
  | [], _ => rfl
  | p :: ps, h => by
    obtain ⟨x, hx⟩ := Option.isSome_iff_exists.1 (h p List.mem_cons_self)
    obtain ⟨h1, h2⟩ := hg p x hx
    unfold Both.listLoop
    rw [h1, h2, listLoop_ok hg ps (fun q hq => h q (List.mem_cons_of_mem _ hq)), List.filterMap_cons_some hx]
    rfl

/-- **C195.**  list-installed never fails; it shows every installed package once, in the order of the names, with the version that
is recorded. -/
theorem list_installed_all (sort : List α → List α) (hs : ∀ l, (sort l).Perm l) (ops : List (BothOp α ρ)) :
    ∃ lines, (BothOp.run ops).listInstalled sort = some lines ∧
      lines.map (fun x => x.1.name) = sort (BothOp.run ops).inst.listInstalled ∧ (lines.map (fun x => x.1.name)).Nodup ∧
      (∀ m, (∃ i, (m, i) ∈ lines) ↔ InstalledAfter ops m.name = some m) ∧ (∀ m i, (m, i) ∈ lines → i.ver = m.ver) := by
  have hex := installed_exact ops
  have hinv := both_run ops
  let g : α → Option (Meta α × InstInfo Ver) := fun p =>
    match InstalledAfter ops p, (BothOp.run ops).inst.getInfo p with
    | some m, .ok i => some (m, i)
    | _, _ => none
  have hg : ∀ p x, g p = some x → InstalledAfter ops p = some x.1 ∧ (BothOp.run ops).inst.getInfo p = .ok x.2 := by
    intro p x hx
    simp only [g] at hx
    cases h1 : InstalledAfter ops p with
    | none => rw [h1] at hx; cases hx
    | some m =>
      cases h2 : (BothOp.run ops).inst.getInfo p with
      | error e => rw [h1, h2] at hx; cases hx
      | ok i => rw [h1, h2] at hx; cases hx; exact ⟨rfl, rfl⟩
  have hgs : ∀ p m, InstalledAfter ops p = some m → ∃ i, g p = some (m, i) ∧ i.ver = m.ver := by
    intro p m hm
    obtain ⟨_, i, hi, hv⟩ := (hex p).2.2 m hm
    exact ⟨i, by simp only [g]; rw [hm, hi], hv⟩
  have hmem : ∀ p, p ∈ (BothOp.run ops).inst.listInstalled ↔ (InstalledAfter ops p).isSome := by
    intro p
    rw [← (hex p).2.1, isInstalled_iff]
    simp only [InstallDB.listInstalled, List.mem_map, List.mem_filter]
    constructor
    · rintro ⟨⟨k, x⟩, ⟨hm, hc⟩, rfl⟩
      exact ⟨x, (Dict.mem_iff_get hinv.uniq _ _).mp hm, hc⟩
    · rintro ⟨x, hx, hc⟩
      exact ⟨(p, x), ⟨(Dict.mem_iff_get hinv.uniq _ _).mpr hx, hc⟩, rfl⟩
  have hnd : (BothOp.run ops).inst.listInstalled.Nodup :=
    List.Nodup.sublist (List.Sublist.map _ List.filter_sublist) hinv.uniq
  have hall : ∀ p ∈ sort (BothOp.run ops).inst.listInstalled, (g p).isSome := by
    intro p hp
    obtain ⟨m, hm⟩ := Option.isSome_iff_exists.1 ((hmem p).1 ((hs _).mem_iff.1 hp))
    obtain ⟨i, hi, _⟩ := hgs p m hm
    rw [hi]; rfl
  have hnames : ∀ ps : List α, (∀ p ∈ ps, (g p).isSome) → (ps.filterMap g).map (fun x => x.1.name) = ps := by
    intro ps
    induction ps with
    | nil => exact fun _ => rfl
    | cons p ps ih =>
      intro h
      obtain ⟨x, hx⟩ := Option.isSome_iff_exists.1 (h p List.mem_cons_self)
      rw [List.filterMap_cons_some hx, List.map_cons, ih (fun q hq => h q (List.mem_cons_of_mem _ hq)),
        ((hex p).2.2 x.1 (hg p x hx).1).1]
  refine ⟨_, listLoop_ok (g := g) (fun p x hx => ?_) _ hall, hnames _ hall, ?_, fun m => ?_, fun m i h => ?_⟩
  · exact ⟨by rw [(hex p).1]; exact (hg p x hx).1, (hg p x hx).2⟩
  · rw [hnames _ hall]
    exact (hs _).nodup_iff.2 hnd
  · constructor
    · rintro ⟨i, h⟩
      obtain ⟨p, _, hp⟩ := List.mem_filterMap.1 h
      have h1 := (hg p _ hp).1
      rw [((hex p).2.2 m h1).1]
      exact h1
    · intro h
      obtain ⟨i, hi, _⟩ := hgs m.name m h
      exact ⟨i, List.mem_filterMap.2 ⟨m.name, (hs _).mem_iff.2 ((hmem _).2 (by rw [h]; rfl)), hi⟩⟩
  · obtain ⟨p, _, hp⟩ := List.mem_filterMap.1 h
    obtain ⟨j, hj, hv⟩ := hgs p m (hg p _ hp).1
    rw [hp] at hj
    cases hj
    exact hv

/-- Two packages are installed, one again in a newer version, and one is removed. -/
def bothOps : List (BothOp Nat Nat) := [.install ⟨1, ⟨['1'], ['1'], none, [], [], [], []⟩, some 9, [], [], []⟩ false,
  .install ⟨2, ⟨['1'], ['1'], none, [], [], [], []⟩, some 9, [], [], []⟩ true,
  .install ⟨1, ⟨['2'], ['2'], none, [], [], [], []⟩, some 8, [], [], []⟩ false, .remove 2, .configured 1]

example : ((BothOp.run bothOps).listInstalled id).map (fun l => l.map (fun x => (x.1.name, x.2.ver))) =
    some [(1, (['2'], ['2'], none))] := by decide +kernel

end Pisi.DB
