import Verif.Spec.UpgradeFiles
import Verif.Props.CheckInstalled
import Verif.Props.ConfigFiles
import Verif.Props.InstallSingle

/-!
# C212: the files after an upgrade
-/
namespace Pisi.FS
open Pisi.Path

/-- **C212, full statement.** -/
def UpgradeFull : Prop := ∀ (sha : Str → Str) (dest : Str) (old new : List FileInfo) (is : List Item) (s : FS),
  WF s → Sound is → Lists dest new is → (old.map FileInfo.path).Nodup → (new.map FileInfo.path).Nodup → Open is s →
  ∃ t, (extractInstall sha dest (some old) new (is.map Item.entry) s).2 = .ok t ∧ PutOver (Users sha dest old new s) is s t

/-! ## Where computations end -/

/-- If the computation succeeds, the last file system it goes through is that of its result. -/
def Ends {β : Type} (f : β → FS) (s : FS) (x : Tr β) : Prop := ∀ b, x.2 = .ok b → Tr.final s x = f b

theorem Ends.bind {β γ : Type} {f : β → FS} {g : γ → FS} {s : FS} {x : Tr β} {k : β → Tr γ} (hx : Ends f s x)
    (hk : ∀ b, Ends g (f b) (k b)) : Ends g s (Tr.bind x k) := by
  intro c hc
  unfold Tr.bind at hc ⊢
  cases h : x.2 with
  | error e => rw [h] at hc; cases hc
  | ok b =>
    rw [h] at hc
    have h1 := hx b h
    have h2 := hk b c hc
    unfold Tr.final at h1 h2 ⊢
    simp only [List.getLast?_append]
    cases hl : (k b).1.getLast? with
    | none => rw [hl] at h2; simpa [h1] using h2
    | some y => rw [hl] at h2; simpa using h2

theorem Ends.atomic (s : FS) (r : Except FErr FS) : Ends id s (Tr.atomic r) := by
  intro b hb
  cases r with
  | error e => cases hb
  | ok t => cases hb; rfl

theorem Ends.pure {β : Type} {f : β → FS} {s : FS} {b : β} (h : f b = s) : Ends f s (([], .ok b) : Tr β) := by
  intro c hc
  cases hc
  exact h.symm

theorem Ends.error {β : Type} {f : β → FS} {s : FS} {e : FErr} {l : List FS} : Ends f s ((l, .error e) : Tr β) := by
  intro c hc
  cases hc

theorem Ends.ite {β : Type} {f : β → FS} {s : FS} {c : Prop} [Decidable c] {x y : Tr β} (hx : Ends f s x) (hy : Ends f s y) :
    Ends f s (if c then x else y) := by
  split
  · exact hx
  · exact hy

theorem writeFile_ends (s : FS) (p c : Str) : Ends id s (writeFile s p c) := by
  have go : Ends id s (((List.range (c.length + 1)).map (fun k => s.put p (.file (c.take k))), .ok (s.put p (.file c))) : Tr FS) := by
    intro b hb
    cases hb
    simp [Tr.final, List.range_succ]
  unfold writeFile
  refine Ends.ite ?_ Ends.error
  split
  · exact go
  · exact go
  · exact Ends.error

theorem mkdirs_ends : ∀ (ds : List Str) (s : FS), Ends id s (mkdirs s ds)
  | [], s => Ends.pure rfl
  | d :: ds, s => by
    unfold mkdirs
    split
    · exact mkdirs_ends ds s
    · exact Ends.error
    · split
      · exact Ends.bind (Ends.atomic _ _) (fun b => mkdirs_ends ds b)
      · exact Ends.error

theorem checkDir_ends (s : FS) (d : Str) : Ends id s (checkDir s d) := by
  unfold checkDir makedirs
  exact Ends.ite (Ends.pure rfl) (Ends.ite Ends.error (mkdirs_ends _ _))

theorem extractEntry_ends (s : FS) (e : Entry) : Ends id s (extractEntry s e) := by
  have hcw : ∀ (s : FS) (p : Str), Ends id s (clearWay s p) := fun s p => by
    unfold clearWay
    exact Ends.ite (Ends.atomic _ _) (Ends.pure rfl)
  cases e with
  | dir p =>
    unfold extractEntry makedirs
    exact Ends.ite (Ends.pure rfl) (Ends.ite Ends.error (mkdirs_ends _ _))
  | file p c =>
    unfold extractEntry
    exact Ends.bind (checkDir_ends _ _) fun b => Ends.bind (hcw b p) fun b => writeFile_ends b p c
  | link p t =>
    unfold extractEntry
    exact Ends.bind (checkDir_ends _ _) fun b => Ends.bind (hcw b p) fun b =>
      Ends.bind (Ends.ite (Ends.atomic _ _) (Ends.pure rfl)) fun b => Ends.ite (Ends.atomic _ _) Ends.error

theorem extractAll_ends : ∀ (es : List Entry) (s : FS), Ends id s (extractAll s es)
  | [], _ => Ends.pure rfl
  | e :: es, s => by
    unfold extractAll
    exact Ends.bind (extractEntry_ends s e) fun b => extractAll_ends es b

theorem backupIf_ends (sha : Str → Str) (h : Option Str) (p : Str) (st : FS × List Str) : Ends Prod.fst st.1 (backupIf sha h p st) := by
  unfold backupIf
  split
  · exact Ends.pure rfl
  · refine Ends.ite (Ends.bind (f := id) ?_ fun b => Ends.pure rfl) (Ends.pure rfl)
    unfold backup
    exact Ends.bind (Ends.ite (Ends.atomic _ _) (Ends.pure rfl)) fun b => Ends.atomic _ _

theorem backupUpg_ends (sha : Str → Str) (dest : Str) : ∀ (L : List (FileInfo × FileInfo)) (st : FS × List Str),
    Ends Prod.fst st.1 (backupUpg sha dest L st)
  | [], _ => Ends.pure rfl
  | (n, o) :: L, st => by
    unfold backupUpg
    refine Ends.ite Ends.error (Ends.ite ?_ (backupUpg_ends sha dest L st))
    exact Ends.bind (backupIf_ends sha _ _ st) fun b => backupUpg_ends sha dest L b

theorem restore_ends : ∀ (P : List Str) (s : FS), Ends id s (restore s P)
  | [], _ => Ends.pure rfl
  | p :: P, s => by
    unfold restore
    exact Ends.bind (Ends.ite (Ends.atomic _ _) (Ends.pure rfl)) fun b => Ends.bind (Ends.atomic _ _) fun b =>
      Ends.bind (Ends.atomic _ _) fun b => restore_ends P b

/-! ## The upgrade as an installation of the merged list -/

/-- What the old and the new record of a file together say. -/
def both (n o : FileInfo) : FileInfo := { o with conf := n.conf && o.conf }

/-- The list of the new version, with what the old one says of the same files; what is new is not kept. -/
def merged (old new : List FileInfo) : List FileInfo :=
  new.flatMap fun n => if n.path ∈ old.map FileInfo.path then (old.filter (fun o => o.path = n.path)).map (both n) else [{ n with conf := false }]

theorem mem_merged {old new : List FileInfo} {f : FileInfo} : f ∈ merged old new ↔
    (∃ n ∈ new, ∃ o ∈ old, n.path = o.path ∧ f = both n o) ∨
    (∃ n ∈ new, (∀ o ∈ old, o.path ≠ n.path) ∧ f = { n with conf := false }) := by
  unfold merged
  rw [List.mem_flatMap]
  constructor
  · rintro ⟨n, hn, h⟩
    by_cases hp : n.path ∈ old.map FileInfo.path
    · rw [if_pos hp] at h
      obtain ⟨o, ho, rfl⟩ := List.mem_map.mp h
      obtain ⟨h1, h2⟩ := List.mem_filter.mp ho
      exact .inl ⟨n, hn, o, h1, (of_decide_eq_true h2).symm, rfl⟩
    · rw [if_neg hp] at h
      refine .inr ⟨n, hn, fun o ho e => hp (e ▸ List.mem_map_of_mem ho), List.mem_singleton.mp h⟩
  · rintro (⟨n, hn, o, ho, hp, rfl⟩ | ⟨n, hn, hno, rfl⟩)
    · refine ⟨n, hn, ?_⟩
      rw [if_pos (hp ▸ List.mem_map_of_mem ho)]
      exact List.mem_map.mpr ⟨o, List.mem_filter.mpr ⟨ho, by simpa using hp.symm⟩, rfl⟩
    · refine ⟨n, hn, ?_⟩
      rw [if_neg (fun h => ?_)]
      · simp
      · obtain ⟨o, ho, e⟩ := List.mem_map.mp h
        exact hno o ho e

/-- The loop sees what both say. -/
theorem backupUpg_both (sha : Str → Str) (dest : Str) : ∀ (L : List (FileInfo × FileInfo)) (st : FS × List Str), (∀ x ∈ L, x.1.path = x.2.path) →
    backupUpg sha dest L st = backupUpg sha dest ((L.map fun x => both x.1 x.2).map fun f => (f, f)) st
  | [], _, _ => rfl
  | (n, o) :: L, st, h => by
    have ih := fun st => backupUpg_both sha dest L st (fun x hx => h x (by simp [hx]))
    have hp : n.path = o.path := h (n, o) (by simp)
    have e1 : backupUpg sha dest ((n, o) :: L) st = if n.conf && o.conf then
        Tr.bind (backupIf sha o.hash (joinPath dest [o.path]) st) (fun st => backupUpg sha dest L st) else backupUpg sha dest L st := by
      rw [backupUpg, if_neg (by simp [hp])]
    have e2 : ∀ M, backupUpg sha dest ((both n o, both n o) :: M) st = if n.conf && o.conf then
        Tr.bind (backupIf sha o.hash (joinPath dest [o.path]) st) (fun st => backupUpg sha dest M st) else backupUpg sha dest M st := by
      intro M
      rw [backupUpg, if_neg (by simp)]
      simp only [both, Bool.and_self]
    rw [List.map_cons, List.map_cons, e1, e2, ih st]
    congr 2
    funext st
    exact ih st

section
variable {sha : Str → Str} {dest : Str} {old new : List FileInfo} {is : List Item} {s t : FS}

theorem changed_merged (p : Str) : Changed sha dest (merged old new) s p ↔ UserChanged sha dest old new s p := by
  constructor
  · rintro ⟨f, hf, hc, hp, c, hg, hh⟩
    rcases mem_merged.mp hf with ⟨n, hn, o, ho, he, rfl⟩ | ⟨n, hn, _, rfl⟩
    · simp only [both, Bool.and_eq_true] at hc hp hh
      exact ⟨n, hn, o, ho, he, hc.1, hc.2, by rw [he]; exact hp, c, hg, hh⟩
    · cases hc
  · rintro ⟨n, hn, o, ho, he, h1, h2, hp, c, hg, hh⟩
    exact ⟨both n o, mem_merged.mpr (.inl ⟨n, hn, o, ho, he, rfl⟩), by simp [both, h1, h2], by rw [← hp, he]; rfl, c, hg, hh⟩

theorem lists_merged (h : Lists dest new is) : Lists dest (merged old new) is := by
  refine ⟨fun f hf => ?_, fun i hi => ?_⟩
  · rcases mem_merged.mp hf with ⟨n, hn, o, ho, he, rfl⟩ | ⟨n, hn, _, rfl⟩
    · have := h.sub n hn
      rw [he] at this
      exact this
    · exact h.sub n hn
  · rcases h.all i hi with ⟨n, hn, hp⟩ | h'
    · refine .inl ?_
      by_cases ho : ∃ o ∈ old, o.path = n.path
      · obtain ⟨o, ho, he⟩ := ho
        exact ⟨both n o, mem_merged.mpr (.inl ⟨n, hn, o, ho, he.symm, rfl⟩), by rw [← hp, ← he]; rfl⟩
      · exact ⟨_, mem_merged.mpr (.inr ⟨n, hn, fun o h1 h2 => ho ⟨o, h1, h2⟩, rfl⟩), hp⟩
    · exact .inr h'

theorem keepable_merged (h : KeepableUp sha dest old new is s) : Keepable sha dest (merged old new) is s := by
  refine ⟨fun f hf hc => ?_, fun p hp => h.oldFree p ((changed_merged p).mp hp), fun p hp => h.newFree p ((changed_merged p).mp hp),
    fun p hp => h.names p ((changed_merged p).mp hp)⟩
  rcases mem_merged.mp hf with ⟨n, hn, o, ho, he, rfl⟩ | ⟨n, hn, _, rfl⟩
  · simp only [both, Bool.and_eq_true] at hc
    have := h.plain n hn o ho he hc.1 hc.2
    rw [he] at this
    exact this
  · cases hc

/-- Whether an upgrade succeeds or not, it puts the new version in place and keeps the configuration files of both versions that were
changed; it succeeds exactly if no file is dropped. -/
theorem upgrade_puts (hw : WF s) (hs : Sound is) (hl : Lists dest new is) (hno : (old.map FileInfo.path).Nodup)
    (hnn : (new.map FileInfo.path).Nodup) (ho : Open is s) (hk : KeepableUp sha dest old new is s) :
    PutOver (UserChanged sha dest old new s) is s (Tr.final s (extractInstall sha dest (some old) new (is.map Item.entry) s)) ∧
    (extractInstall sha dest (some old) new (is.map Item.entry) s).2 =
      if ∀ o ∈ old, ∃ n ∈ new, n.path = o.path then .ok (Tr.final s (extractInstall sha dest (some old) new (is.map Item.entry) s))
      else .error .typeErr := by
  have hpairs : ∀ x ∈ overlapPairs new old, x.1.path = x.2.path := fun x hx => ((overlapPairs_spec new old hnn hno x.1 x.2).mp hx).2.2
  obtain ⟨s1, P, t1, t, h1, e1, u1, hr⟩ := install_steps (sha := sha) hw hs (lists_merged (old := old) hl) ho (keepable_merged hk)
    ((overlapPairs new old).map fun x => both x.1 x.2)
    (fun f hf => by
      obtain ⟨x, hx, rfl⟩ := List.mem_map.mp hf
      obtain ⟨a, b, c⟩ := (overlapPairs_spec new old hnn hno x.1 x.2).mp hx
      exact mem_merged.mpr (.inl ⟨x.1, a, x.2, b, c, rfl⟩))
    (fun f hf hc => by
      rcases mem_merged.mp hf with ⟨n, hn, o, ho, he, rfl⟩ | ⟨n, hn, _, rfl⟩
      · exact List.mem_map.mpr ⟨(n, o), (overlapPairs_spec new old hnn hno n o).mpr ⟨hn, ho, he⟩, rfl⟩
      · cases hc)
  rw [← backupUpg_both sha dest _ _ hpairs] at h1
  have hput : PutOver (UserChanged sha dest old new s) is s t :=
    ⟨fun p hp => hr.kept p ((changed_merged p).mpr hp), fun i hi hp => hr.beside i hi ((changed_merged _).mpr hp),
      fun i hi hp => hr.repaired i hi (fun h => hp ((changed_merged _).mp h)), hr.dirs,
      fun k h1 h2 => hr.rest k h1 fun p hp => h2 p ((changed_merged p).mp hp)⟩
  have hx : extractInstall sha dest (some old) new (is.map Item.entry) s =
      Tr.bind (Tr.bind (backupUpg sha dest (overlapPairs new old) (s, [])) fun st => Tr.bind (extractAll st.1 (is.map Item.entry)) fun fs => restore fs st.2)
        fun fs => if old.all (fun f => f.path ∈ new.map FileInfo.path) then ([], .ok fs) else ([], .error .typeErr) := by
    unfold extractInstall Tr.bind
    simp only [h1, e1, u1]
    split <;> simp
  have hmid : (Tr.bind (backupUpg sha dest (overlapPairs new old) (s, [])) fun st => Tr.bind (extractAll st.1 (is.map Item.entry)) fun fs => restore fs st.2).2 = .ok t := by
    rw [bind_ok h1, bind_ok e1, u1]
  have hend : Ends id s (Tr.bind (backupUpg sha dest (overlapPairs new old) (s, [])) fun st => Tr.bind (extractAll st.1 (is.map Item.entry)) fun fs => restore fs st.2) :=
    Ends.bind (f := Prod.fst) (backupUpg_ends sha dest _ (s, [])) fun b => Ends.bind (extractAll_ends _ b.1) fun c => restore_ends b.2 c
  have hfin : Tr.final s (extractInstall sha dest (some old) new (is.map Item.entry) s) = t := by
    rw [hx]
    have := hend t hmid
    generalize (Tr.bind (backupUpg sha dest (overlapPairs new old) (s, [])) fun st => Tr.bind (extractAll st.1 (is.map Item.entry)) fun fs => restore fs st.2) = x at hmid this
    unfold Tr.bind
    rw [hmid]
    unfold Tr.final at this ⊢
    simp only
    split <;> simpa using this
  rw [hfin]
  refine ⟨hput, ?_⟩
  rw [hx, bind_ok hmid]
  by_cases hd : ∀ o ∈ old, ∃ n ∈ new, n.path = o.path
  · rw [if_pos hd, if_pos]
    rw [List.all_eq_true]
    intro o ho
    obtain ⟨n, hn, he⟩ := hd o ho
    simpa using ⟨n, hn, he⟩
  · rw [if_neg hd, if_neg]
    intro h
    rw [List.all_eq_true] at h
    refine hd fun o ho => ?_
    simpa using h o ho

/-- **C212.**  An upgrade to a version that has all the files of the old one, over a file system in which files and directories are not in
each other's places: the new version is in place, and all configuration files of the user are kept.  What is missing for the full
statement, which is false of the code: versions without a file of the old one (the upgrade fails when all is in place: `upgrade_puts`);
files of the user where the new version has a configuration file and the old one none or another kind of file (they are overwritten);
configuration files that are links, and `.old` files beside changed ones. -/
theorem upgrade_partial (hw : WF s) (hs : Sound is) (hl : Lists dest new is) (hno : (old.map FileInfo.path).Nodup)
    (hnn : (new.map FileInfo.path).Nodup) (ho : Open is s) (hk : KeepableUp sha dest old new is s)
    (hd : ∀ o ∈ old, ∃ n ∈ new, n.path = o.path) (hconf : ∀ n ∈ new, n.conf = true → ∀ c, s.get (joinPath dest [n.path]) = some (.file c) →
      ∃ o ∈ old, o.path = n.path ∧ o.conf = true) :
    ∃ t, (extractInstall sha dest (some old) new (is.map Item.entry) s).2 = .ok t ∧ PutOver (Users sha dest old new s) is s t := by
  obtain ⟨h1, h2⟩ := upgrade_puts hw hs hl hno hnn ho hk
  rw [if_pos hd] at h2
  refine ⟨_, h2, ?_⟩
  have e : Users sha dest old new s = UserChanged sha dest old new s := by
    funext p
    refine propext ⟨?_, ?_⟩
    · rintro ⟨n, hn, hc, rfl, c, hg, h⟩
      obtain ⟨o, ho, hp, hoc⟩ := hconf n hn hc c hg
      rcases h with ⟨o', ho', hp', hh⟩ | ⟨hno', _⟩
      · have : o' = o := List.inj_on_of_nodup_map hno ho' ho (hp'.trans hp.symm)
        subst this
        exact ⟨n, hn, o', ho', hp.symm, hc, hoc, rfl, c, hg, hh⟩
      · exact absurd hp (hno' o ho)
    · rintro ⟨n, hn, o, ho, hp, hc, _, rfl, c, hg, hh⟩
      exact ⟨n, hn, hc, rfl, c, hg, .inl ⟨o, ho, hp.symm, hh⟩⟩
  rw [e]
  exact h1

end

/-- The old version of the package of C208: without one of its files, and with another configuration file than the user has. -/
def reOld : List FileInfo := [⟨['b', '/', 'x'], false, some ['0'], false⟩, ⟨['e', '/', 'c'], true, some ['0'], false⟩]

theorem up_changed {p : Str} (h : UserChanged id exDest reOld reL reFS p) : p = "/e/c".toList := by
  obtain ⟨n, hn, _, _, _, hc, _, rfl, _⟩ := h
  have : ∀ f ∈ reL, f.conf = true → joinPath exDest [f.path] = "/e/c".toList := by decide
  exact this n hn hc

/-- The hypotheses of `upgrade_partial` can be met, and the configuration file of the user is kept. -/
example : ∃ t, (extractInstall id exDest (some reOld) reL (reIs.map Item.entry) reFS).2 = .ok t ∧ t.get "/e/c".toList = some (.file ['u']) ∧
    t.get "/e/c.newconfig".toList = some (.file ['1']) := by
  have hU : Users id exDest reOld reL reFS "/e/c".toList :=
    ⟨⟨['e', '/', 'c'], true, some ['1'], false⟩, by decide, rfl, by decide, ['u'], by decide,
      .inl ⟨⟨['e', '/', 'c'], true, some ['0'], false⟩, by decide, rfl, by decide⟩⟩
  refine Exists.imp (fun t h => ⟨h.1, h.2.kept _ hU, h.2.beside ⟨[['e'], ['c']], .file ['1']⟩ (by decide) hU⟩)
    (upgrade_partial (sha := id) (dest := exDest) (old := reOld) (new := reL) (is := reIs) (s := reFS)
    (wf_check (by decide) (by decide)) ⟨by decide, by unfold CompName; decide, by decide, by decide⟩ ⟨by decide, by decide⟩ (by decide) (by decide)
    ⟨by decide, by decide, fun i hi q hq hne => ?_⟩ ⟨?_, fun p hp => ?_, fun p hp => ?_, fun p hp i hi q hq => ?_⟩ (by decide) ?_)
  · have : ∀ i ∈ reIs, ∀ n ≤ i.comps.length, i.comps.take n ≠ i.comps →
      reFS.get (pathOf (i.comps.take n)) = none ∨ reFS.get (pathOf (i.comps.take n)) = some .dir := by decide
    rw [List.prefix_iff_eq_take.mp hq] at hne ⊢
    exact this i hi _ hq.length_le hne
  · intro n hn _ _ _ hc _
    have : ∀ f ∈ reL, f.conf = true → joinPath exDest [f.path] = "/e/c".toList := by decide
    rw [this n hn hc]
    exact .inr ⟨['u'], by decide⟩
  · rw [up_changed hp]; decide
  · rw [up_changed hp]; decide
  · rw [up_changed hp]
    have : ∀ i ∈ reIs, ∀ n ≤ i.comps.length, "/e/c".toList ++ ".old".toList ≠ pathOf (i.comps.take n) ∧
      "/e/c".toList ++ ".newconfig".toList ≠ pathOf (i.comps.take n) := by decide
    rw [List.prefix_iff_eq_take.mp hq]
    exact this i hi _ hq.length_le
  · intro n hn hc _ _
    have : ∀ f ∈ reL, f.conf = true → ∃ o ∈ reOld, o.path = f.path ∧ o.conf = true := by decide
    exact this n hn hc

/-- After an upgrade the check finds the new version intact. -/
theorem upgrade_intact {sha : Str → Str} {old new : List FileInfo} {is : List Item} {s : FS} (hn : ∀ c, sha c ≠ []) (hw : WF s)
    (hs : Sound is) (hl : Lists ['/'] new is) (hh : Honest sha ['/'] new is) (hno : (old.map FileInfo.path).Nodup)
    (hnn : (new.map FileInfo.path).Nodup) (ho : Open is s) (hk : KeepableUp sha ['/'] old new is s) :
    checkFiles sha (Tr.final s (extractInstall sha ['/'] (some old) new (is.map Item.entry) s)) new = .ok [] := by
  refine check_intact hn hl hh fun f hf hcf i hi he => (upgrade_puts hw hs hl hno hnn ho hk).1.inPlace i hi ?_
  rintro ⟨n, hn', o, _, _, hc, _, hp, _⟩
  rw [← he, join_root (hh.rel n hn'), join_root (hh.rel f hf)] at hp
  have : n = f := List.inj_on_of_nodup_map hnn hn' hf (List.cons.inj hp).2
  subst this
  rw [hcf] at hc
  cases hc

/-- **C212 is false of the code**: a file of the user where the new version has its first configuration file is overwritten. -/
theorem upgrade_refuted : ¬ UpgradeFull := by
  intro h
  obtain ⟨t, ht, hp⟩ := h id ['/'] [] [⟨['c'], true, some ['1'], false⟩] [⟨[['c']], .file ['1']⟩] [(['/'], .dir), (['/', 'c'], .file ['u'])]
    (wf_check (by decide) (by decide)) ⟨by decide, by unfold CompName; decide, by decide, by decide⟩ ⟨by decide, by decide⟩ (by simp) (by simp)
    ⟨by decide, by decide, by
      intro i hi q hq hne
      rw [List.mem_singleton.mp hi] at hq hne
      have : q = [] := by
        cases q with
        | nil => rfl
        | cons a q =>
          obtain ⟨r, hr⟩ := hq
          simp only [List.cons_append, List.cons.injEq, List.append_eq_nil_iff] at hr
          exact absurd (by rw [hr.1, hr.2.1]) hne
      subst this
      exact .inr (by decide)⟩
  have hk := hp.kept ['/', 'c'] ⟨⟨['c'], true, some ['1'], false⟩, by simp, rfl, by decide, ['u'], by decide, .inr ⟨by simp, by decide⟩⟩
  have hx : (extractInstall id ['/'] (some []) [⟨['c'], true, some ['1'], false⟩] ([⟨[['c']], .file ['1']⟩].map Item.entry)
      [(['/'], .dir), (['/', 'c'], .file ['u'])]).2.toOption.map (fun t => Dict.get t ['/', 'c']) = some (some (.file ['1'])) := by
    unfold extractInstall
    simp only [overlapPairs_nil]
    decide +kernel
  rw [ht] at hx
  simp only [Except.toOption, Option.map_some, Option.some.injEq] at hx
  have : Dict.get t ['/', 'c'] = some (.file ['u']) := hk
  rw [hx] at this
  exact absurd this (by decide)

end Pisi.FS
