import Verif.Spec.CrashUpgrades
import Verif.Props.CrashHistory
import Verif.Props.InterruptedUp
import Verif.Props.UpgradeHistory

/-!
# C227: histories with upgrades and interruptions
-/
namespace Pisi.FS
open Pisi.Path

/-- **C227, full statement.**  What nothing was stopped with is whole, and every version can be installed, and is whole then. -/
def CrashUpgradesFull : Prop := ∀ (sha : Str → Str) (dest : Str) (nm : Pack → Str) (ps : List Pack) (s : FS), WF s → Family sha dest nm ps →
  (∀ p ∈ ps, RoomOver dest s p) → ∀ y, UTurns sha dest nm ps ⟨s, [], []⟩ y →
  (∀ p ∈ y.inst, nm p ∉ y.failed → Whole dest y.fs p) ∧
  ∀ p ∈ ps, ∃ t, UTurn sha dest nm ps y ⟨t, p :: y.inst.filter (fun a => nm a ≠ nm p), y.failed.filter (· ≠ nm p)⟩ ∧ Whole dest t p

section
variable {sha : Str → Str} {dest : Str} {nm : Pack → Str} {s c t : FS} {ps : List Pack} {a b p : Pack} {old : List FileInfo}

theorem Mid.of_over (h : Mid dest (p.over old) s c) : Mid dest p s c := by
  refine ⟨h.wf, fun k => (h.at_ k).imp id fun ha => ?_⟩
  rcases ha with g | g | ⟨f, hf, hc, e⟩
  · exact .inl g
  · exact .inr (.inl g)
  · obtain ⟨n, hn, _, _, _, h1, _, rfl⟩ := over_conf hf hc
    exact .inr (.inr ⟨f, hn, hc, e⟩)

/-- What may be in between at a place of any version of any package. -/
theorem Allowed.version (pa : Proper sha dest a) (pb : Proper sha dest b) (h1 : Version dest a b) {j : Item} (hj : j ∈ b.is) {q : List Str}
    (hq : q <+: j.comps) {v : Option Node} (h : Allowed dest a (pathOf q) v) :
    (∃ i ∈ a.is, q <+: i.comps ∧ (q ≠ i.comps ∨ i.node = .dir) ∧ v = some .dir) ∨
    ∃ i ∈ a.is, i.comps = q ∧ i.node ≠ .dir ∧ (v = none ∨ v = some i.node ∨ (∃ c, i.node = .file c) ∧ ∃ c, v = some (.file c)) := by
  have hqn : ∀ x ∈ q, CompName x := fun x hx => pb.sound.names j hj x (hq.subset hx)
  rcases h with ⟨i, hi, r, hr, hd, e, hv⟩ | ⟨i, hi, hn, e, hv⟩ | ⟨f, hf, hc, e, hv⟩
  · have e := pathOf_inj hqn (fun x hx => pa.sound.names i hi x (hr.subset hx)) e
    subst e
    exact .inl ⟨i, hi, hr, hd, hv⟩
  · exact .inr ⟨i, hi, (pathOf_inj hqn (pa.sound.names i hi) e).symm, hn, hv⟩
  · rcases e with e | e | e
    · obtain ⟨i, hi, e', x, hx, _⟩ := pa.member hf hc
      refine .inr ⟨i, hi, (pathOf_inj hqn (pa.sound.names i hi) (e.trans e')).symm, by rw [hx]; simp, ?_⟩
      rcases hv with hv | hv
      · exact .inl hv
      · exact .inr (.inr ⟨⟨x, hx⟩, hv⟩)
    · exact absurd e.symm (h1.names f hf hc j hj q hq).1
    · exact absurd e.symm (h1.names f hf hc j hj q hq).2

/-- Room for any version is left by the installation of any version, done or not. -/
theorem RoomOver.version (pa : Proper sha dest a) (pb : Proper sha dest b) (h1 : Version dest a b) (h2 : Version dest b a)
    (hr : RoomOver dest s b) (h : Mid dest a s c) : RoomOver dest c b := by
  have look : ∀ j ∈ b.is, ∀ q, q <+: j.comps → _ := fun j hj q hq => (h.at_ (pathOf q)).imp id fun e => e.version pa pb h1 hj hq
  have name : ∀ f ∈ b.l, f.conf = true → ∀ k, (k = dotOld (joinPath dest [f.path]) ∨ k = dotNew (joinPath dest [f.path])) →
      c.get k = s.get k ∨ c.get k = none ∨ ∃ x, c.get k = some (.file x) := by
    intro f hf hc k hk
    have names : ∀ i ∈ a.is, ∀ q, q <+: i.comps → k ≠ pathOf q := by
      intro i hi q hq
      have := h2.names f hf hc i hi q hq
      rcases hk with rfl | rfl
      · exact this.1
      · exact this.2
    rcases h.at_ k with e | ⟨i, hi, r, hr, _, e, _⟩ | ⟨i, hi, _, e, _⟩ | ⟨_, _, _, _, hv⟩
    · exact .inl e
    · exact absurd e (names i hi r hr)
    · exact absurd e (names i hi _ List.prefix_rfl)
    · exact .inr hv
  refine ⟨⟨fun j hj hd => ?_, fun j hj hd => ?_, fun j hj q hq hne => ?_⟩, fun f hf hc => ?_, fun f hf hc => ?_, fun f hf hc => ?_⟩
  · rcases look j hj _ List.prefix_rfl with e | ⟨i, hi, _, _, hv⟩ | ⟨i, hi, e, hn, _⟩
    · rw [e]; exact hr.isOpen.dir j hj hd
    · exact .inr hv
    · exact absurd (h2.kind j hj i hi e.symm hd) hn
  · rcases look j hj _ List.prefix_rfl with e | ⟨i, hi, hp, hor, hv⟩ | ⟨i, hi, e, hn, hv⟩
    · rw [e]; exact hr.isOpen.nodir j hj hd
    · exfalso
      by_cases e : j.comps = i.comps
      · exact hd (h1.kind i hi j hj e.symm (hor.resolve_left (fun h => h e)))
      · exact hd (h2.way j hj i hi hp e)
    · rcases hv with hv | hv | ⟨_, x, hv⟩ <;> rw [hv] <;> simp [hn]
  · rcases look j hj q hq with e | ⟨_, _, _, _, hv⟩ | ⟨i, hi, e, hn, _⟩
    · rw [e]; exact hr.isOpen.way j hj q hq hne
    · exact .inr hv
    · exact absurd (h1.way i hi j hj (e ▸ hq) (e ▸ hne)) hn
  · obtain ⟨j, hj, ej, x, hx, _⟩ := pb.member hf hc
    have hp := hr.plain f hf hc
    rw [ej] at hp ⊢
    rcases look j hj _ List.prefix_rfl with e | ⟨i, hi, hpr, hor, _⟩ | ⟨i, hi, e, _, hv⟩
    · rw [e]; exact hp
    · exfalso
      have hd : j.node ≠ .dir := by rw [hx]; simp
      by_cases e : j.comps = i.comps
      · exact hd (h1.kind i hi j hj e.symm (hor.resolve_left (fun h => h e)))
      · exact hd (h2.way j hj i hi hpr e)
    · obtain ⟨x', hx'⟩ := h2.conf f hf hc i hi (by rw [e]; exact ej)
      rcases hv with hv | hv | ⟨_, hv⟩
      · exact .inl hv
      · exact .inr ⟨x', by rw [hv, hx']⟩
      · exact .inr hv
  · rcases name f hf hc _ (.inl rfl) with e | e | ⟨x, e⟩
    · show Dict.get c (dotOld _) = none ∨ ∃ x, Dict.get c (dotOld _) = some (.file x)
      rw [e]; exact hr.oldFile f hf hc
    · exact .inl e
    · exact .inr ⟨x, e⟩
  · show Dict.get c (dotNew _) ≠ some .dir
    rcases name f hf hc _ (.inr rfl) with e | e | ⟨x, e⟩
    · rw [e]; exact hr.newFree f hf hc
    · rw [e]; simp
    · rw [e]; simp

/-- A package stays whole while another one is removed. -/
theorem Whole.down_beside (pa : Proper sha dest a) (pb : Proper sha dest b) (h1 : Beside dest b a) {db : DB.FilesDB Str Nat Unit} {pkg : Nat}
    (hw : Whole dest s b) (hd : Down sha dest db pkg a.l s c) : Whole dest c b := by
  intro f hf hcf i hi he hid
  have hs := hw f hf hcf i hi he hid
  rcases hd.at_ (pathOf i.comps) with e | ⟨_, ⟨e, _⟩ | ⟨_, _, _, g, hg, e, _⟩⟩
  · rw [e]; exact hs
  · rw [hs] at e
    exact absurd (Option.some.inj e) hid
  · obtain ⟨j, hj, hje⟩ := pa.lists.sub g hg
    have := pathOf_inj (pb.sound.names i hi) (pa.sound.names j hj) (e.symm.trans hje)
    exact absurd (h1.dirs i hi j hj (this ▸ List.prefix_rfl)) hid

/-- What holds after every turn. -/
structure CrashInv (dest : Str) (nm : Pack → Str) (ps : List Pack) (y : USys) : Prop where
  wf : WF y.fs
  room : ∀ p ∈ ps, RoomOver dest y.fs p
  known : ∀ p ∈ y.inst, p ∈ ps
  one : ∀ p ∈ y.inst, ∀ q ∈ y.inst, nm p = nm q → p = q
  whole : ∀ p ∈ y.inst, nm p ∉ y.failed → Whole dest y.fs p

/-- All states of an installation. -/
theorem CrashInv.mid (h : Family sha dest nm ps) {y : USys} (hy : CrashInv dest nm ps y) (ha : a ∈ ps) (hm : Mid dest a y.fs c) :
    WF c ∧ (∀ p ∈ ps, RoomOver dest c p) ∧ ∀ p ∈ y.inst, nm p ∉ y.failed → nm p ≠ nm a → Whole dest c p := by
  have pa := h.proper a ha
  refine ⟨hm.wf, fun b hb => (hy.room b hb).version pa (h.proper b hb) (h.version ha hb) (h.version hb ha) hm, fun b hb hc hne => ?_⟩
  have hbp := hy.known b hb
  exact (hy.whole b hb hc).other pa (h.proper b hbp) (h.beside a ha b hbp (Ne.symm hne)) (h.beside b hbp a ha hne) hm

/-- And of a removal. -/
theorem CrashInv.down (h : Family sha dest nm ps) {y : USys} (hy : CrashInv dest nm ps y) (ha : a ∈ ps) {db : DB.FilesDB Str Nat Unit} {pkg : Nat}
    (hd : Down sha dest db pkg a.l y.fs c) :
    WF c ∧ (∀ p ∈ ps, RoomOver dest c p) ∧ ∀ p ∈ y.inst, nm p ∉ y.failed → nm p ≠ nm a → Whole dest c p :=
  ⟨hd.wf, fun b hb => (hy.room b hb).less fun k => (hd.at_ k).imp id And.left,
    fun b hb hc hne => (hy.whole b hb hc).down_beside (h.proper a ha) (h.proper b (hy.known b hb)) (h.beside b (hy.known b hb) a ha hne) hd⟩

/-- The states of the installation of a version. -/
theorem crash_steps (h : Family sha dest nm ps) {y : USys} (hy : CrashInv dest nm ps y) (ha : a ∈ ps) :
    (extractInstall sha dest ((y.inst.find? fun x => nm x = nm a).map Pack.l) a.l (a.is.map Item.entry) y.fs).Sat (Mid dest a y.fs) (Mid dest a y.fs) := by
  cases e : y.inst.find? fun x => nm x = nm a with
  | none => exact install_mid (h.proper a ha) (hy.room a ha) (.inl rfl) (Mid.start hy.wf)
  | some o =>
    exact (upgrade_mid (h.proper a ha) (hy.room a ha) (h.once o (hy.known o (find_name e).1)) (h.once a ha) (Mid.start hy.wf)).mono
      (fun _ hm => hm.of_over) fun _ hm => hm.of_over

/-- What is in place when the installation of a version is done; that it fails means that a file is dropped. -/
theorem crash_install (h : Family sha dest nm ps) {y : USys} (hy : CrashInv dest nm ps y) (ha : a ∈ ps) :
    ∃ l t, ReinstalledOver sha dest l a.is y.fs t ∧ ConfOf l a ∧
      (∀ g ∈ a.l, g.conf = true → ∀ x, y.fs.get (joinPath dest [g.path]) = some (.file x) → g.hash ≠ some (sha x) →
        (∀ o ∈ y.inst, nm o = nm a → ∃ n ∈ o.l, n.path = g.path ∧ n.conf = true ∧ n.hash ≠ some (sha x)) →
        Changed sha dest l y.fs (joinPath dest [g.path])) ∧
      (∀ t', (extractInstall sha dest ((y.inst.find? fun x => nm x = nm a).map Pack.l) a.l (a.is.map Item.entry) y.fs).2 = .ok t' → t' = t) ∧
      ((extractInstall sha dest ((y.inst.find? fun x => nm x = nm a).map Pack.l) a.l (a.is.map Item.entry) y.fs).2 = .ok t ↔ ¬ Drops nm y a) := by
  have pa := h.proper a ha
  have hr := hy.room a ha
  cases e : y.inst.find? fun x => nm x = nm a with
  | none =>
    obtain ⟨t, ht, ho⟩ := (Mid.start hy.wf).install pa hr (.inl rfl)
    refine ⟨a.l, t, ho, fun f hf hc => ⟨f, hf, hc, rfl⟩, fun g hg hc x hx hh _ => ⟨g, hg, hc, rfl, x, hx, hh⟩,
      fun t' ht' => (Except.ok.inj (ht.symm.trans ht')).symm, fun _ ⟨o, ho, en, _⟩ => ?_, fun _ => ht⟩
    rw [find_one hy.one ho en] at e
    cases e
  | some o =>
    obtain ⟨ho, en⟩ := find_name e
    obtain ⟨t, _, ht, hre⟩ := (Mid.start (p := a.over o.l) hy.wf).upgrade pa hr (h.once o (hy.known o ho)) (h.once a ha)
    refine ⟨merged o.l a.l, t, hre, fun f hf hc => ?_, fun g hg hc x hx hh hold => ?_, fun t' ht' => ?_, fun hok => ?_, fun hd => ?_⟩
    · rcases mem_merged.mp hf with ⟨n, hn, o, ho, he, rfl⟩ | ⟨n, hn, _, rfl⟩
      · simp only [both, Bool.and_eq_true] at hc
        exact ⟨n, hn, hc.1, he⟩
      · cases hc
    · obtain ⟨n, hn, e1, e2, e3⟩ := hold o ho en
      exact (changed_merged _).mpr ⟨g, hg, n, hn, e1.symm, hc, e2, rfl, x, hx, e3⟩
    · simp only [Option.map_some] at ht'
      rw [ht] at ht'
      split at ht'
      · cases ht'; rfl
      · cases ht'
    · rintro ⟨o', ho', en', n, hn, hno⟩
      have := hy.one o ho o' ho' (en.trans en'.symm)
      subst this
      simp only [Option.map_some] at hok
      rw [ht] at hok
      split at hok
      · rename_i hall
        obtain ⟨m, hm, e⟩ := hall n hn
        exact hno m hm e
      · cases hok
    · simp only [Option.map_some]
      rw [ht, if_pos]
      intro n hn
      refine Classical.byContradiction fun hno => hd ⟨o, ho, en, n, hn, fun m hm e => hno ⟨m, hm, e⟩⟩

theorem crash_whole (pa : Proper sha dest a) {l : List FileInfo} (hl : ConfOf l a) (h : ReinstalledOver sha dest l a.is s t) : Whole dest t a := by
  intro f hf hcf i hi he _
  refine h.repaired i hi fun hx => ?_
  obtain ⟨g, hg, hcg, e⟩ := hl.changed hx
  rw [pa.once f hf g hg (he.trans e.symm), hcg] at hcf
  cases hcf

/-- Any version can be removed. -/
theorem crash_remove (h : Family sha dest nm ps) {y : USys} (hy : CrashInv dest nm ps y) (ha : a ∈ ps) (db : DB.FilesDB Str Nat Unit) (pkg : Nat) :
    ∃ t, removeFiles sha dest db pkg a.l y.fs = .ok t ∧ Down sha dest db pkg a.l y.fs t ∧
      ∀ k n, n ≠ .dir → y.fs.get k = some n → Goes sha dest db pkg a.l k n → t.get k = none :=
  (Down.start hy.wf).remove (ps_root (h.proper a ha)) (room_straight (hy.room a ha))

theorem crash_removing (h : Family sha dest nm ps) {y : USys} (hy : CrashInv dest nm ps y) (ha : a ∈ ps) {db : DB.FilesDB Str Nat Unit} {pkg : Nat}
    (hc : c ∈ y.fs :: (removeFilesTr sha dest db pkg a.l y.fs).1) : Down sha dest db pkg a.l y.fs c := by
  rcases List.mem_cons.mp hc with rfl | hc
  · exact Down.start hy.wf
  · exact (removeFiles_down (room_straight (hy.room a ha)) a.l y.fs (fun f hf => ⟨hf, ps_root (h.proper a ha) f hf⟩) (Down.start hy.wf)).1 c hc

theorem crash_installing (h : Family sha dest nm ps) {y : USys} (hy : CrashInv dest nm ps y) (ha : a ∈ ps)
    (hc : c ∈ y.fs :: (extractInstall sha dest ((y.inst.find? fun x => nm x = nm a).map Pack.l) a.l (a.is.map Item.entry) y.fs).1) :
    Mid dest a y.fs c := by
  rcases List.mem_cons.mp hc with rfl | hc
  · exact Mid.start hy.wf
  · exact (crash_steps h hy ha).1 c hc

theorem CrashInv.turn (h : Family sha dest nm ps) {y z : USys} (hy : CrashInv dest nm ps y) (hz : UTurn sha dest nm ps y z) :
    CrashInv dest nm ps z := by
  have mem_ne : ∀ (l : List Str) (a b : Str), b ∈ l.filter (· ≠ a) ↔ b ∈ l ∧ b ≠ a := fun l a b => by simp [List.mem_filter]
  cases hz with
  | @install a t ha ht =>
    obtain ⟨l, t', hre, hl, _, heq, _⟩ := crash_install h hy ha
    have := heq t ht
    subst this
    obtain ⟨g1, g2, g3⟩ := hy.mid h ha ((crash_steps h hy ha).2 t ht)
    have sub : ∀ b, b ∈ y.inst.filter (fun x => nm x ≠ nm a) ↔ b ∈ y.inst ∧ nm b ≠ nm a := fun b => by simp [List.mem_filter]
    refine ⟨g1, g2, fun b hb => ?_, fun b hb d hd e => ?_, fun b hb hc => ?_⟩
    · rcases List.mem_cons.mp hb with e | hb
      · rw [e]; exact ha
      · exact hy.known b ((sub b).mp hb).1
    · rcases List.mem_cons.mp hb with rfl | hb <;> rcases List.mem_cons.mp hd with rfl | hd
      · rfl
      · exact absurd e.symm ((sub d).mp hd).2
      · exact absurd e ((sub b).mp hb).2
      · exact hy.one b ((sub b).mp hb).1 d ((sub d).mp hd).1 e
    · rcases List.mem_cons.mp hb with rfl | hb
      · exact crash_whole (h.proper b ha) hl hre
      · obtain ⟨hb, hne⟩ := (sub b).mp hb
        exact g3 b hb (fun h => hc ((mem_ne _ _ _).mpr ⟨h, hne⟩)) hne
  | @cutInstall a c ha hc =>
    obtain ⟨g1, g2, g3⟩ := hy.mid h ha (crash_installing h hy ha hc)
    refine ⟨g1, g2, hy.known, hy.one, fun b hb hbc => ?_⟩
    simp only [List.mem_cons, not_or] at hbc
    exact g3 b hb hbc.2 hbc.1
  | @remove a t db pkg ha ht =>
    obtain ⟨t', ht', hd, _⟩ := crash_remove h hy (hy.known a ha) db pkg
    rw [ht] at ht'
    cases ht'
    obtain ⟨g1, g2, g3⟩ := hy.down h (hy.known a ha) hd
    have sub : ∀ b, b ∈ y.inst.filter (· ≠ a) ↔ b ∈ y.inst ∧ b ≠ a := fun b => by simp [List.mem_filter]
    refine ⟨g1, g2, fun b hb => hy.known b ((sub b).mp hb).1, fun b hb d hd => hy.one b ((sub b).mp hb).1 d ((sub d).mp hd).1, fun b hb hc => ?_⟩
    obtain ⟨hb, hne⟩ := (sub b).mp hb
    have hnn : nm b ≠ nm a := fun e => hne (hy.one b hb a ha e)
    exact g3 b hb (fun h => hc ((mem_ne _ _ _).mpr ⟨h, hnn⟩)) hnn
  | @cutRemove a c db pkg ha hc =>
    obtain ⟨g1, g2, g3⟩ := hy.down h (hy.known a ha) (crash_removing h hy (hy.known a ha) hc)
    refine ⟨g1, g2, hy.known, hy.one, fun b hb hbc => ?_⟩
    simp only [List.mem_cons, not_or] at hbc
    exact g3 b hb hbc.2 hbc.1
  | @edit a f old text ha hf hc e =>
    have pa := h.proper a (hy.known a ha)
    refine ⟨hy.wf.text e, fun b hb => (hy.room b hb).text e, hy.known, hy.one, fun b hb hbc => ?_⟩
    intro g hg hcg i hi he hd
    rw [← hy.whole b hb hbc g hg hcg i hi he hd]
    show Dict.get (y.fs.put _ _) _ = _
    rw [Dict.get_put, if_neg]
    intro e'
    obtain ⟨j, hj, hje⟩ := pa.lists.sub f hf
    by_cases eb : b = a
    · subst eb
      have := pa.once f hf g hg (e'.trans he.symm)
      rw [this, hcg] at hc
      cases hc
    · have hnn : nm b ≠ nm a := fun e => eb (hy.one b hb a ha e)
      have := pathOf_inj ((h.proper b (hy.known b hb)).sound.names i hi) (pa.sound.names j hj) (e'.symm.trans hje)
      exact hd ((h.beside b (hy.known b hb) a (hy.known a ha) hnn).dirs i hi j hj (this ▸ List.prefix_rfl))

theorem CrashInv.turns (h : Family sha dest nm ps) {y z : USys} (hy : CrashInv dest nm ps y) (hz : UTurns sha dest nm ps y z) :
    CrashInv dest nm ps z := by
  induction hz with
  | none => exact hy
  | more _ hz ih => exact ih.turn h hz

theorem CrashInv.start (hw : WF s) (hr : ∀ p ∈ ps, RoomOver dest s p) : CrashInv dest nm ps ⟨s, [], []⟩ :=
  ⟨hw, hr, fun _ h => by simp at h, fun _ h => by simp at h, fun _ h => by simp at h⟩

/-- **C227.**  Packages in several versions, any history of installations, upgrades, downgrades, removals and changes of configuration
files, which may fail or be interrupted anywhere: what is installed, and with which nothing has stopped since it was last installed, is whole;
every version that does not drop a file of the installed one can be installed, and is whole then; everything that is installed can be
removed, and then all of its files and links that are to go are gone.  Missing for the full statement: versions that drop a file. -/
theorem crashUpgrades_partial (hw : WF s) (h : Family sha dest nm ps) (hr : ∀ p ∈ ps, RoomOver dest s p) {y : USys}
    (hy : UTurns sha dest nm ps ⟨s, [], []⟩ y) :
    (∀ p ∈ y.inst, nm p ∉ y.failed → Whole dest y.fs p) ∧
    (∀ p ∈ ps, ¬ Drops nm y p → ∃ t,
      UTurn sha dest nm ps y ⟨t, p :: y.inst.filter (fun a => nm a ≠ nm p), y.failed.filter (· ≠ nm p)⟩ ∧ Whole dest t p) ∧
    ∀ p ∈ y.inst, ∀ (db : DB.FilesDB Str Nat Unit) (pkg : Nat), ∃ t, removeFiles sha dest db pkg p.l y.fs = .ok t ∧
      UTurn sha dest nm ps y ⟨t, y.inst.filter (· ≠ p), y.failed.filter (· ≠ nm p)⟩ ∧
      ∀ k n, n ≠ .dir → y.fs.get k = some n → Goes sha dest db pkg p.l k n → t.get k = none := by
  have hi := (CrashInv.start hw hr).turns h hy
  refine ⟨hi.whole, fun p hps hd => ?_, fun p hpi db pkg => ?_⟩
  · obtain ⟨l, t, hre, hl, _, _, hok⟩ := crash_install h hi hps
    exact ⟨t, .install hps (hok.mpr hd), crash_whole (h.proper p hps) hl hre⟩
  · obtain ⟨t, ht, _, hg⟩ := crash_remove h hi (hi.known p hpi) db pkg
    exact ⟨t, ht, .remove db pkg hpi ht, hg⟩

/-- So the check finds them intact. -/
theorem crashUpgrades_intact (hw : WF s) (h : Family sha ['/'] nm ps) (hr : ∀ p ∈ ps, RoomOver ['/'] s p)
    (hh : ∀ p ∈ ps, Honest sha ['/'] p.l p.is) {y : USys} (hy : UTurns sha ['/'] nm ps ⟨s, [], []⟩ y) :
    ∀ p ∈ y.inst, nm p ∉ y.failed → checkFiles sha y.fs p.l = .ok [] := by
  have hi := (CrashInv.start hw hr).turns h hy
  exact fun p hpi hc => check_whole (h.proper p (hi.known p hpi)).lists (hh p (hi.known p hpi)) (hi.whole p hpi hc)

/-- And files and links that are of no version stay. -/
theorem crashUpgrades_frame (hw : WF s) (h : Family sha dest nm ps) (hr : ∀ p ∈ ps, RoomOver dest s p) {y : USys}
    (hy : UTurns sha dest nm ps ⟨s, [], []⟩ y) {k : Str} {n : Node}
    (hk : s.get k = some n) (hn : n ≠ .dir) (hown : ∀ p ∈ ps, ¬ p.Own dest k) : y.fs.get k = some n := by
  have listed : ∀ p ∈ ps, ∀ f ∈ p.l, joinPath dest [f.path] ≠ k := by
    intro p hpp f hf e
    obtain ⟨i, hi, he⟩ := (h.proper p hpp).lists.sub f hf
    exact hown p hpp (.inl ⟨i, hi, _, List.prefix_rfl, e.symm.trans he⟩)
  have start := CrashInv.start (nm := nm) hw hr
  induction hy with
  | none => exact hk
  | @more z w hz ht ih =>
    have hi := start.turns h hz
    have down : ∀ a ∈ ps, ∀ (db : DB.FilesDB Str Nat Unit) (pkg : Nat) (c : FS), Down sha dest db pkg a.l z.fs c → c.get k = some n := by
      intro a ha db pkg c hd
      rcases hd.at_ k with e | ⟨_, ⟨e, _⟩ | ⟨_, _, _, g, hg, e, _⟩⟩
      · rw [e]; exact ih
      · rw [ih] at e
        exact absurd (Option.some.inj e) hn
      · exact absurd e (listed a ha g hg)
    cases ht with
    | @install a t ha ht => exact (((crash_steps h hi ha).2 t ht).rest (h.proper a ha) (hown a ha)).trans ih
    | @cutInstall a c ha hc => exact ((crash_installing h hi ha hc).rest (h.proper a ha) (hown a ha)).trans ih
    | @remove a t db pkg ha ht =>
      obtain ⟨t', ht', hd, _⟩ := crash_remove h hi (hi.known a ha) db pkg
      rw [ht] at ht'
      cases ht'
      exact down a (hi.known a ha) db pkg t hd
    | @cutRemove a c db pkg ha hc => exact down a (hi.known a ha) db pkg c (crash_removing h hi (hi.known a ha) hc)
    | @edit a f old text ha hf hc e =>
      show Dict.get (z.fs.put _ _) _ = _
      rw [Dict.get_put, if_neg (listed a (hi.known a ha) f hf)]
      exact ih

/-- What the user has written into a file that is a configuration file of every version of the package, and that differs from what they
record, stays there, whatever happens to other packages and is done to its end with this one, until they change it. -/
theorem crashUpgrades_conf (hw : WF s) (h : Family sha dest nm ps) (hr : ∀ p ∈ ps, RoomOver dest s p) {y z : USys}
    (hy : UTurns sha dest nm ps ⟨s, [], []⟩ y) (hz : UTurn sha dest nm ps y z) (hbp : b ∈ ps) {k x : Str}
    (hv : ∀ p ∈ ps, nm p = nm b → ∃ f ∈ p.l, joinPath dest [f.path] = k ∧ f.conf = true ∧ f.hash ≠ some (sha x))
    (hsame : ∀ p ∈ ps, nm p = nm b → ∀ q ∈ ps, nm q = nm b → ∀ f ∈ p.l, ∀ g ∈ q.l, joinPath dest [f.path] = joinPath dest [g.path] → f.path = g.path)
    (hk : y.fs.get k = some (.file x)) (hcut : nm b ∉ z.failed)
    (hed : ∀ text, z = { y with fs := y.fs.put k (.file text) } → text = x) : z.fs.get k = some (.file x) := by
  have hi := (CrashInv.start hw hr).turns h hy
  have pb := h.proper b hbp
  obtain ⟨f, hf, ek, hc, hh⟩ := hv b hbp rfl
  obtain ⟨i, hib, ei, v, hiv, _⟩ := pb.member hf hc
  rw [ek] at ei
  have other : ∀ a ∈ ps, nm a ≠ nm b → ∀ c, Mid dest a y.fs c → c.get k = some (.file x) := by
    intro a ha hne c hm
    rcases hm.at_ k with e | e
    · rw [e]; exact hk
    · rw [ei] at e
      rcases (e.other (h.proper a ha) pb (h.beside a ha b hbp hne) (h.beside b hbp a ha (Ne.symm hne)) hib List.prefix_rfl).2 with g | g
      · exact absurd rfl g
      · rw [hiv] at g; cases g
  have down : ∀ a ∈ ps, ∀ (db : DB.FilesDB Str Nat Unit) (pkg : Nat) (c : FS), Down sha dest db pkg a.l y.fs c →
      c.get k = some (.file x) := by
    intro a ha db pkg c hd
    rcases hd.at_ k with e | ⟨_, ⟨e, _⟩ | ⟨n, _, e, g, hg, eg, _, _, hgo⟩⟩
    · rw [e]; exact hk
    · rw [hk] at e; cases e
    · rw [hk] at e
      cases e
      by_cases hab : nm a = nm b
      · obtain ⟨f', hf', ek', hc', hh'⟩ := hv a ha hab
        rw [(h.proper a ha).once g hg f' hf' (eg.trans ek'.symm)] at hgo
        obtain ⟨x', e, hx⟩ := hgo hc'
        cases e
        exact absurd hx hh'
      · obtain ⟨j, hj, hje⟩ := (h.proper a ha).lists.sub g hg
        have := pathOf_inj (pb.sound.names i hib) ((h.proper a ha).sound.names j hj) (ei.symm.trans (eg.symm.trans hje))
        have := (h.beside b hbp a ha (Ne.symm hab)).dirs i hib j hj (this ▸ List.prefix_rfl)
        rw [hiv] at this
        cases this
  cases hz with
  | @install a t ha ht =>
    by_cases hab : nm a = nm b
    · obtain ⟨l, t', hre, _, hch, heq, _⟩ := crash_install h hi ha
      have := heq t ht
      subst this
      obtain ⟨f', hf', ek', hc', hh'⟩ := hv a ha hab
      subst ek'
      refine (hre.kept _ (hch f' hf' hc' x hk hh' fun o ho en => ?_)).trans hk
      obtain ⟨g, hg, eg, hcg, hhg⟩ := hv o (hi.known o ho) (en.trans hab)
      exact ⟨g, hg, hsame o (hi.known o ho) (en.trans hab) a ha hab g hg f' hf' eg, hcg, hhg⟩
    · exact other a ha hab t ((crash_steps h hi ha).2 t ht)
  | @cutInstall a c ha hc' =>
    by_cases hab : nm a = nm b
    · exact absurd (by rw [hab]; exact List.mem_cons_self) hcut
    · exact other a ha hab c (crash_installing h hi ha hc')
  | @remove a t db pkg ha ht =>
    obtain ⟨t', ht', hd, _⟩ := crash_remove h hi (hi.known a ha) db pkg
    rw [ht] at ht'
    cases ht'
    exact down a (hi.known a ha) db pkg t hd
  | @cutRemove a c db pkg ha hc' => exact down a (hi.known a ha) db pkg c (crash_removing h hi (hi.known a ha) hc')
  | @edit a g old text ha hg hc' e =>
    show Dict.get (y.fs.put _ _) _ = _
    rw [Dict.get_put]
    split
    · rename_i e'
      rw [hed text (by rw [e'])]
    · exact hk

end

theorem hi_roomOver : ∀ p ∈ [hiA, hiA2, hiB], RoomOver ['/'] hiFS p := fun p hp => (hi_room p hp).over

/-- The new version is installed. -/
theorem hi_first : ∃ t, UTurns id ['/'] hiName [hiA, hiA2, hiB] ⟨hiFS, [], []⟩ ⟨t, [hiA2], []⟩ := by
  obtain ⟨_, t, _, _, _, _, hok⟩ := crash_install hi_family (CrashInv.start hi_wf hi_roomOver) (a := hiA2) (by simp)
  exact ⟨t, .more .none (.install (by simp) (hok.mpr (by rintro ⟨_, h, _⟩; cases h)))⟩

/-- The hypotheses can be met, by a history with an interruption: the new version is installed, installing the other package stops, and the
new version can be installed again. -/
example : ∃ y, UTurns id ['/'] hiName [hiA, hiA2, hiB] ⟨hiFS, [], []⟩ y ∧ y.inst = [hiA2] ∧ y.failed = [['B']] ∧ Whole ['/'] y.fs hiA2 ∧
    ∃ z, UTurn id ['/'] hiName [hiA, hiA2, hiB] y z ∧ Whole ['/'] z.fs hiA2 := by
  obtain ⟨t, ht⟩ := hi_first
  have t2 : UTurns id ['/'] hiName [hiA, hiA2, hiB] ⟨hiFS, [], []⟩ ⟨t, [hiA2], [['B']]⟩ :=
    .more ht (.cutInstall (p := hiB) (by simp) List.mem_cons_self)
  have h := crashUpgrades_partial hi_wf hi_family hi_roomOver t2
  obtain ⟨u, hu, hw⟩ := h.2.1 hiA2 (by simp) (by
    rintro ⟨a, ha, _, o, ho, hno⟩
    rw [List.mem_singleton.mp ha] at ho
    exact hno o ho rfl)
  exact ⟨_, t2, rfl, rfl, h.1 hiA2 (by simp) (show hiName hiA2 ∉ [['B']] by decide), _, hu, hw⟩

/-- **C227 is false of the code**: going back to the old version fails, for it drops a file. -/
theorem crashUpgrades_refuted : ¬ CrashUpgradesFull := by
  intro h
  obtain ⟨t, ht⟩ := hi_first
  obtain ⟨u, hu, _⟩ := (h id ['/'] hiName _ hiFS hi_wf hi_family hi_roomOver _ ht).2 hiA (by simp)
  have hi := (CrashInv.start hi_wf hi_roomOver).turns hi_family ht
  obtain ⟨_, v, _, _, _, heq, hok⟩ := crash_install hi_family hi (a := hiA) (by simp)
  have hd : Drops hiName ⟨t, [hiA2], []⟩ hiA :=
    ⟨hiA2, by simp, by decide, ⟨"b/z".toList, false, some ['6'], false⟩, by decide, by decide⟩
  have hne : hiA ≠ hiA2 := by decide
  generalize hz : (⟨u, hiA :: [hiA2].filter (fun a => hiName a ≠ hiName hiA), ([] : List Str).filter (· ≠ hiName hiA)⟩ : USys) = z at hu
  have hin : z.inst = [hiA] := by
    rw [← hz]
    show hiA :: [hiA2].filter (fun a => hiName a ≠ hiName hiA) = [hiA]
    decide
  cases hu with
  | @install p w hp hw =>
    have e : p = hiA := (List.cons.inj hin).1
    subst e
    have := heq w hw
    subst this
    exact (hok.mp hw) hd
  | cutInstall _ _ => exact hne (List.cons.inj hin).1.symm
  | @remove p w db pkg hp hw =>
    have : hiA ∈ [hiA2].filter (· ≠ p) := by
      have hin : [hiA2].filter (· ≠ p) = [hiA] := hin
      rw [hin]; exact List.mem_cons_self
    exact hne (List.mem_singleton.mp (List.mem_filter.mp this).1)
  | cutRemove _ _ _ _ => exact hne (List.cons.inj hin).1.symm
  | edit _ _ _ _ => exact hne (List.cons.inj hin).1.symm

end Pisi.FS
