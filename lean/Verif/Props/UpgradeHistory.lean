import Verif.Spec.UpgradeHistory
import Verif.Props.FileHistory

/-!
# C219: histories with upgrades
-/
namespace Pisi.FS
open Pisi.Path

/-- **C219, full statement.**  Nothing fails, and what is installed is whole. -/
def UpgradesFull : Prop := ∀ (sha : Str → Str) (dest : Str) (nm : Pack → Str) (ps : List Pack) (s : FS), WF s → Family sha dest nm ps →
  (∀ p ∈ ps, Room dest s p) → ∀ ds : List Deed, (∀ d ∈ ds, d.About ps) →
  (udeeds sha dest nm ⟨s, [], []⟩ ds).failed = [] ∧
    ∀ p ∈ (udeeds sha dest nm ⟨s, [], []⟩ ds).inst, Whole dest (udeeds sha dest nm ⟨s, [], []⟩ ds).fs p

section
variable {sha : Str → Str} {dest : Str} {nm : Pack → Str} {s t : FS} {ps : List Pack} {a b p : Pack} {l : List FileInfo}

/-- The same version. -/
theorem Proper.version (h : Proper sha dest a) : Version dest a a := by
  refine ⟨h.sound.inDirs, fun i hi j hj e hd => ?_, fun f hf hc j hj he => ?_, h.names⟩
  · rw [← List.inj_on_of_nodup_map h.sound.apart hi hj e]; exact hd
  · obtain ⟨c, e, _⟩ := h.conf f hf hc j hj he
    exact ⟨c, e⟩

/-- Other packages. -/
theorem Beside.version (pa : Proper sha dest a) (pb : Proper sha dest b) (h1 : Beside dest a b) (h2 : Beside dest b a) : Version dest a b := by
  refine ⟨fun i hi j hj hp _ => h1.dirs i hi j hj hp, fun i hi j hj e _ => h2.dirs j hj i hi (e ▸ List.prefix_rfl), fun f hf hc j hj he => ?_, h1.names⟩
  obtain ⟨i, hi, hie⟩ := pa.lists.sub f hf
  obtain ⟨c, hn, _⟩ := pa.conf f hf hc i hi hie
  have := pathOf_inj (pa.sound.names i hi) (pb.sound.names j hj) (hie.symm.trans he)
  rw [h1.dirs i hi j hj (this ▸ List.prefix_rfl)] at hn
  cases hn

theorem Family.version (h : Family sha dest nm ps) (ha : a ∈ ps) (hb : b ∈ ps) : Version dest a b := by
  by_cases e : a = b
  · subst e; exact (h.proper a ha).version
  · by_cases en : nm a = nm b
    · exact h.versions a ha b hb en e
    · exact Beside.version (h.proper a ha) (h.proper b hb) (h.beside a ha b hb en) (h.beside b hb a ha (Ne.symm en))

/-- The files of `l` that may be kept are configuration files of `a`. -/
def ConfOf (l : List FileInfo) (a : Pack) : Prop := ∀ f ∈ l, f.conf = true → ∃ g ∈ a.l, g.conf = true ∧ g.path = f.path

theorem ConfOf.changed (h : ConfOf l a) {k : Str} (hc : Changed sha dest l s k) :
    ∃ g ∈ a.l, g.conf = true ∧ joinPath dest [g.path] = k := by
  obtain ⟨f, hf, hcf, hp⟩ := changed_conf hc
  obtain ⟨g, hg, hcg, e⟩ := h f hf hcf
  exact ⟨g, hg, hcg, by rw [e]; exact hp⟩

/-- Room for any version of any package is left by the installation of any version of any package. -/
theorem Room.put (pa : Proper sha dest a) (pb : Proper sha dest b) (hb : Room dest s b) (h1 : Version dest a b) (h2 : Version dest b a)
    (hl : ConfOf l a) (h : Reinstalled sha dest l a.is s t) : Room dest t b := by
  -- what is at a place of `b`
  have look : ∀ j ∈ b.is, ∀ q, q <+: j.comps → t.get (pathOf q) = s.get (pathOf q) ∨
      (∃ i ∈ a.is, i.comps = q ∧ t.get (pathOf q) = some i.node) ∨ (∃ i ∈ a.is, q <+: i.comps ∧ q ≠ i.comps ∧ t.get (pathOf q) = some .dir) := by
    intro j hj q hq
    by_cases hp : ∃ i ∈ a.is, ∃ r, r <+: i.comps ∧ pathOf q = pathOf r
    · obtain ⟨i, hi, r, hr, e⟩ := hp
      have e := pathOf_inj (fun x hx => pb.sound.names j hj x (hq.subset hx)) (fun x hx => pa.sound.names i hi x (hr.subset hx)) e
      subst e
      by_cases e : q = i.comps
      · subst e
        by_cases hc : Changed sha dest l s (pathOf i.comps)
        · exact .inl (h.kept _ hc)
        · exact .inr (.inl ⟨i, hi, rfl, h.repaired i hi hc⟩)
      · exact .inr (.inr ⟨i, hi, hr, e, h.dirs i hi q hr e⟩)
    · refine .inl (h.rest _ (fun i hi r hr e => hp ⟨i, hi, r, hr, e⟩) fun p hc e => ?_)
      obtain ⟨g, hg, hcg, rfl⟩ := hl.changed hc
      exact (h1.names g hg hcg j hj q hq).2 e.symm
  refine ⟨⟨fun j hj hd => ?_, fun j hj hd => ?_, fun j hj q hq hne => ?_⟩, fun f hf hc => ?_, fun f hf hc => ?_, fun f hf hc => ?_⟩
  · rcases look j hj _ List.prefix_rfl with e | ⟨i, hi, e, ht⟩ | ⟨i, hi, _, _, ht⟩
    · rw [e]; exact hb.isOpen.dir j hj hd
    · rw [ht, h2.kind j hj i hi e.symm hd]; exact .inr rfl
    · exact .inr ht
  · rcases look j hj _ List.prefix_rfl with e | ⟨i, hi, e, ht⟩ | ⟨i, hi, hp, hne, _⟩
    · rw [e]; exact hb.isOpen.nodir j hj hd
    · rw [ht]
      exact fun e' => hd (h1.kind i hi j hj e (Option.some.inj e'))
    · exact absurd (h2.way j hj i hi hp hne) hd
  · rcases look j hj q hq with e | ⟨i, hi, e, ht⟩ | ⟨i, hi, _, _, ht⟩
    · rw [e]; exact hb.isOpen.way j hj q hq hne
    · rw [ht, h1.way i hi j hj (e ▸ hq) (e ▸ hne)]; exact .inr rfl
    · exact .inr ht
  · obtain ⟨j, hj, he⟩ := pb.lists.sub f hf
    have hp := hb.plain f hf hc
    rw [he] at hp ⊢
    obtain ⟨c, hn, _⟩ := pb.conf f hf hc j hj he
    rcases look j hj _ List.prefix_rfl with e | ⟨i, hi, e, ht⟩ | ⟨i, hi, hpr, hne, _⟩
    · rw [e]; exact hp
    · obtain ⟨c', hc'⟩ := h2.conf f hf hc i hi (by rw [e]; exact he)
      exact .inr ⟨c', by rw [ht, hc']⟩
    · rw [h2.way j hj i hi hpr hne] at hn
      cases hn
  · rw [h.rest _ (fun i hi q hq => (h2.names f hf hc i hi q hq).1) (fun q _ e => dotOld_ne_dotNew _ q e)]
    exact hb.oldFree f hf hc
  · by_cases hx : Changed sha dest l s (joinPath dest [f.path])
    · obtain ⟨g, hg, hcg, e⟩ := hl.changed hx
      obtain ⟨i, hi, he⟩ := pa.lists.sub g hg
      obtain ⟨c, hn, _⟩ := pa.conf g hg hcg i hi he
      rw [e] at he
      rw [he] at hx ⊢
      rw [h.beside i hi hx, hn]
      exact fun e => by cases e
    · rw [h.rest _ (fun i hi q hq => (h2.names f hf hc i hi q hq).2) (fun q hq e => hx (dotNew_inj e ▸ hq))]
      exact hb.newFree f hf hc

/-- Installing a version where there is another one, or none: the new one is put in place, and that it fails means that files are dropped. -/
theorem install_any (hw : WF s) (pb : Proper sha dest b) (hn : (b.l.map FileInfo.path).Nodup) (hb : Room dest s b) (old : Option Pack)
    (ho : ∀ a ∈ old, (a.l.map FileInfo.path).Nodup) :
    ∃ l t, Lists dest l b.is ∧ ConfOf l b ∧ Keepable sha dest l b.is s ∧ Reinstalled sha dest l b.is s t ∧
      (∀ g ∈ b.l, g.conf = true → ∀ c, s.get (joinPath dest [g.path]) = some (.file c) → g.hash ≠ some (sha c) →
        (∀ a ∈ old, ∃ o ∈ a.l, o.path = g.path ∧ o.conf = true ∧ o.hash ≠ some (sha c)) → Changed sha dest l s (joinPath dest [g.path])) ∧
      (((extractInstall sha dest (old.map Pack.l) b.l (b.is.map Item.entry) s).2 = .ok t ∧ ∀ a ∈ old, ∀ o ∈ a.l, ∃ n ∈ b.l, n.path = o.path) ∨
       ((extractInstall sha dest (old.map Pack.l) b.l (b.is.map Item.entry) s).2 = .error .typeErr ∧
        Tr.final s (extractInstall sha dest (old.map Pack.l) b.l (b.is.map Item.entry) s) = t ∧
        ∃ a ∈ old, ∃ o ∈ a.l, ∀ n ∈ b.l, n.path ≠ o.path)) := by
  have fb := pb.fits hb
  cases old with
  | none =>
    obtain ⟨t, ht, hr⟩ := install_over hw fb.sound fb.lists fb.isOpen fb.keepable
    exact ⟨b.l, t, fb.lists, fun f hf hc => ⟨f, hf, hc, rfl⟩, fb.keepable, hr, fun g hg hc c hs hh _ => ⟨g, hg, hc, rfl, c, hs, hh⟩,
      .inl ⟨ht, fun a ha => by cases ha⟩⟩
  | some a =>
    have hk : KeepableUp sha dest a.l b.l b.is s := by
      have conf : ∀ p, UserChanged sha dest a.l b.l s p → ∃ n ∈ b.l, n.conf = true ∧ joinPath dest [n.path] = p :=
        fun p ⟨n, hn, _, _, _, hc, _, hp, _⟩ => ⟨n, hn, hc, hp⟩
      refine ⟨fun n hn _ _ _ hc _ => hb.plain n hn hc, fun p hp => ?_, fun p hp => ?_, fun p hp => ?_⟩ <;> obtain ⟨n, hn, hc, rfl⟩ := conf p hp
      · exact hb.oldFree n hn hc
      · exact hb.newFree n hn hc
      · exact pb.names n hn hc
    obtain ⟨h1, h2⟩ := upgrade_puts hw fb.sound fb.lists (ho a rfl) hn fb.isOpen hk
    refine ⟨merged a.l b.l, _, lists_merged fb.lists, fun f hf hc => ?_, keepable_merged hk,
      ⟨fun p hp => h1.kept p ((changed_merged p).mp hp), fun i hi hp => h1.beside i hi ((changed_merged _).mp hp),
        fun i hi hp => h1.inPlace i hi (fun h => hp ((changed_merged _).mpr h)), h1.dirs,
        fun k g1 g2 => h1.rest k g1 fun p hp => g2 p ((changed_merged p).mpr hp)⟩, fun g hg hc c hs hh hold => ?_, ?_⟩
    · rcases mem_merged.mp hf with ⟨n, hn, o, ho, he, rfl⟩ | ⟨n, hn, _, rfl⟩
      · simp only [both, Bool.and_eq_true] at hc
        exact ⟨n, hn, hc.1, he⟩
      · cases hc
    · obtain ⟨o, ho, e, hco, hho⟩ := hold a rfl
      exact (changed_merged _).mpr ⟨g, hg, o, ho, e.symm, hc, hco, rfl, c, hs, hho⟩
    · by_cases hd : ∀ o ∈ a.l, ∃ n ∈ b.l, n.path = o.path
      · rw [if_pos hd] at h2
        exact .inl ⟨h2, fun x hx => by cases hx; exact hd⟩
      · rw [if_neg hd] at h2
        refine .inr ⟨h2, rfl, a, rfl, Classical.byContradiction fun hno => hd fun o ho => Classical.byContradiction fun hno' => hno ⟨o, ho, fun n hn e => hno' ⟨n, hn, e⟩⟩⟩

/-- What holds after every deed. -/
structure UInv (sha : Str → Str) (dest : Str) (nm : Pack → Str) (ps : List Pack) (y : USys) : Prop where
  wf : WF y.fs
  room : ∀ p ∈ ps, Room dest y.fs p
  known : ∀ p ∈ y.inst, p ∈ ps
  one : ∀ p ∈ y.inst, ∀ q ∈ y.inst, nm p = nm q → p = q
  whole : ∀ p ∈ y.inst, nm p ∉ y.failed → Whole dest y.fs p

theorem find_name {nm : Pack → Str} {L : List Pack} {b a : Pack} (h : a ∈ L.find? fun x => nm x = nm b) : a ∈ L ∧ nm a = nm b :=
  ⟨List.mem_of_find?_eq_some h, by simpa using List.find?_some h⟩

theorem find_one {nm : Pack → Str} {L : List Pack} {b a : Pack} (h1 : ∀ p ∈ L, ∀ q ∈ L, nm p = nm q → p = q) (ha : a ∈ L) (e : nm a = nm b) :
    (L.find? fun x => nm x = nm b) = some a := by
  cases h : L.find? fun x => nm x = nm b with
  | none => exact absurd e (by simpa using List.find?_eq_none.mp h a ha)
  | some x =>
    obtain ⟨g1, g2⟩ := find_name h
    rw [h1 x g1 a ha (g2.trans e.symm)]

/-- An installation: what is done to the files, and whether it fails. -/
theorem inv_put (h : Family sha dest nm ps) {y : USys} (hy : UInv sha dest nm ps y) (hb : b ∈ ps) :
    ∃ l, UInv sha dest nm ps (udeed sha dest nm y (.install b)) ∧ ConfOf l b ∧ Reinstalled sha dest l b.is y.fs (udeed sha dest nm y (.install b)).fs ∧
      (∀ g ∈ b.l, g.conf = true → ∀ c, y.fs.get (joinPath dest [g.path]) = some (.file c) → g.hash ≠ some (sha c) →
        (∀ a ∈ y.inst, nm a = nm b → ∃ o ∈ a.l, o.path = g.path ∧ o.conf = true ∧ o.hash ≠ some (sha c)) →
        Changed sha dest l y.fs (joinPath dest [g.path])) ∧
      ((¬ Drops nm y b ∧ (udeed sha dest nm y (.install b)).inst = b :: y.inst.filter (fun a => nm a ≠ nm b) ∧
          (udeed sha dest nm y (.install b)).failed = y.failed.filter (· ≠ nm b)) ∨
       (Drops nm y b ∧ (udeed sha dest nm y (.install b)).inst = y.inst ∧ (udeed sha dest nm y (.install b)).failed = nm b :: y.failed)) := by
  have pb := h.proper b hb
  have fb := pb.fits (hy.room b hb)
  obtain ⟨l, t, hl, hc, hk, hr, hch, hres⟩ := install_any hy.wf pb (h.once b hb) (hy.room b hb) (y.inst.find? fun a => nm a = nm b)
    (fun a ha => h.once a (hy.known a (find_name ha).1))
  have hw : WF t := hr.wf hy.wf fb.sound hl fb.isOpen hk
  have room : ∀ p ∈ ps, Room dest t p := fun p hp => Room.put pb (h.proper p hp) (hy.room p hp) (h.version hb hp) (h.version hp hb) hc hr
  -- the other packages stay whole
  have other : ∀ p ∈ y.inst, nm p ≠ nm b → Whole dest y.fs p → Whole dest t p := by
    intro p hp hne hwh f hf hcf i hi he hd
    have hpp := hy.known p hp
    rw [← hwh f hf hcf i hi he hd]
    refine hr.rest _ (fun j hj q hq e' => ?_) (fun q hq e' => ?_)
    · have := pathOf_inj ((h.proper p hpp).sound.names i hi) (fun x hx => pb.sound.names j hj x (hq.subset hx)) e'
      exact hd ((h.beside p hpp b hb hne).dirs i hi j hj (this ▸ hq))
    · obtain ⟨g, hg, hcg, e⟩ := hc.changed hq
      rw [← e] at e'
      exact ((h.beside b hb p hpp (Ne.symm hne)).names g hg hcg i hi _ List.prefix_rfl).2 e'.symm
  -- the new one is whole
  have self : Whole dest t b := by
    intro f hf hcf i hi he _
    refine hr.repaired i hi fun hx => ?_
    obtain ⟨g, hg, hcg, e⟩ := hc.changed hx
    rw [pb.once f hf g hg (he.trans e.symm), hcg] at hcf
    cases hcf
  have hch' : ∀ g ∈ b.l, g.conf = true → ∀ c, y.fs.get (joinPath dest [g.path]) = some (.file c) → g.hash ≠ some (sha c) →
      (∀ a ∈ y.inst, nm a = nm b → ∃ o ∈ a.l, o.path = g.path ∧ o.conf = true ∧ o.hash ≠ some (sha c)) →
      Changed sha dest l y.fs (joinPath dest [g.path]) := fun g hg hcg c hs hh ha =>
    hch g hg hcg c hs hh fun a ha' => ha a (find_name ha').1 (find_name ha').2
  rcases hres with ⟨hok, hnd⟩ | ⟨herr, hfin, a, ha, o, ho, hdr⟩
  · have hz : udeed sha dest nm y (.install b) = ⟨t, b :: y.inst.filter (fun a => nm a ≠ nm b), y.failed.filter (· ≠ nm b)⟩ := by
      simp only [udeed, hok]
    rw [hz]
    refine ⟨l, ⟨hw, room, fun p hp => ?_, fun p hp q hq e => ?_, fun p hp hnf => ?_⟩, hc, hr, hch', .inl ⟨?_, rfl, rfl⟩⟩
    · rcases List.mem_cons.mp hp with e | hp
      · rw [e]; exact hb
      · exact hy.known p (List.mem_filter.mp hp).1
    · rcases List.mem_cons.mp hp with rfl | hp <;> rcases List.mem_cons.mp hq with rfl | hq
      · rfl
      · exact absurd e.symm (by simpa using (List.mem_filter.mp hq).2)
      · exact absurd e (by simpa using (List.mem_filter.mp hp).2)
      · exact hy.one p (List.mem_filter.mp hp).1 q (List.mem_filter.mp hq).1 e
    · rcases List.mem_cons.mp hp with rfl | hp
      · exact self
      · obtain ⟨hp, hne⟩ := List.mem_filter.mp hp
        have hne : nm p ≠ nm b := by simpa using hne
        exact other p hp hne (hy.whole p hp fun hf => hnf (List.mem_filter.mpr ⟨hf, by simpa using hne⟩))
    · rintro ⟨a, ha, e, o, ho, hno⟩
      obtain ⟨n, hn, e'⟩ := hnd a (find_one hy.one ha e) o ho
      exact hno n hn e'
  · have hz : udeed sha dest nm y (.install b) = ⟨t, y.inst, nm b :: y.failed⟩ := by
      simp only [udeed, herr, hfin]
    rw [hz]
    refine ⟨l, ⟨hw, room, hy.known, hy.one, fun p hp hnf => ?_⟩, hc, hr, hch', .inr ⟨⟨a, (find_name ha).1, (find_name ha).2, o, ho, hdr⟩, rfl, rfl⟩⟩
    rw [List.mem_cons, not_or] at hnf
    exact other p hp hnf.1 (hy.whole p hp hnf.2)

theorem inv_take (h : Family sha dest nm ps) {y : USys} (hy : UInv sha dest nm ps y) (ha : a ∈ ps) (db : DB.FilesDB Str Nat Unit) (pkg : Nat) :
    UInv sha dest nm ps (udeed sha dest nm y (.remove a db pkg)) ∧ (udeed sha dest nm y (.remove a db pkg)).inst = y.inst.filter (· ≠ a) ∧
      (∀ x ∈ (udeed sha dest nm y (.remove a db pkg)).failed, x ∈ y.failed) ∧
      (a ∈ y.inst → nm a ∉ (udeed sha dest nm y (.remove a db pkg)).failed) ∧
      (udeed sha dest nm y (.remove a db pkg) = y ∨
        a ∈ y.inst ∧ removeFiles sha dest db pkg a.l y.fs = .ok (udeed sha dest nm y (.remove a db pkg)).fs) := by
  by_cases hi : a ∈ y.inst
  · have pa := h.proper a ha
    obtain ⟨t, ht, hw⟩ := remove_total sha dest db pkg a.l y.fs hy.wf (fun f hf e => by
      obtain ⟨i, hi, he⟩ := pa.lists.sub f hf
      exact pa.sound.ne i hi (pathOf_inj (pa.sound.names i hi) (by simp) ((he.symm.trans e).trans rfl)))
    have hfr := removeFiles_frame sha dest db pkg a.l y.fs t ht
    have hz : udeed sha dest nm y (.remove a db pkg) = ⟨t, y.inst.filter (· ≠ a), y.failed.filter (· ≠ nm a)⟩ := by
      simp only [udeed, if_pos hi, ht]
    rw [hz]
    refine ⟨⟨hw, fun b hb => (hy.room b hb).less fun k => (hfr k).imp id And.left, fun b hb => hy.known b (List.mem_filter.mp hb).1,
      fun b hb c hc => hy.one b (List.mem_filter.mp hb).1 c (List.mem_filter.mp hc).1, fun b hb hnf => ?_⟩, rfl,
      fun x hx => (List.mem_filter.mp hx).1, fun _ hx => by simpa using (List.mem_filter.mp hx).2, .inr ⟨hi, ht⟩⟩
    obtain ⟨hb, hne⟩ := List.mem_filter.mp hb
    have hne : b ≠ a := by simpa using hne
    have hbp := hy.known b hb
    have hnn : nm b ≠ nm a := fun e => hne (hy.one b hb a hi e)
    have hwh := hy.whole b hb fun hf => hnf (List.mem_filter.mpr ⟨hf, by simpa using hnn⟩)
    intro f hf hcf i hi he hd
    have hs := hwh f hf hcf i hi he hd
    rcases hfr (pathOf i.comps) with e | ⟨_, ⟨g, hg, e⟩ | e⟩
    · rw [← hs]; exact e
    · obtain ⟨j, hj, hje⟩ := pa.lists.sub g hg
      have := pathOf_inj ((h.proper b hbp).sound.names i hi) (pa.sound.names j hj) (e.trans hje)
      exact absurd ((h.beside b hbp a ha hnn).dirs i hi j hj (this ▸ List.prefix_rfl)) hd
    · rw [hs] at e
      exact absurd (Option.some.inj e) hd
  · have hz : udeed sha dest nm y (.remove a db pkg) = y := by simp only [udeed, if_neg hi]
    rw [hz]
    refine ⟨hy, ?_, fun _ h => h, fun h => absurd h hi, .inl rfl⟩
    rw [List.filter_eq_self.mpr]
    intro b hb
    simp only [decide_eq_true_eq, ne_eq]
    exact fun e => hi (e ▸ hb)

theorem inv_write (h : Family sha dest nm ps) {y : USys} (hy : UInv sha dest nm ps y) (ha : a ∈ ps) {f : FileInfo} (hf : f ∈ a.l) (hc : f.conf = true)
    (text : Str) : UInv sha dest nm ps (udeed sha dest nm y (.edit a f text)) ∧ (udeed sha dest nm y (.edit a f text)).inst = y.inst ∧
      (udeed sha dest nm y (.edit a f text)).failed = y.failed ∧
      ∀ k, k ≠ joinPath dest [f.path] → (udeed sha dest nm y (.edit a f text)).fs.get k = y.fs.get k := by
  have pa := h.proper a ha
  by_cases hi : a ∈ y.inst
  · rcases (hy.room a ha).plain f hf hc with e | ⟨c, e⟩
    · have hz : udeed sha dest nm y (.edit a f text) = y := by simp only [udeed, if_pos hi, e]
      rw [hz]
      exact ⟨hy, rfl, rfl, fun _ _ => rfl⟩
    · have hz : udeed sha dest nm y (.edit a f text) = { y with fs := y.fs.put (joinPath dest [f.path]) (.file text) } := by
        simp only [udeed, if_pos hi, e]
      rw [hz]
      refine ⟨⟨hy.wf.text e, fun b hb => (hy.room b hb).text e, hy.known, hy.one, fun b hb hnf => ?_⟩, rfl, rfl, fun k hk => ?_⟩
      · intro g hg hcg i hi' he hd
        rw [← hy.whole b hb hnf g hg hcg i hi' he hd]
        show Dict.get (y.fs.put _ _) _ = _
        rw [Dict.get_put, if_neg]
        intro e'
        by_cases eb : b = a
        · subst eb
          rw [pa.once f hf g hg (e'.trans he.symm), hcg] at hc
          cases hc
        · have hbp := hy.known b hb
          have hnn : nm b ≠ nm a := fun e => eb (hy.one b hb a hi e)
          obtain ⟨j, hj, hje⟩ := pa.lists.sub f hf
          have := pathOf_inj ((h.proper b hbp).sound.names i hi') (pa.sound.names j hj) (e'.symm.trans hje)
          exact hd ((h.beside b hbp a ha hnn).dirs i hi' j hj (this ▸ List.prefix_rfl))
      · show Dict.get (y.fs.put _ _) _ = _
        rw [Dict.get_put, if_neg (fun e => hk e.symm)]
  · have hz : udeed sha dest nm y (.edit a f text) = y := by simp only [udeed, if_neg hi]
    rw [hz]
    exact ⟨hy, rfl, rfl, fun _ _ => rfl⟩

theorem uinv_deed (h : Family sha dest nm ps) {y : USys} (hy : UInv sha dest nm ps y) {d : Deed} (hd : d.About ps) :
    UInv sha dest nm ps (udeed sha dest nm y d) := by
  cases d with
  | install b => obtain ⟨_, h1, _⟩ := inv_put h hy hd; exact h1
  | remove a db pkg => exact (inv_take h hy hd db pkg).1
  | edit a f text => exact (inv_write h hy hd.1 hd.2.1 hd.2.2 text).1

theorem uinv_deeds (h : Family sha dest nm ps) : ∀ (ds : List Deed) {y : USys}, UInv sha dest nm ps y → (∀ d ∈ ds, d.About ps) →
    UInv sha dest nm ps (udeeds sha dest nm y ds)
  | [], _, hy, _ => hy
  | d :: ds, _, hy, hd => uinv_deeds h ds (uinv_deed h hy (hd d (by simp))) fun x hx => hd x (by simp [hx])

theorem uinv_start (hw : WF s) (hr : ∀ p ∈ ps, Room dest s p) : UInv sha dest nm ps ⟨s, [], []⟩ :=
  ⟨hw, hr, fun _ h => (by cases h), fun _ h => (by cases h), fun _ h => (by cases h)⟩

theorem udeeds_append (ds es : List Deed) (y : USys) : udeeds sha dest nm y (ds ++ es) = udeeds sha dest nm (udeeds sha dest nm y ds) es :=
  List.foldl_append ..

/-- An installation fails exactly if it drops a file of the version that is installed. -/
theorem upgrade_fails_iff (h : Family sha dest nm ps) {y : USys} (hy : UInv sha dest nm ps y) (hb : b ∈ ps) :
    nm b ∈ (udeed sha dest nm y (.install b)).failed ↔ Drops nm y b := by
  obtain ⟨_, _, _, _, _, ⟨hd, _, hf⟩ | ⟨hd, _, hf⟩⟩ := inv_put h hy hb
  · rw [hf]
    refine ⟨fun hx => ?_, fun hx => absurd hx hd⟩
    have := (List.mem_filter.mp hx).2
    simp at this
  · rw [hf]
    exact ⟨fun _ => hd, fun _ => List.mem_cons_self⟩

/-- **C219.**  Versions of packages, those of different packages having only directories in common, for which there is room: whatever is
installed, upgraded, downgraded, removed and edited, failed or not, at most one version of each package is installed, and it is whole unless
the last installation of that package has failed; nothing fails if no installation drops a file of the version it replaces.  What is missing
for the full statement, which is false of the code: such installations fail when the new version is in place (`upgrade_fails_iff`). -/
theorem upgrades_partial (hw : WF s) (h : Family sha dest nm ps) (hr : ∀ p ∈ ps, Room dest s p) (ds : List Deed) (hd : ∀ d ∈ ds, d.About ps) :
    (∀ p ∈ (udeeds sha dest nm ⟨s, [], []⟩ ds).inst, p ∈ ps ∧
      (nm p ∉ (udeeds sha dest nm ⟨s, [], []⟩ ds).failed → Whole dest (udeeds sha dest nm ⟨s, [], []⟩ ds).fs p) ∧
      ∀ q ∈ (udeeds sha dest nm ⟨s, [], []⟩ ds).inst, nm p = nm q → p = q) ∧
    ((∀ es b fs, ds = es ++ .install b :: fs → ¬ Drops nm (udeeds sha dest nm ⟨s, [], []⟩ es) b) →
      (udeeds sha dest nm ⟨s, [], []⟩ ds).failed = []) := by
  have hy := uinv_deeds h ds (uinv_start (sha := sha) (nm := nm) hw hr) hd
  refine ⟨fun p hp => ⟨hy.known p hp, hy.whole p hp, hy.one p hp⟩, ?_⟩
  clear hy
  induction ds using Pisi.snoc_induction with
  | h0 => exact fun _ => rfl
  | hs ds d ih =>
    intro hnd
    have hd1 : ∀ x ∈ ds, x.About ps := fun x hx => hd x (List.mem_append_left _ hx)
    have hy := uinv_deeds h ds (uinv_start (sha := sha) (nm := nm) hw hr) hd1
    have hf := ih hd1 fun es b fs e => hnd es b (fs ++ [d]) (by rw [e]; simp)
    have hda := hd d (by simp)
    rw [udeeds_append]
    show (udeed sha dest nm (udeeds sha dest nm ⟨s, [], []⟩ ds) d).failed = []
    cases d with
    | install b =>
      obtain ⟨_, _, _, _, _, ⟨_, _, e⟩ | ⟨hdr, _, _⟩⟩ := inv_put h hy hda
      · rw [e, hf]; rfl
      · exact absurd hdr (hnd ds b [] rfl)
    | remove a db pkg =>
      have := (inv_take h hy hda db pkg).2.2.1
      rw [hf] at this
      exact List.eq_nil_iff_forall_not_mem.mpr fun x hx => by cases this x hx
    | edit a f text => rw [(inv_write h hy hda.1 hda.2.1 hda.2.2 text).2.2.1, hf]

/-- So the check finds whatever is installed intact. -/
theorem upgrades_intact (hw : WF s) (h : Family sha ['/'] nm ps) (hr : ∀ p ∈ ps, Room ['/'] s p) (hh : ∀ p ∈ ps, Honest sha ['/'] p.l p.is)
    (ds : List Deed) (hd : ∀ d ∈ ds, d.About ps) : ∀ p ∈ (udeeds sha ['/'] nm ⟨s, [], []⟩ ds).inst,
      nm p ∉ (udeeds sha ['/'] nm ⟨s, [], []⟩ ds).failed → checkFiles sha (udeeds sha ['/'] nm ⟨s, [], []⟩ ds).fs p.l = .ok [] := by
  intro p hp hnf
  obtain ⟨h1, h2, _⟩ := (upgrades_partial hw h hr ds hd).1 p hp
  exact check_whole (h.proper p h1).lists (hh p h1) (h2 hnf)

/-- An installation that succeeds puts its version in the place of the other one; one that fails leaves what is recorded as it is. -/
theorem upgrades_inst (h : Family sha dest nm ps) {y : USys} (hy : UInv sha dest nm ps y) (hb : b ∈ ps) (p : Pack) :
    p ∈ (udeed sha dest nm y (.install b)).inst ↔ if nm b ∈ (udeed sha dest nm y (.install b)).failed then p ∈ y.inst
      else p = b ∨ p ∈ y.inst ∧ nm p ≠ nm b := by
  obtain ⟨_, _, _, _, _, ⟨hd, hi, _⟩ | ⟨hd, hi, _⟩⟩ := inv_put h hy hb
  · rw [if_neg (fun hx => hd ((upgrade_fails_iff h hy hb).mp hx)), hi, List.mem_cons, List.mem_filter]
    simp
  · rw [if_pos ((upgrade_fails_iff h hy hb).mpr hd), hi]

/-- After a failed upgrade, or anything else, the version that is recorded can be installed again and is whole then. -/
theorem upgrades_repair (h : Family sha dest nm ps) {y : USys} (hy : UInv sha dest nm ps y) (ha : a ∈ y.inst) :
    nm a ∉ (udeed sha dest nm y (.install a)).failed ∧ a ∈ (udeed sha dest nm y (.install a)).inst ∧
      Whole dest (udeed sha dest nm y (.install a)).fs a := by
  have hap := hy.known a ha
  have hnf : nm a ∉ (udeed sha dest nm y (.install a)).failed := by
    rw [upgrade_fails_iff h hy hap]
    rintro ⟨x, hx, e, o, ho, hno⟩
    rw [hy.one x hx a ha e] at ho
    exact hno o ho rfl
  have hin : a ∈ (udeed sha dest nm y (.install a)).inst := by
    rw [upgrades_inst h hy hap, if_neg hnf]
    exact .inl rfl
  exact ⟨hnf, hin, (uinv_deed h hy (d := .install a) hap).whole a hin hnf⟩

/-- After a failed upgrade the files are those of the new version, though the old one is recorded. -/
theorem upgrades_failed (h : Family sha dest nm ps) {y : USys} (hy : UInv sha dest nm ps y) (hb : b ∈ ps) :
    Whole dest (udeed sha dest nm y (.install b)).fs b := by
  obtain ⟨l, _, hc, hr, _⟩ := inv_put h hy hb
  intro f hf hcf i hi he _
  refine hr.repaired i hi fun hx => ?_
  obtain ⟨g, hg, hcg, e⟩ := hc.changed hx
  rw [(h.proper b hb).once f hf g hg (he.trans e.symm), hcg] at hcf
  cases hcf

/-- All versions have the file as a configuration file, and none has this text. -/
def Mine (sha : Str → Str) (nm : Pack → Str) (ps : List Pack) (a : Pack) (f : FileInfo) (c : Str) : Prop :=
  ∀ v ∈ ps, nm v = nm a → ∃ g ∈ v.l, g.path = f.path ∧ g.conf = true ∧ g.hash ≠ some (sha c)

theorem write_stays (h : Family sha dest nm ps) {y : USys} (hy : UInv sha dest nm ps y) (ha : a ∈ ps) {f : FileInfo} (hf : f ∈ a.l) (hc : f.conf = true)
    {c : Str} (hk : y.fs.get (joinPath dest [f.path]) = some (.file c)) (hm : Mine sha nm ps a f c) {d : Deed} (hd : d.About ps)
    (hne : ∀ p g text, d = .edit p g text → joinPath dest [f.path] ≠ joinPath dest [g.path]) :
    (udeed sha dest nm y d).fs.get (joinPath dest [f.path]) = some (.file c) := by
  have pa := h.proper a ha
  obtain ⟨i, hi, he⟩ := pa.lists.sub f hf
  obtain ⟨c0, hnode, _⟩ := pa.conf f hf hc i hi he
  have hid : i.node ≠ .dir := by rw [hnode]; exact fun e => by cases e
  cases d with
  | install b =>
    obtain ⟨l, _, hcl, hr, hch, _⟩ := inv_put h hy hd
    have hb : b ∈ ps := hd
    by_cases e : nm b = nm a
    · obtain ⟨g, hg, hp, hcg, hh⟩ := hm b hb e
      have := hch g hg hcg c (by rw [hp]; exact hk) hh fun x hx ex => by
        obtain ⟨o, ho, hp', hco, hho⟩ := hm x (hy.known x hx) (ex.trans e)
        exact ⟨o, ho, hp'.trans hp.symm, hco, hho⟩
      rw [hp] at this
      rw [hr.kept _ this, hk]
    · rw [← hk, he]
      refine hr.rest _ (fun j hj q hq e' => ?_) (fun q hq e' => ?_)
      · have := pathOf_inj (pa.sound.names i hi) (fun x hx => (h.proper b hb).sound.names j hj x (hq.subset hx)) e'
        exact hid ((h.beside a ha b hb (Ne.symm e)).dirs i hi j hj (this ▸ hq))
      · obtain ⟨g, hg, hcg, e2⟩ := hcl.changed hq
        rw [← e2] at e'
        exact ((h.beside b hb a ha e).names g hg hcg i hi _ List.prefix_rfl).2 e'.symm
  | remove b db pkg =>
    have hb : b ∈ ps := hd
    rcases (inv_take h hy hd db pkg).2.2.2.2 with e | ⟨_, hr⟩
    · rw [e]; exact hk
    · refine remove_keeps db pkg b.l hk (fun g hg e => ?_) hr
      obtain ⟨j, hj, hje⟩ := (h.proper b hb).lists.sub g hg
      by_cases eb : nm b = nm a
      · obtain ⟨g', hg', hp, hcg, hh⟩ := hm b hb eb
        have : g = g' := (h.proper b hb).once g hg g' hg' (by rw [e, hp])
        rw [this]
        exact ⟨hcg, hh⟩
      · have := pathOf_inj (pa.sound.names i hi) ((h.proper b hb).sound.names j hj) (he.symm.trans (e.symm.trans hje))
        exact absurd ((h.beside a ha b hb (Ne.symm eb)).dirs i hi j hj (this ▸ List.prefix_rfl)) hid
  | edit b g text => rw [(inv_write h hy hd.1 hd.2.1 hd.2.2 text).2.2.2 _ (hne b g text rfl), hk]

/-- **C219.**  A configuration file of an installed version is there, the user writes a text into it that no version has, and from then on
the file has that text, whatever is installed, upgraded, downgraded or removed, until they change it. -/
theorem upgrades_edits (hw : WF s) (h : Family sha dest nm ps) (hr : ∀ p ∈ ps, Room dest s p) (ds es : List Deed) (hd : ∀ d ∈ ds ++ es, d.About ps)
    (ha : a ∈ (udeeds sha dest nm ⟨s, [], []⟩ ds).inst) {f : FileInfo} (hf : f ∈ a.l) (hc : f.conf = true)
    (hk : (udeeds sha dest nm ⟨s, [], []⟩ ds).fs.get (joinPath dest [f.path]) ≠ none) {text : Str} (hm : Mine sha nm ps a f text)
    (hne : ∀ d ∈ es, ∀ p g text, d = .edit p g text → joinPath dest [f.path] ≠ joinPath dest [g.path]) :
    (udeeds sha dest nm ⟨s, [], []⟩ (ds ++ .edit a f text :: es)).fs.get (joinPath dest [f.path]) = some (.file text) := by
  have hy := uinv_deeds h ds (uinv_start (sha := sha) (nm := nm) hw hr) fun d hx => hd d (List.mem_append_left _ hx)
  rw [udeeds_append]
  generalize udeeds sha dest nm ⟨s, [], []⟩ ds = y at hy ha hk ⊢
  have hap := hy.known a ha
  have hz := (inv_write h hy hap hf hc text).1
  have hzk : (udeed sha dest nm y (.edit a f text)).fs.get (joinPath dest [f.path]) = some (.file text) := by
    rcases (hy.room a hap).plain f hf hc with e | ⟨c, e⟩
    · exact absurd e hk
    · simp only [udeed, if_pos ha, e]
      show Dict.get (y.fs.put _ _) _ = _
      rw [Dict.get_put, if_pos rfl]
  show (udeeds sha dest nm (udeed sha dest nm y (.edit a f text)) es).fs.get _ = _
  generalize udeed sha dest nm y (.edit a f text) = z at hz hzk
  have hd2 : ∀ d ∈ es, d.About ps := fun d hx => hd d (List.mem_append_right _ hx)
  clear hd
  induction es generalizing z with
  | nil => exact hzk
  | cons d es ih =>
    have hda := hd2 d (by simp)
    exact ih (fun x hx => hne x (by simp [hx])) _ (uinv_deed h hz hda) (write_stays h hz hap hf hc hzk hm hda (hne d (by simp)))
      fun x hx => hd2 x (by simp [hx])

/-- **C219.**  Files and links that are no packages' stay. -/
theorem upgrades_frame (hw : WF s) (h : Family sha dest nm ps) (hr : ∀ p ∈ ps, Room dest s p) (ds : List Deed) (hd : ∀ d ∈ ds, d.About ps)
    {k : Str} {n : Node} (hk : s.get k = some n) (hn : n ≠ .dir) (h1 : ∀ p ∈ ps, ∀ i ∈ p.is, ∀ q, q <+: i.comps → k ≠ pathOf q)
    (h2 : ∀ p ∈ ps, ∀ f ∈ p.l, f.conf = true → k ≠ joinPath dest [f.path] ++ ".newconfig".toList) :
    (udeeds sha dest nm ⟨s, [], []⟩ ds).fs.get k = some n := by
  have listed : ∀ p ∈ ps, ∀ f ∈ p.l, k ≠ joinPath dest [f.path] := by
    intro p hpp f hf e
    obtain ⟨i, hi, he⟩ := (h.proper p hpp).lists.sub f hf
    exact h1 p hpp i hi _ List.prefix_rfl (e.trans he)
  have hy := uinv_start (sha := sha) (nm := nm) hw hr
  have hk : (USys.mk s [] []).fs.get k = some n := hk
  generalize USys.mk s [] [] = y at hy hk
  induction ds generalizing y with
  | nil => exact hk
  | cons d ds ih =>
    have hda := hd d (by simp)
    refine ih (fun x hx => hd x (by simp [hx])) _ (uinv_deed h hy hda) ?_
    cases d with
    | install b =>
      obtain ⟨l, _, hc, hr, _⟩ := inv_put h hy hda
      rw [hr.rest k (h1 b hda) (fun p hx e => ?_), hk]
      obtain ⟨g, hg, hcg, rfl⟩ := hc.changed hx
      exact h2 b hda g hg hcg e
    | remove a db pkg =>
      rcases (inv_take h hy hda db pkg).2.2.2.2 with e | ⟨_, g3⟩
      · rw [e]; exact hk
      · rcases remove_only_listed sha dest db pkg a.l y.fs _ g3 k (listed a hda) with e | ⟨e, _⟩
        · rw [e, hk]
        · rw [hk] at e
          exact absurd (Option.some.inj e) hn
    | edit a f text => rw [(inv_write h hy hda.1 hda.2.1 hda.2.2 text).2.2.2 k (listed a hda.1 f hda.2.1), hk]

end

/-- A new version of the package `hiA` of C214: another configuration file and one more file. -/
def hiA2 : Pack := ⟨[⟨"e/c".toList, true, some ['4'], false⟩, ⟨"b/v".toList, false, some ['5'], false⟩, ⟨"b/z".toList, false, some ['6'], false⟩],
  [⟨[['e']], .dir⟩, ⟨[['e'], ['c']], .file ['4']⟩, ⟨[['b']], .dir⟩, ⟨[['b'], ['v']], .file ['5']⟩, ⟨[['b'], ['z']], .file ['6']⟩], false⟩

/-- The names: `hiB` is another package. -/
def hiName (p : Pack) : Str := if p = hiB then ['B'] else ['A']

theorem hiA2_proper : Proper id ['/'] hiA2 := by
  refine ⟨⟨by decide, by unfold CompName; decide, by decide, by decide⟩, ⟨by decide, by decide⟩, by decide, ?_, ?_⟩
  · intro f hf hc i hi he
    have : ∀ f ∈ hiA2.l, f.conf = true → ∀ i ∈ hiA2.is, joinPath ['/'] [f.path] = pathOf i.comps → i.node = .file ['4'] ∧ f.hash = some ['4'] := by decide
    exact ⟨['4'], this f hf hc i hi he⟩
  · intro f hf hc j hj q hq
    have : ∀ f ∈ hiA2.l, f.conf = true → ∀ j ∈ hiA2.is, ∀ n ≤ j.comps.length, joinPath ['/'] [f.path] ++ ".old".toList ≠ pathOf (j.comps.take n) ∧
      joinPath ['/'] [f.path] ++ ".newconfig".toList ≠ pathOf (j.comps.take n) := by decide
    exact hi_take (P := fun q => joinPath ['/'] [f.path] ++ ".old".toList ≠ pathOf q ∧ joinPath ['/'] [f.path] ++ ".newconfig".toList ≠ pathOf q)
      (this f hf hc j hj) hq

theorem hiA2_room : Room ['/'] hiFS hiA2 := by
  refine ⟨⟨by decide, by decide, fun i hi q hq hne => ?_⟩, fun f hf hc => .inl ?_, by decide, by decide⟩
  · have : ∀ i ∈ hiA2.is, ∀ n ≤ i.comps.length, i.comps.take n ≠ i.comps →
      hiFS.get (pathOf (i.comps.take n)) = none ∨ hiFS.get (pathOf (i.comps.take n)) = some .dir := by decide
    exact hi_take (P := fun q => q ≠ i.comps → hiFS.get (pathOf q) = none ∨ hiFS.get (pathOf q) = some .dir) (this i hi) hq hne
  · have : ∀ f ∈ hiA2.l, f.conf = true → hiFS.get (joinPath ['/'] [f.path]) = none := by decide
    exact this f hf hc

theorem hi_names {a b : Pack} (h : ∀ f ∈ a.l, f.conf = true → ∀ j ∈ b.is, ∀ n ≤ j.comps.length,
    joinPath ['/'] [f.path] ++ ".old".toList ≠ pathOf (j.comps.take n) ∧ joinPath ['/'] [f.path] ++ ".newconfig".toList ≠ pathOf (j.comps.take n)) :
    ∀ f ∈ a.l, f.conf = true → ∀ j ∈ b.is, ∀ q, q <+: j.comps →
      joinPath ['/'] [f.path] ++ ".old".toList ≠ pathOf q ∧ joinPath ['/'] [f.path] ++ ".newconfig".toList ≠ pathOf q := fun f hf hc j hj _ hq =>
  hi_take (P := fun q => joinPath ['/'] [f.path] ++ ".old".toList ≠ pathOf q ∧ joinPath ['/'] [f.path] ++ ".newconfig".toList ≠ pathOf q)
    (h f hf hc j hj) hq

theorem hi_family : Family id ['/'] hiName [hiA, hiA2, hiB] := by
  have version : ∀ a b : Pack, (∀ f ∈ a.l, f.conf = true → ∀ j ∈ b.is, joinPath ['/'] [f.path] = pathOf j.comps → j.node ∈ [Node.file ['1'], .file ['4']]) →
      ∀ f ∈ a.l, f.conf = true → ∀ j ∈ b.is, joinPath ['/'] [f.path] = pathOf j.comps → ∃ c, j.node = .file c := by
    intro a b h f hf hc j hj he
    have := h f hf hc j hj he
    simp only [List.mem_cons, List.not_mem_nil, or_false] at this
    rcases this with e | e <;> exact ⟨_, e⟩
  have n1 : hiName hiA = ['A'] := by decide
  have n2 : hiName hiA2 = ['A'] := by decide
  have n3 : hiName hiB = ['B'] := by decide
  have nB : ∀ j : Pack, ∀ f ∈ hiB.l, f.conf = true → ∀ i ∈ j.is, ∀ n ≤ i.comps.length, joinPath ['/'] [f.path] ++ ".old".toList ≠ pathOf (i.comps.take n) ∧
      joinPath ['/'] [f.path] ++ ".newconfig".toList ≠ pathOf (i.comps.take n) := by
    intro j f hf hc
    exact absurd hc (by rw [List.mem_singleton.mp hf]; decide)
  refine ⟨?_, by decide, ?_, ?_⟩
  · intro p hp
    simp only [List.mem_cons, List.not_mem_nil, or_false] at hp
    rcases hp with rfl | rfl | rfl
    · exact hiA_proper
    · exact hiA2_proper
    · exact hiB_proper
  · intro a ha b hb hne
    simp only [List.mem_cons, List.not_mem_nil, or_false] at ha hb
    rcases ha with rfl | rfl | rfl <;> rcases hb with rfl | rfl | rfl <;> simp only [n1, n2, n3, ne_eq, not_true_eq_false] at hne
    · exact ⟨by decide, hi_names (by decide)⟩
    · exact ⟨by decide, hi_names (by decide)⟩
    · exact ⟨by decide, hi_names (nB _)⟩
    · exact ⟨by decide, hi_names (nB _)⟩
  · intro a ha b hb he hne
    simp only [List.mem_cons, List.not_mem_nil, or_false] at ha hb
    rcases ha with rfl | rfl | rfl <;> rcases hb with rfl | rfl | rfl <;> simp only [n1, n2, n3, ne_eq, not_true_eq_false] at hne he
    · exact ⟨by decide, by decide, version _ _ (by decide), hi_names (by decide)⟩
    · exact absurd he (by decide)
    · exact ⟨by decide, by decide, version _ _ (by decide), hi_names (by decide)⟩
    · exact absurd he (by decide)
    · exact absurd he (by decide)
    · exact absurd he (by decide)

theorem hi_room : ∀ p ∈ [hiA, hiA2, hiB], Room ['/'] hiFS p := by
  intro p hp
  simp only [List.mem_cons, List.not_mem_nil, or_false] at hp
  rcases hp with rfl | rfl | rfl
  · exact hiA_room
  · exact hiA2_room
  · exact hiB_room

theorem hi_wf : WF hiFS := wf_check (by decide) (by decide)

/-- The hypotheses of `upgrades_partial` can be met: whatever is done with the versions. -/
example (ds : List Deed) (hd : ∀ d ∈ ds, d.About [hiA, hiA2, hiB]) : ∀ p ∈ (udeeds id ['/'] hiName ⟨hiFS, [], []⟩ ds).inst,
    hiName p ∉ (udeeds id ['/'] hiName ⟨hiFS, [], []⟩ ds).failed → Whole ['/'] (udeeds id ['/'] hiName ⟨hiFS, [], []⟩ ds).fs p :=
  fun p hp => ((upgrades_partial hi_wf hi_family hi_room ds hd).1 p hp).2.1

/-- **C219 is false of the code**: going back to the old version fails, for it drops a file. -/
theorem upgrades_refuted : ¬ UpgradesFull := by
  intro h
  have hds : ∀ d ∈ [Deed.install hiA2, .install hiA], d.About [hiA, hiA2, hiB] := by
    intro d hd
    simp only [List.mem_cons, List.not_mem_nil, or_false] at hd
    rcases hd with rfl | rfl
    · exact List.mem_cons_of_mem _ List.mem_cons_self
    · exact List.mem_cons_self
  have hf := (h id ['/'] hiName _ hiFS hi_wf hi_family hi_room _ hds).1
  have hy := uinv_deed hi_family (uinv_start (sha := id) (nm := hiName) hi_wf hi_room) (hds (.install hiA2) (by simp))
  have hin : hiA2 ∈ (udeed id ['/'] hiName ⟨hiFS, [], []⟩ (.install hiA2)).inst := by
    rw [upgrades_inst hi_family (uinv_start hi_wf hi_room) (by simp), if_neg]
    · exact .inl rfl
    · rw [upgrade_fails_iff hi_family (uinv_start hi_wf hi_room) (by simp)]
      rintro ⟨_, hx, _⟩
      cases hx
  have hin2 := (upgrade_fails_iff hi_family hy (b := hiA) (by simp)).mpr
    ⟨hiA2, hin, by decide, ⟨"b/z".toList, false, some ['6'], false⟩, by decide, by decide⟩
  have : udeeds id ['/'] hiName ⟨hiFS, [], []⟩ [.install hiA2, .install hiA] =
    udeed id ['/'] hiName (udeed id ['/'] hiName ⟨hiFS, [], []⟩ (.install hiA2)) (.install hiA) := rfl
  rw [this] at hf
  rw [hf] at hin2
  cases hin2

end Pisi.FS
