import Verif.Spec.CrashHistory
import Verif.Props.Interrupted
import Verif.Props.RemoveAgain

/-!
# C225: histories with interruptions
-/
namespace Pisi.FS
open Pisi.Path

section
variable {sha : Str → Str} {dest : Str} {s c t : FS} {ps : List Pack} {a b p : Pack}

/-- What may be, while one package is installed, at a place of another one. -/
theorem Allowed.other (pa : Proper sha dest a) (pb : Proper sha dest b) (h1 : Beside dest a b) (h2 : Beside dest b a) {j : Item} (hj : j ∈ b.is)
    {q : List Str} (hq : q <+: j.comps) {v : Option Node} (h : Allowed dest a (pathOf q) v) : v = some .dir ∧ (q ≠ j.comps ∨ j.node = .dir) := by
  have hqn : ∀ x ∈ q, CompName x := fun x hx => pb.sound.names j hj x (hq.subset hx)
  have file : ∀ i ∈ a.is, pathOf q = pathOf i.comps → i.node = .dir := by
    intro i hi e
    exact h1.dirs i hi j hj (pathOf_inj hqn (pa.sound.names i hi) e ▸ hq)
  rcases h with ⟨i, hi, r, hr, _, e, hv⟩ | ⟨i, hi, hn, e, _⟩ | ⟨f, hf, hc, e, _⟩
  · have e := pathOf_inj hqn (fun x hx => pa.sound.names i hi x (hr.subset hx)) e
    refine ⟨hv, ?_⟩
    by_cases e' : q = j.comps
    · exact .inr (h2.dirs j hj i hi (e' ▸ e ▸ hr))
    · exact .inl e'
  · exact absurd (file i hi e) hn
  · have names := h1.names f hf hc j hj q hq
    rw [dotOld_eq, dotNew_eq] at names
    rcases e with e | e | e
    · obtain ⟨i, hi, ei, x, hx, _⟩ := pa.member hf hc
      have := file i hi (e.trans ei)
      rw [hx] at this
      cases this
    · exact absurd e.symm names.1
    · exact absurd e.symm names.2

/-- And at the names under which its configuration files are kept. -/
theorem Allowed.other_name (h2 : Beside dest b a) {f : FileInfo} (hf : f ∈ b.l) (hc : f.conf = true) {k : Str}
    (hk : k = dotOld (joinPath dest [f.path]) ∨ k = dotNew (joinPath dest [f.path])) {v : Option Node} (h : Allowed dest a k v) :
    v = none ∨ ∃ c, v = some (.file c) := by
  have names : ∀ i ∈ a.is, ∀ q, q <+: i.comps → k ≠ pathOf q := by
    intro i hi q hq
    have := h2.names f hf hc i hi q hq
    rcases hk with rfl | rfl
    · exact this.1
    · exact this.2
  rcases h with ⟨j, hj, r, hr, _, e, _⟩ | ⟨j, hj, _, e, _⟩ | ⟨_, _, _, _, hv⟩
  · exact absurd e (names j hj r hr)
  · exact absurd e (names j hj _ List.prefix_rfl)
  · exact hv

/-- Room for one package is left at each step of the installation of another one. -/
theorem RoomOver.other (pa : Proper sha dest a) (pb : Proper sha dest b) (h1 : Beside dest a b) (h2 : Beside dest b a) (hr : RoomOver dest s b)
    (h : Mid dest a s c) : RoomOver dest c b := by
  refine ⟨⟨fun i hi hd => ?_, fun i hi hd => ?_, fun i hi q hq hne => ?_⟩, fun f hf hc => ?_, fun f hf hc => ?_, fun f hf hc => ?_⟩
  · rcases h.at_ (pathOf i.comps) with e | e
    · rw [e]; exact hr.isOpen.dir i hi hd
    · exact .inr (e.other pa pb h1 h2 hi List.prefix_rfl).1
  · rcases h.at_ (pathOf i.comps) with e | e
    · rw [e]; exact hr.isOpen.nodir i hi hd
    · rcases (e.other pa pb h1 h2 hi List.prefix_rfl).2 with h | h
      · exact absurd rfl h
      · exact absurd h hd
  · rcases h.at_ (pathOf q) with e | e
    · rw [e]; exact hr.isOpen.way i hi q hq hne
    · exact .inr (e.other pa pb h1 h2 hi hq).1
  · obtain ⟨i, hi, ei, x, hx, _⟩ := pb.member hf hc
    rcases h.at_ (joinPath dest [f.path]) with e | e
    · rw [e]; exact hr.plain f hf hc
    · rw [ei] at e
      rcases (e.other pa pb h1 h2 hi List.prefix_rfl).2 with h | h
      · exact absurd rfl h
      · rw [hx] at h; cases h
  · rcases h.at_ (joinPath dest [f.path] ++ ".old".toList) with e | e
    · rw [e]; exact hr.oldFile f hf hc
    · exact e.other_name h2 hf hc (.inl rfl)
  · rcases h.at_ (joinPath dest [f.path] ++ ".newconfig".toList) with e | e
    · rw [e]; exact hr.newFree f hf hc
    · rcases e.other_name h2 hf hc (.inr rfl) with e | ⟨x, e⟩ <;> rw [e] <;> exact fun h => by cases h

/-- And of its own. -/
theorem RoomOver.self (pa : Proper sha dest a) (hr : RoomOver dest s a) (h : Mid dest a s c) : RoomOver dest c a :=
  ⟨h.open pa hr, fun _ hf hc => h.plain pa hr hf hc, fun _ hf hc => h.oldFile pa hr hf hc, fun _ hf hc => h.newFile pa hr hf hc⟩

/-- Where things are only taken away. -/
theorem RoomOver.less (hb : RoomOver dest s b) (h : ∀ k, c.get k = s.get k ∨ c.get k = none) : RoomOver dest c b := by
  refine ⟨⟨fun i hi hd => ?_, fun i hi hd => ?_, fun i hi q hq hne => ?_⟩, fun f hf hc => ?_, fun f hf hc => ?_, fun f hf hc => ?_⟩
  · rcases h (pathOf i.comps) with e | e
    · rw [e]; exact hb.isOpen.dir i hi hd
    · exact .inl e
  · rcases h (pathOf i.comps) with e | e
    · rw [e]; exact hb.isOpen.nodir i hi hd
    · rw [e]; exact fun e => by cases e
  · rcases h (pathOf q) with e | e
    · rw [e]; exact hb.isOpen.way i hi q hq hne
    · exact .inl e
  · rcases h (joinPath dest [f.path]) with e | e
    · rw [e]; exact hb.plain f hf hc
    · exact .inl e
  · rcases h (joinPath dest [f.path] ++ ".old".toList) with e | e
    · rw [e]; exact hb.oldFile f hf hc
    · exact .inl e
  · rcases h (joinPath dest [f.path] ++ ".newconfig".toList) with e | e
    · rw [e]; exact hb.newFree f hf hc
    · rw [e]; exact fun e => by cases e

/-- Where the text of a file is changed. -/
theorem RoomOver.text (hb : RoomOver dest s b) {k x x' : Str} (hk : s.get k = some (.file x)) : RoomOver dest (s.put k (.file x')) b := by
  have get : ∀ y, Dict.get (s.put k (.file x')) y = if k = y then some (.file x') else s.get y := fun y => Dict.get_put ..
  have same : ∀ y, (∀ d, s.get y ≠ some (.file d)) → Dict.get (s.put k (.file x')) y = s.get y := fun y hy => by
    rw [get, if_neg]
    rintro rfl
    exact hy x hk
  refine ⟨⟨fun i hi hd => ?_, fun i hi hd => ?_, fun i hi q hq hne => ?_⟩, fun f hf hc => ?_, fun f hf hc => ?_, fun f hf hc => ?_⟩
  · have := hb.isOpen.dir i hi hd
    rw [same _ (fun d e => by rcases this with g | g <;> rw [g] at e <;> cases e)]
    exact this
  · rw [get]
    split
    · exact fun e => by cases e
    · exact hb.isOpen.nodir i hi hd
  · have := hb.isOpen.way i hi q hq hne
    rw [same _ (fun d e => by rcases this with g | g <;> rw [g] at e <;> cases e)]
    exact this
  · rw [get]
    split
    · exact .inr ⟨x', rfl⟩
    · exact hb.plain f hf hc
  · rw [get]
    split
    · exact .inr ⟨x', rfl⟩
    · exact hb.oldFile f hf hc
  · rw [get]
    split
    · exact fun e => by cases e
    · exact hb.newFree f hf hc

/-- What holds after every turn. -/
structure ShakyInv (dest : Str) (ps : List Pack) (y : Shaky) : Prop where
  wf : WF y.fs
  room : ∀ p ∈ ps, RoomOver dest y.fs p
  known : ∀ p ∈ y.inst, p ∈ ps
  whole : ∀ p ∈ y.inst, p ∉ y.cut → Whole dest y.fs p

/-- A package stays whole while another one is installed. -/
theorem Whole.other (pa : Proper sha dest a) (pb : Proper sha dest b) (h1 : Beside dest a b) (h2 : Beside dest b a) (hw : Whole dest s b)
    (h : Mid dest a s c) : Whole dest c b := by
  intro f hf hcf i hi he hd
  rcases h.at_ (pathOf i.comps) with e | e
  · rw [e]; exact hw f hf hcf i hi he hd
  · rcases (e.other pa pb h1 h2 hi List.prefix_rfl).2 with h | h
    · exact absurd rfl h
    · exact absurd h hd

/-- And while it is removed. -/
theorem Whole.down (h : PackSet sha dest ps) (ha : a ∈ ps) (hb : b ∈ ps) (hne : b ≠ a) {db : DB.FilesDB Str Nat Unit} {pkg : Nat}
    (hw : Whole dest s b) (hd : Down sha dest db pkg a.l s c) : Whole dest c b := by
  intro f hf hcf i hi he hid
  have hs := hw f hf hcf i hi he hid
  rcases hd.at_ (pathOf i.comps) with e | ⟨_, ⟨e, _⟩ | ⟨_, _, _, g, hg, e, _⟩⟩
  · rw [e]; exact hs
  · rw [hs] at e
    exact absurd (Option.some.inj e) hid
  · obtain ⟨j, hj, hje⟩ := (h.proper a ha).lists.sub g hg
    exact absurd (e.symm.trans hje) (h.apartFile hb ha hne hi hj hid)

theorem old_cases (y : Shaky) (p : Pack) : (if p ∈ y.inst then some p.l else none) = none ∨ (if p ∈ y.inst then some p.l else none) = some p.l := by
  by_cases h : p ∈ y.inst
  · exact .inr (if_pos h)
  · exact .inl (if_neg h)

theorem ps_root (pa : Proper sha dest a) : ∀ f ∈ a.l, joinPath dest [f.path] ≠ ['/'] := fun f hf e => by
  obtain ⟨i, hi, he⟩ := pa.lists.sub f hf
  exact pa.sound.ne i hi (pathOf_inj (pa.sound.names i hi) (by simp) ((he.symm.trans e).trans rfl))

theorem room_straight (hr : RoomOver dest s a) : Straight dest a.l s := fun f hf hc t e => by
  rcases hr.plain f hf hc with g | ⟨x, g⟩ <;> rw [g] at e <;> cases e

/-- All states of an installation. -/
theorem ShakyInv.mid (h : PackSet sha dest ps) {y : Shaky} (hy : ShakyInv dest ps y) (ha : a ∈ ps) (hm : Mid dest a y.fs c) :
    WF c ∧ (∀ p ∈ ps, RoomOver dest c p) ∧ ∀ p ∈ y.inst, p ∉ y.cut → p ≠ a → Whole dest c p := by
  have pa := h.proper a ha
  refine ⟨hm.wf, fun b hb => ?_, fun b hb hc hne => ?_⟩
  · by_cases e : a = b
    · subst e; exact (hy.room a ha).self pa hm
    · exact (hy.room b hb).other pa (h.proper b hb) (h.apart ha hb e).1 (h.apart ha hb e).2 hm
  · have hbp := hy.known b hb
    exact (hy.whole b hb hc).other pa (h.proper b hbp) (h.apart ha hbp (Ne.symm hne)).1 (h.apart ha hbp (Ne.symm hne)).2 hm

/-- And of a removal. -/
theorem ShakyInv.down (h : PackSet sha dest ps) {y : Shaky} (hy : ShakyInv dest ps y) (ha : a ∈ ps) {db : DB.FilesDB Str Nat Unit} {pkg : Nat}
    (hd : Down sha dest db pkg a.l y.fs c) :
    WF c ∧ (∀ p ∈ ps, RoomOver dest c p) ∧ ∀ p ∈ y.inst, p ∉ y.cut → p ≠ a → Whole dest c p :=
  ⟨hd.wf, fun b hb => (hy.room b hb).less fun k => (hd.at_ k).imp id And.left,
    fun b hb hc hne => (hy.whole b hb hc).down h ha (hy.known b hb) hne hd⟩

/-- Any package can be installed, and then it is whole. -/
theorem shaky_install (h : PackSet sha dest ps) {y : Shaky} (hy : ShakyInv dest ps y) (ha : a ∈ ps) :
    ∃ t, (extractInstall sha dest (if a ∈ y.inst then some a.l else none) a.l (a.is.map Item.entry) y.fs).2 = .ok t ∧
      Mid dest a y.fs t ∧ Whole dest t a := by
  have pa := h.proper a ha
  have hr := hy.room a ha
  obtain ⟨t, ht, ho⟩ := (Mid.start hy.wf).install pa hr (old_cases y a)
  refine ⟨t, ht, (install_mid pa hr (old_cases y a) (Mid.start hy.wf)).2 t ht, fun f hf hcf i hi he _ => ho.repaired i hi ?_⟩
  rintro ⟨g, hg, hcg, hpg, _⟩
  have := pa.once f hf g hg (he.trans hpg.symm)
  rw [this, hcg] at hcf
  cases hcf

/-- Any package can be removed. -/
theorem shaky_remove (h : PackSet sha dest ps) {y : Shaky} (hy : ShakyInv dest ps y) (ha : a ∈ ps) (db : DB.FilesDB Str Nat Unit) (pkg : Nat) :
    ∃ t, removeFiles sha dest db pkg a.l y.fs = .ok t ∧ Down sha dest db pkg a.l y.fs t ∧
      ∀ k n, n ≠ .dir → y.fs.get k = some n → Goes sha dest db pkg a.l k n → t.get k = none :=
  (Down.start hy.wf).remove (ps_root (h.proper a ha)) (room_straight (hy.room a ha))

theorem ShakyInv.turn (h : PackSet sha dest ps) {y z : Shaky} (hy : ShakyInv dest ps y) (hz : Turn sha dest ps y z) : ShakyInv dest ps z := by
  have mem_ne : ∀ (l : List Pack) (a b : Pack), b ∈ l.filter (· ≠ a) ↔ b ∈ l ∧ b ≠ a := fun l a b => by simp [List.mem_filter]
  cases hz with
  | @install a t ha ht =>
    obtain ⟨t', ht', hm, hw⟩ := shaky_install h hy ha
    rw [ht] at ht'
    cases ht'
    obtain ⟨g1, g2, g3⟩ := hy.mid h ha hm
    refine ⟨g1, g2, fun b hb => ?_, fun b hb hc => ?_⟩
    · rcases List.mem_cons.mp hb with e | hb
      · rw [e]; exact ha
      · exact hy.known b hb
    · by_cases e : b = a
      · rw [e]; exact hw
      · exact g3 b ((List.mem_cons.mp hb).resolve_left e) (fun h => hc ((mem_ne _ _ _).mpr ⟨h, e⟩)) e
  | @cutInstall a c ha hc =>
    have hm := (install_mid (h.proper a ha) (hy.room a ha) (old_cases y a) (Mid.start hy.wf)).1 c hc
    obtain ⟨g1, g2, g3⟩ := hy.mid h ha hm
    refine ⟨g1, g2, hy.known, fun b hb hbc => ?_⟩
    simp only [List.mem_cons, not_or] at hbc
    exact g3 b hb hbc.2 hbc.1
  | @remove a t db pkg ha ht =>
    obtain ⟨t', ht', hd, _⟩ := shaky_remove h hy (hy.known a ha) db pkg
    rw [ht] at ht'
    cases ht'
    obtain ⟨g1, g2, g3⟩ := hy.down h (hy.known a ha) hd
    refine ⟨g1, g2, fun b hb => hy.known b ((mem_ne _ _ _).mp hb).1, fun b hb hc => ?_⟩
    obtain ⟨hb, hne⟩ := (mem_ne _ _ _).mp hb
    exact g3 b hb (fun h => hc ((mem_ne _ _ _).mpr ⟨h, hne⟩)) hne
  | @cutRemove a c db pkg ha hc =>
    have pa := h.proper a (hy.known a ha)
    have hd := (removeFiles_down (room_straight (hy.room a (hy.known a ha))) a.l y.fs (fun f hf => ⟨hf, ps_root pa f hf⟩)
      (Down.start (db := db) (pkg := pkg) (sha := sha) hy.wf)).1 c hc
    obtain ⟨g1, g2, g3⟩ := hy.down h (hy.known a ha) hd
    refine ⟨g1, g2, hy.known, fun b hb hbc => ?_⟩
    simp only [List.mem_cons, not_or] at hbc
    exact g3 b hb hbc.2 hbc.1
  | @edit a f old text ha hf hc e =>
    have pa := h.proper a ha
    refine ⟨hy.wf.text e, fun b hb => (hy.room b hb).text e, hy.known, fun b hb hbc => ?_⟩
    intro g hg hcg i hi he hd
    rw [← hy.whole b hb hbc g hg hcg i hi he hd]
    show Dict.get (y.fs.put _ _) _ = _
    rw [Dict.get_put, if_neg]
    intro e'
    obtain ⟨j, hj, hje⟩ := pa.lists.sub f hf
    by_cases eb : b = a
    · subst eb
      have := pa.once f hf g hg (e'.trans he.symm)
      rw [this, hcg] at hc
      cases hc
    · exact h.apartFile (hy.known b hb) ha eb hi hj hd (e'.symm.trans hje)

theorem ShakyInv.turns (h : PackSet sha dest ps) {y z : Shaky} (hy : ShakyInv dest ps y) (hz : Turns sha dest ps y z) : ShakyInv dest ps z := by
  induction hz with
  | none => exact hy
  | more _ hz ih => exact ih.turn h hz

theorem ShakyInv.start (hw : WF s) (hp : ∀ p ∈ ps, Proper sha dest p ∧ RoomOver dest s p) : ShakyInv dest ps ⟨s, [], []⟩ :=
  ⟨hw, fun p h => (hp p h).2, fun _ h => by simp at h, fun _ h => by simp at h⟩

/-- **C225.**  Packages that have only directories in common, any history of installations, removals and changes of configuration files,
with interruptions anywhere: the packages that are installed, and with which nothing was interrupted since they were last installed, are
whole; every package can be installed, and is whole then; every one can be removed, and then all of its files and links that are to go are
gone. -/
theorem crash_history (hw : WF s) (hp : ∀ p ∈ ps, Proper sha dest p ∧ RoomOver dest s p)
    (hb : ps.Pairwise (fun a b => Beside dest a b ∧ Beside dest b a)) {y : Shaky} (hy : Turns sha dest ps ⟨s, [], []⟩ y) :
    (∀ p ∈ y.inst, p ∉ y.cut → Whole dest y.fs p) ∧
    (∀ p ∈ ps, ∃ t, Turn sha dest ps y ⟨t, p :: y.inst, y.cut.filter (· ≠ p)⟩ ∧ Whole dest t p) ∧
    ∀ p ∈ y.inst, ∀ (db : DB.FilesDB Str Nat Unit) (pkg : Nat), ∃ t, removeFiles sha dest db pkg p.l y.fs = .ok t ∧
      Turn sha dest ps y ⟨t, y.inst.filter (· ≠ p), y.cut.filter (· ≠ p)⟩ ∧
      ∀ k n, n ≠ .dir → y.fs.get k = some n → Goes sha dest db pkg p.l k n → t.get k = none := by
  have h : PackSet sha dest ps := ⟨fun p h => (hp p h).1, hb⟩
  have hi := (ShakyInv.start hw hp).turns h hy
  refine ⟨hi.whole, fun p hps => ?_, fun p hpi db pkg => ?_⟩
  · obtain ⟨t, ht, _, hwh⟩ := shaky_install h hi hps
    exact ⟨t, .install hps ht, hwh⟩
  · obtain ⟨t, ht, _, hg⟩ := shaky_remove h hi (hi.known p hpi) db pkg
    exact ⟨t, ht, .remove db pkg hpi ht, hg⟩

/-- So the check finds them intact. -/
theorem crash_intact (hw : WF s) (hp : ∀ p ∈ ps, Proper sha ['/'] p ∧ RoomOver ['/'] s p)
    (hb : ps.Pairwise (fun a b => Beside ['/'] a b ∧ Beside ['/'] b a)) (hh : ∀ p ∈ ps, Honest sha ['/'] p.l p.is) {y : Shaky}
    (hy : Turns sha ['/'] ps ⟨s, [], []⟩ y) : ∀ p ∈ y.inst, p ∉ y.cut → checkFiles sha y.fs p.l = .ok [] := by
  have h : PackSet sha ['/'] ps := ⟨fun p h => (hp p h).1, hb⟩
  have hi := (ShakyInv.start hw hp).turns h hy
  exact fun p hpi hc => check_whole (hp p (hi.known p hpi)).1.lists (hh p (hi.known p hpi)) (hi.whole p hpi hc)

/-- And files and links that are of no package stay. -/
theorem crash_frame (hw : WF s) (hp : ∀ p ∈ ps, Proper sha dest p ∧ RoomOver dest s p)
    (hb : ps.Pairwise (fun a b => Beside dest a b ∧ Beside dest b a)) {y : Shaky} (hy : Turns sha dest ps ⟨s, [], []⟩ y) {k : Str} {n : Node}
    (hk : s.get k = some n) (hn : n ≠ .dir) (hown : ∀ p ∈ ps, ¬ p.Own dest k) : y.fs.get k = some n := by
  have h : PackSet sha dest ps := ⟨fun p h => (hp p h).1, hb⟩
  have listed : ∀ p ∈ ps, ∀ f ∈ p.l, joinPath dest [f.path] ≠ k := by
    intro p hpp f hf e
    obtain ⟨i, hi, he⟩ := (hp p hpp).1.lists.sub f hf
    exact hown p hpp (.inl ⟨i, hi, _, List.prefix_rfl, e.symm.trans he⟩)
  have start := ShakyInv.start hw hp
  induction hy with
  | none => exact hk
  | @more z w hz ht ih =>
    have hi := start.turns h hz
    have down : ∀ a ∈ ps, ∀ (db : DB.FilesDB Str Nat Unit) (pkg : Nat) (c : FS), Down sha dest db pkg a.l z.fs c → c.get k = some n := by
      intro a ha db pkg c hd
      rcases hd.at_ k with e | ⟨_, ⟨e, _⟩ | ⟨_, _, _, g, hg, e, _⟩⟩
      · rw [e]; exact ih
      · rw [ih] at e
        exact absurd (Option.some.inj e) hn
      · exact absurd e (listed a ha g hg)
    cases ht with
    | @install a t ha ht =>
      obtain ⟨t', ht', hm, _⟩ := shaky_install h hi ha
      rw [ht] at ht'
      cases ht'
      exact (hm.rest (h.proper a ha) (hown a ha)).trans ih
    | @cutInstall a c ha hc =>
      exact ((install_mid (h.proper a ha) (hi.room a ha) (old_cases z a) (Mid.start hi.wf)).1 c hc).rest (h.proper a ha) (hown a ha) |>.trans ih
    | @remove a t db pkg ha ht =>
      obtain ⟨t', ht', hd, _⟩ := shaky_remove h hi (hi.known a ha) db pkg
      rw [ht] at ht'
      cases ht'
      exact down a (hi.known a ha) db pkg t hd
    | @cutRemove a c db pkg ha hc =>
      exact down a (hi.known a ha) db pkg c ((removeFiles_down (room_straight (hi.room a (hi.known a ha))) a.l z.fs
        (fun f hf => ⟨hf, ps_root (h.proper a (hi.known a ha)) f hf⟩) (Down.start hi.wf)).1 c hc)
    | @edit a f old text ha hf hc e =>
      show Dict.get (z.fs.put _ _) _ = _
      rw [Dict.get_put, if_neg (listed a ha f hf)]
      exact ih

/-- What the user has written into a configuration file stays there, whatever happens to other packages and is done to its end with its
own, until they change it. -/
theorem crash_conf (hw : WF s) (hp : ∀ p ∈ ps, Proper sha dest p ∧ RoomOver dest s p)
    (hb : ps.Pairwise (fun a b => Beside dest a b ∧ Beside dest b a)) {y z : Shaky} (hy : Turns sha dest ps ⟨s, [], []⟩ y)
    (hz : Turn sha dest ps y z) (hbp : b ∈ ps) {f : FileInfo} (hf : f ∈ b.l) (hc : f.conf = true) {x : Str}
    (hk : y.fs.get (joinPath dest [f.path]) = some (.file x)) (hh : f.hash ≠ some (sha x)) (hcut : b ∉ z.cut)
    (hed : ∀ text, z = { y with fs := y.fs.put (joinPath dest [f.path]) (.file text) } → text = x) :
    z.fs.get (joinPath dest [f.path]) = some (.file x) := by
  have h : PackSet sha dest ps := ⟨fun p h => (hp p h).1, hb⟩
  have hi := (ShakyInv.start hw hp).turns h hy
  have pb := h.proper b hbp
  obtain ⟨i, hib, ei, v, hv, _⟩ := pb.member hf hc
  have other : ∀ a ∈ ps, a ≠ b → ∀ c, Mid dest a y.fs c → c.get (joinPath dest [f.path]) = some (.file x) := by
    intro a ha hne c hm
    rcases hm.at_ (joinPath dest [f.path]) with e | e
    · rw [e]; exact hk
    · rw [ei] at e
      rcases (e.other (h.proper a ha) pb (h.apart ha hbp hne).1 (h.apart ha hbp hne).2 hib List.prefix_rfl).2 with g | g
      · exact absurd rfl g
      · rw [hv] at g; cases g
  have down : ∀ a ∈ ps, ∀ (db : DB.FilesDB Str Nat Unit) (pkg : Nat) (c : FS), Down sha dest db pkg a.l y.fs c →
      c.get (joinPath dest [f.path]) = some (.file x) := by
    intro a ha db pkg c hd
    rcases hd.at_ (joinPath dest [f.path]) with e | ⟨_, ⟨e, _⟩ | ⟨n, _, e, g, hg, eg, _, _, hgo⟩⟩
    · rw [e]; exact hk
    · rw [hk] at e; cases e
    · rw [hk] at e
      cases e
      by_cases hab : a = b
      · subst hab
        rw [pb.once g hg f hf eg] at hgo
        obtain ⟨x', e, hx⟩ := hgo hc
        cases e
        exact absurd hx hh
      · obtain ⟨j, hj, hje⟩ := (h.proper a ha).lists.sub g hg
        exact absurd (ei.symm.trans (eg.symm.trans hje)) (h.apartFile hbp ha (Ne.symm hab) hib hj (by rw [hv]; simp))
  cases hz with
  | @install a t ha ht =>
    by_cases hab : a = b
    · subst hab
      obtain ⟨t', ht', ho⟩ := (Mid.start hi.wf).install pb (hi.room a ha) (old_cases y a)
      rw [ht] at ht'
      cases ht'
      exact (ho.kept _ ⟨f, hf, hc, rfl, x, hk, hh⟩).trans hk
    · obtain ⟨t', ht', hm, _⟩ := shaky_install h hi ha
      rw [ht] at ht'
      cases ht'
      exact other a ha hab t hm
  | @cutInstall a c ha hc' =>
    by_cases hab : a = b
    · subst hab
      exact absurd List.mem_cons_self hcut
    · exact other a ha hab c ((install_mid (h.proper a ha) (hi.room a ha) (old_cases y a) (Mid.start hi.wf)).1 c hc')
  | @remove a t db pkg ha ht =>
    obtain ⟨t', ht', hd, _⟩ := shaky_remove h hi (hi.known a ha) db pkg
    rw [ht] at ht'
    cases ht'
    exact down a (hi.known a ha) db pkg t hd
  | @cutRemove a c db pkg ha hc' =>
    exact down a (hi.known a ha) db pkg c ((removeFiles_down (room_straight (hi.room a (hi.known a ha))) a.l y.fs
      (fun f hf => ⟨hf, ps_root (h.proper a (hi.known a ha)) f hf⟩) (Down.start hi.wf)).1 c hc')
  | @edit a g old text ha hg hc' e =>
    show Dict.get (y.fs.put _ _) _ = _
    rw [Dict.get_put]
    split
    · rename_i e'
      rw [hed text (by rw [e'])]
    · exact hk

end

/-- The hypotheses can be met, by a history with an interruption: the second package is installed, and installing the first is interrupted. -/
example : ∃ y, Turns id ['/'] [hiA, hiB] ⟨hiFS, [], []⟩ y ∧ y.inst = [hiB] ∧ y.cut = [hiA] ∧ checkFiles id y.fs hiB.l = .ok [] := by
  have all : ∀ p ∈ [hiA, hiB], Proper id ['/'] p ∧ RoomOver ['/'] hiFS p := fun p hp => ⟨(hi_all p hp).1, (hi_all p hp).2.over⟩
  have h : PackSet id ['/'] [hiA, hiB] := ⟨fun p h => (hi_all p h).1, hi_beside⟩
  have wf : WF hiFS := wf_check (by decide) (by decide)
  obtain ⟨t, ht, _⟩ := shaky_install h (ShakyInv.start wf all) (a := hiB) (by simp)
  have t1 : Turns id ['/'] [hiA, hiB] ⟨hiFS, [], []⟩ ⟨t, [hiB], []⟩ := .more .none (.install (by simp) ht)
  have hc : ((extractInstall id ['/'] none hiA.l (hiA.is.map Item.entry) t).1.head?).isSome = true := by
    have : (extractInstall id ['/'] none hiB.l (hiB.is.map Item.entry) hiFS).2.toOption.any (fun t =>
      (extractInstall id ['/'] none hiA.l (hiA.is.map Item.entry) t).1.head?.isSome) = true := by decide +kernel
    have ht : (extractInstall id ['/'] none hiB.l (hiB.is.map Item.entry) hiFS).2 = .ok t := ht
    rw [ht] at this
    simpa only [Except.toOption, Option.any_some] using this
  obtain ⟨c, hc⟩ := Option.isSome_iff_exists.mp hc
  have hne : hiA ∉ [hiB] := by decide
  have t2 : Turns id ['/'] [hiA, hiB] ⟨hiFS, [], []⟩ ⟨c, [hiB], [hiA]⟩ := .more t1 (.cutInstall (by simp) (by
    show c ∈ (extractInstall id ['/'] (if hiA ∈ [hiB] then some hiA.l else none) hiA.l (hiA.is.map Item.entry) t).1
    rw [if_neg hne]
    exact List.mem_of_head? hc))
  refine ⟨_, t2, rfl, rfl, check_whole (hi_all hiB (by simp)).1.lists ?_ ((crash_history wf all hi_beside t2).1 hiB (by simp) (show hiB ∉ [hiA] by decide))⟩
  refine ⟨by decide, fun f hf i hi he c hn => ?_, by decide⟩
  have : ∀ f ∈ hiB.l, ∀ i ∈ hiB.is, joinPath ['/'] [f.path] = pathOf i.comps → f.hash.map Node.file = some i.node := by decide
  have := this f hf i hi he
  rw [hn] at this
  obtain ⟨x, e1, e2⟩ := Option.map_eq_some_iff.mp this
  cases e2
  exact e1

end Pisi.FS
