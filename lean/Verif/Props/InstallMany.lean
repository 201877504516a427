import Verif.Spec.InstallMany
import Verif.Props.UpgradeFiles

/-!
# C213: installing several packages
-/
namespace Pisi.FS
open Pisi.Path

section
variable {sha : Str → Str} {dest : Str} {s t u : FS}

theorem strict_ne {q p : List Str} (hq : q <+: p) (hne : q ≠ p) : ∃ b c, p = b ++ [c] ∧ q <+: b := by
  rcases List.eq_nil_or_concat p with rfl | ⟨b, c, e⟩
  · exact absurd (List.prefix_nil.mp hq) hne
  · rw [List.concat_eq_append] at e
    subst e
    exact ⟨b, c, rfl, strict_snoc hq hne⟩

/-- An installation leaves a proper file system. -/
theorem Reinstalled.wf {l : List FileInfo} {is : List Item} (hw : WF s) (hs : Sound is) (hl : Lists dest l is) (ho : Open is s)
    (hk : Keepable sha dest l is s) (h : Reinstalled sha dest l is s t) : WF t := by
  -- directories that were there stay
  have keep : ∀ d, s.get d = some .dir → t.get d = some .dir := by
    intro d hd
    by_cases hp : ∃ i ∈ is, ∃ q, q <+: i.comps ∧ d = pathOf q
    · obtain ⟨i, hi, q, hq, rfl⟩ := hp
      by_cases e : q = i.comps
      · subst e
        have hnc : ¬ Changed sha dest l s (pathOf i.comps) := fun hc => by
          obtain ⟨c, hc⟩ := hc.file
          rw [hd] at hc; cases hc
        rw [h.repaired i hi hnc]
        by_cases hdir : i.node = .dir
        · rw [hdir]
        · exact absurd hd (ho.nodir i hi hdir)
      · exact h.dirs i hi q hq e
    · rw [h.rest d (fun i hi q hq e => hp ⟨i, hi, q, hq, e⟩) (fun p hp e => hk.new p hp (by rw [← e]; exact hd)), hd]
  refine ⟨keep _ hw.root, fun k n hkn => ?_⟩
  have member : ∀ i ∈ is, ∀ q, q <+: i.comps → pathOf q = ['/'] ∨
      (t.get (dirname (pathOf q)) = some .dir ∧ (dirname (pathOf q)).length < (pathOf q).length) := by
    intro i hi q hq
    rcases List.eq_nil_or_concat q with rfl | ⟨b, c, e⟩
    · exact .inl rfl
    · rw [List.concat_eq_append] at e
      subst e
      have hn : ∀ x ∈ b ++ [c], CompName x := fun x hx => hs.names i hi x (hq.subset hx)
      refine .inr ?_
      rw [dirname_pathOf hn]
      refine ⟨h.dirs i hi b ((List.prefix_append b [c]).trans hq) (fun e => ?_), length_pathOf (hn c (by simp))⟩
      have := hq.length_le
      rw [← e] at this
      simp only [List.length_append, List.length_cons, List.length_nil] at this
      omega
  by_cases hp : ∃ i ∈ is, ∃ q, q <+: i.comps ∧ k = pathOf q
  · obtain ⟨i, hi, q, hq, rfl⟩ := hp
    exact member i hi q hq
  · by_cases hc : ∃ p, Changed sha dest l s p ∧ k = p ++ ".newconfig".toList
    · obtain ⟨p, hc, rfl⟩ := hc
      obtain ⟨i, hi, rfl⟩ := hc.item hl
      obtain ⟨b, c, hbc⟩ := (List.eq_nil_or_concat i.comps).resolve_left (hs.ne i hi)
      rw [List.concat_eq_append] at hbc
      have hn := hs.names i hi
      have e : pathOf i.comps ++ ".newconfig".toList = pathOf (b ++ [dotNew c]) := by
        rw [dotNew_eq, hbc, pathOf_snoc, pathOf_snoc]
        simp [dotNew]
      rw [hbc] at hn
      have hc' : CompName (dotNew c) := by
        have := (hn c (by simp)).2
        exact ⟨by simp [dotNew], by simp [dotNew, this]⟩
      rw [e, dirname_pathOf (fun x hx => by
        rcases List.mem_append.mp hx with hx | hx
        · exact hn x (List.mem_append_left _ hx)
        · rw [List.mem_singleton.mp hx]; exact hc')]
      refine .inr ⟨h.dirs i hi b ⟨[c], hbc.symm⟩ (fun e => ?_), length_pathOf hc'⟩
      rw [hbc] at e
      have := congrArg List.length e
      simp at this
    · rw [h.rest k (fun i hi q hq e => hp ⟨i, hi, q, hq, e⟩) (fun p hp e => hc ⟨p, hp, e⟩)] at hkn
      rcases hw.parent k n hkn with e | ⟨h1, h2⟩
      · exact .inl e
      · exact .inr ⟨keep _ h1, h2⟩

/-- One installation. -/
theorem install_one (hw : WF s) {p : Pack} (h : Fits sha dest s p) :
    ∃ t, (extractInstall sha dest (if p.again then some p.l else none) p.l (p.is.map Item.entry) s).2 = .ok t ∧
      Reinstalled sha dest p.l p.is s t ∧ WF t := by
  have : ∃ t, (extractInstall sha dest (if p.again then some p.l else none) p.l (p.is.map Item.entry) s).2 = .ok t ∧
      Reinstalled sha dest p.l p.is s t := by
    split
    · exact reinstall_partial hw h.sound h.lists h.isOpen h.keepable
    · exact install_over hw h.sound h.lists h.isOpen h.keepable
  obtain ⟨t, h1, h2⟩ := this
  exact ⟨t, h1, h2, h2.wf hw h.sound h.lists h.isOpen h.keepable⟩

/-- What is known of the packages `done` and the next one. -/
structure Step (sha : Str → Str) (dest : Str) (s : FS) (done : List Pack) (b : Pack) : Prop where
  before : ∀ a ∈ done, Fits sha dest s a
  fits : Fits sha dest s b
  left : ∀ a ∈ done, Beside dest a b
  right : ∀ a ∈ done, Beside dest b a

variable {done : List Pack} {b : Pack}

theorem mem_done {i : Item} (h : i ∈ done.flatMap Pack.is) : ∃ a ∈ done, i ∈ a.is := List.mem_flatMap.mp h

/-- A kept file is a member that is no directory, and one the user has. -/
theorem Step.kept (hst : Step sha dest s done b) {p : Str} (h : Keeps sha dest done s p) :
    ∃ a ∈ done, ∃ i ∈ a.is, p = pathOf i.comps ∧ i.node ≠ .dir ∧ Changed sha dest a.l s p := by
  obtain ⟨a, ha, hc⟩ := h
  obtain ⟨f, hf, hcf, hp, r⟩ := hc
  obtain ⟨i, hi, he⟩ := (hst.before a ha).lists.sub f hf
  exact ⟨a, ha, i, hi, hp ▸ he, (hst.before a ha).files f hf hcf i hi he, f, hf, hcf, hp, r⟩

theorem Step.keptB (hst : Step sha dest s done b) {p : Str} (h : Changed sha dest b.l s p) :
    ∃ i ∈ b.is, p = pathOf i.comps ∧ i.node ≠ .dir := by
  obtain ⟨f, hf, hcf, hp, r⟩ := h
  obtain ⟨i, hi, he⟩ := hst.fits.lists.sub f hf
  exact ⟨i, hi, hp ▸ he, hst.fits.files f hf hcf i hi he⟩

/-- The names under which files are kept are no names of the next package. -/
theorem Step.keptNames (hst : Step sha dest s done b) {p : Str} (h : Keeps sha dest done s p) {j : Item} (hj : j ∈ b.is) {q : List Str}
    (hq : q <+: j.comps) : p ++ ".newconfig".toList ≠ pathOf q := by
  obtain ⟨a, ha, f, hf, hcf, hp, r⟩ := h
  rw [← hp]
  exact ((hst.left a ha).names f hf hcf j hj q hq).2

theorem Step.namesB (hst : Step sha dest s done b) {p : Str} (h : ∃ f ∈ b.l, f.conf = true ∧ joinPath dest [f.path] = p) {j : Item}
    (hj : j ∈ done.flatMap Pack.is) {q : List Str} (hq : q <+: j.comps) : p ++ ".old".toList ≠ pathOf q ∧ p ++ ".newconfig".toList ≠ pathOf q := by
  obtain ⟨f, hf, hcf, rfl⟩ := h
  obtain ⟨a, ha, hj⟩ := mem_done hj
  exact (hst.right a ha).names f hf hcf j hj q hq

theorem changed_conf {l : List FileInfo} {p : Str} (h : Changed sha dest l s p) : ∃ f ∈ l, f.conf = true ∧ joinPath dest [f.path] = p := by
  obtain ⟨f, hf, hcf, hp, _⟩ := h
  exact ⟨f, hf, hcf, hp⟩

/-- Prefixes with the same path are the same. -/
theorem Step.inj (hst : Step sha dest s done b) {i j : Item} (hi : i ∈ b.is) (hj : j ∈ done.flatMap Pack.is) {q r : List Str} (hq : q <+: i.comps)
    (hr : r <+: j.comps) (h : pathOf q = pathOf r) : q = r := by
  obtain ⟨a, ha, hj⟩ := mem_done hj
  exact pathOf_inj (fun x hx => hst.fits.sound.names i hi x (hq.subset hx)) (fun x hx => (hst.before a ha).sound.names j hj x (hr.subset hx)) h

/-- Where the next package has something, or something on the way, there is afterwards what was there, or a directory. -/
theorem Step.at (hst : Step sha dest s done b) (h : PutOver (Keeps sha dest done s) (done.flatMap Pack.is) s t) {i : Item} (hi : i ∈ b.is)
    {q : List Str} (hq : q <+: i.comps) :
    (t.get (pathOf q) = s.get (pathOf q) ∧ ∀ j ∈ done.flatMap Pack.is, ¬ q <+: j.comps) ∨
    (t.get (pathOf q) = some .dir ∧ ∃ j ∈ done.flatMap Pack.is, q <+: j.comps) := by
  by_cases hp : ∃ j ∈ done.flatMap Pack.is, ∃ r, r <+: j.comps ∧ pathOf q = pathOf r
  · obtain ⟨j, hj, r, hr, he⟩ := hp
    have e := hst.inj hi hj hq hr he
    subst e
    refine .inr ⟨?_, j, hj, hr⟩
    by_cases e : q = j.comps
    · subst e
      obtain ⟨a, ha, hj'⟩ := mem_done hj
      have hd : j.node = .dir := (hst.left a ha).dirs j hj' i hi hq
      have hnk : ¬ Keeps sha dest done s (pathOf j.comps) := by
        intro hk
        obtain ⟨_, _, _, _, _, _, hc⟩ := hst.kept hk
        obtain ⟨c, hc⟩ := hc.file
        rcases (hst.before a ha).isOpen.dir j hj' hd with g | g <;> rw [g] at hc <;> cases hc
      rw [h.inPlace j hj hnk, hd]
    · exact h.dirs j hj q hr e
  · refine .inl ⟨h.rest _ (fun j hj r hr e => hp ⟨j, hj, r, hr, e⟩) (fun p hk e => hst.keptNames hk hi hq e.symm), fun j hj hqj => hp ⟨j, hj, q, hqj, rfl⟩⟩

/-- A member of the next package that is no directory is not among what is there. -/
theorem Step.file (hst : Step sha dest s done b) {i : Item} (hi : i ∈ b.is) (hd : i.node ≠ .dir) : ∀ j ∈ done.flatMap Pack.is, ¬ i.comps <+: j.comps := by
  intro j hj hp
  obtain ⟨a, ha, hj'⟩ := mem_done hj
  exact hd ((hst.right a ha).dirs i hi j hj' hp)

/-- Configuration files of the next package are as they were. -/
theorem Step.conf (hst : Step sha dest s done b) (h : PutOver (Keeps sha dest done s) (done.flatMap Pack.is) s t) {f : FileInfo} (hf : f ∈ b.l)
    (hc : f.conf = true) : t.get (joinPath dest [f.path]) = s.get (joinPath dest [f.path]) := by
  obtain ⟨i, hi, he⟩ := hst.fits.lists.sub f hf
  rw [he]
  rcases hst.at h hi List.prefix_rfl with ⟨e, _⟩ | ⟨_, j, hj, hp⟩
  · exact e
  · exact absurd hp (hst.file hi (hst.fits.files f hf hc i hi he) j hj)

theorem Step.changed (hst : Step sha dest s done b) (h : PutOver (Keeps sha dest done s) (done.flatMap Pack.is) s t) (p : Str) :
    Changed sha dest b.l t p ↔ Changed sha dest b.l s p := by
  constructor
  · rintro ⟨f, hf, hc, rfl, c, hg, hh⟩
    exact ⟨f, hf, hc, rfl, c, by rw [← hst.conf h hf hc]; exact hg, hh⟩
  · rintro ⟨f, hf, hc, rfl, c, hg, hh⟩
    exact ⟨f, hf, hc, rfl, c, by rw [hst.conf h hf hc]; exact hg, hh⟩

/-- The next package still fits. -/
theorem Step.next (hst : Step sha dest s done b) (h : PutOver (Keeps sha dest done s) (done.flatMap Pack.is) s t) : Fits sha dest t b := by
  refine ⟨hst.fits.sound, hst.fits.lists, ⟨fun i hi hd => ?_, fun i hi hd => ?_, fun i hi q hq hne => ?_⟩, ⟨fun f hf hc => ?_, fun p hp => ?_, fun p hp => ?_,
    fun p hp => hst.fits.keepable.names p ((hst.changed h p).mp hp)⟩, hst.fits.files⟩
  · rcases hst.at h hi List.prefix_rfl with ⟨e, _⟩ | ⟨e, _⟩
    · rw [e]; exact hst.fits.isOpen.dir i hi hd
    · exact .inr e
  · rcases hst.at h hi List.prefix_rfl with ⟨e, _⟩ | ⟨_, j, hj, hp⟩
    · rw [e]; exact hst.fits.isOpen.nodir i hi hd
    · exact absurd hp (hst.file hi hd j hj)
  · rcases hst.at h hi hq with ⟨e, _⟩ | ⟨e, _⟩
    · rw [e]; exact hst.fits.isOpen.way i hi q hq hne
    · exact .inr e
  · rw [hst.conf h hf hc]; exact hst.fits.keepable.plain f hf hc
  · have hc := (hst.changed h p).mp hp
    rw [h.rest _ (fun j hj q hq e => (hst.namesB (changed_conf hc) hj hq).1 e) (fun p' _ e => dotOld_ne_dotNew p p' e)]
    exact hst.fits.keepable.old p hc
  · have hc := (hst.changed h p).mp hp
    rw [h.rest _ (fun j hj q hq e => (hst.namesB (changed_conf hc) hj hq).2 e) (fun p' hk' e => ?_)]
    · exact hst.fits.keepable.new p hc
    · have e' : p = p' := dotNew_inj e
      subst e'
      obtain ⟨a, ha, j, hj, hpj, hjd, _⟩ := hst.kept hk'
      obtain ⟨i, hi, hpi, hid⟩ := hst.keptB hc
      have hj' : j ∈ done.flatMap Pack.is := List.mem_flatMap.mpr ⟨a, ha, hj⟩
      have := hst.inj hi hj' List.prefix_rfl List.prefix_rfl (hpi.symm.trans hpj)
      exact hst.file hi hid j hj' (this ▸ List.prefix_rfl)

/-- And after it all are in place. -/
theorem Step.puts (hst : Step sha dest s done b) (h : PutOver (Keeps sha dest done s) (done.flatMap Pack.is) s t)
    (hr : Reinstalled sha dest b.l b.is t u) :
    PutOver (Keeps sha dest (done ++ [b]) s) ((done ++ [b]).flatMap Pack.is) s u := by
  have hkeeps : ∀ p, Keeps sha dest (done ++ [b]) s p ↔ Keeps sha dest done s p ∨ Changed sha dest b.l s p := by
    intro p
    constructor
    · rintro ⟨a, ha, hc⟩
      rcases List.mem_append.mp ha with ha | ha
      · exact .inl ⟨a, ha, hc⟩
      · rw [List.mem_singleton.mp ha] at hc; exact .inr hc
    · rintro (⟨a, ha, hc⟩ | hc)
      · exact ⟨a, List.mem_append_left _ ha, hc⟩
      · exact ⟨b, by simp, hc⟩
  have hmem : ∀ i, i ∈ (done ++ [b]).flatMap Pack.is ↔ i ∈ done.flatMap Pack.is ∨ i ∈ b.is := by simp
  -- a path on the way to a member of `done`
  have atDone : ∀ j ∈ done.flatMap Pack.is, ∀ q, q <+: j.comps → (∀ p, Changed sha dest b.l t p → pathOf q ≠ p ++ ".newconfig".toList) := by
    intro j hj q hq p hc e
    exact (hst.namesB (changed_conf ((hst.changed h p).mp hc)) hj hq).2 e.symm
  -- a kept file is not on the way to a member of `b`
  have keptApart : ∀ p, Keeps sha dest done s p → ∀ i ∈ b.is, ∀ q, q <+: i.comps → p ≠ pathOf q := by
    intro p hk i hi q hq e
    obtain ⟨a, ha, j, hj, hpj, hjd, _⟩ := hst.kept hk
    have := hst.inj hi (List.mem_flatMap.mpr ⟨a, ha, hj⟩) hq List.prefix_rfl (e.symm.trans hpj)
    exact hjd ((hst.left a ha).dirs j hj i hi (this ▸ hq))
  refine ⟨fun p hk => ?_, fun i hi hk => ?_, fun i hi hk => ?_, fun i hi q hq hne => ?_, fun k h1 h2 => ?_⟩
  · rcases (hkeeps p).mp hk with hk | hc
    · obtain ⟨a, ha, j, hj, hpj, _⟩ := hst.kept hk
      rw [hr.rest p (keptApart p hk) (by
        rw [hpj]
        exact atDone j (List.mem_flatMap.mpr ⟨a, ha, hj⟩) _ List.prefix_rfl), h.kept p hk]
    · rw [hr.kept p ((hst.changed h p).mpr hc)]
      obtain ⟨f, hf, hcf, rfl, _⟩ := hc
      exact hst.conf h hf hcf
  · rcases (hkeeps _).mp hk with hk | hc
    · rcases (hmem i).mp hi with hi | hi
      · rw [hr.rest _ (fun j hj q hq e => hst.keptNames hk hj hq e) (fun p hp e => ?_), h.beside i hi hk]
        have e' : pathOf i.comps = p := dotNew_inj e
        rw [← e'] at hp
        obtain ⟨j, hj, hpj, hjd⟩ := hst.keptB ((hst.changed h _).mp hp)
        have := hst.inj hj hi List.prefix_rfl List.prefix_rfl hpj.symm
        exact hst.file hj hjd i hi (this ▸ List.prefix_rfl)
      · exact absurd rfl (keptApart _ hk i hi _ List.prefix_rfl)
    · obtain ⟨j, hj, hpj, hjd⟩ := hst.keptB hc
      rcases (hmem i).mp hi with hi | hi
      · have := hst.inj hj hi List.prefix_rfl List.prefix_rfl hpj.symm
        exact absurd (this ▸ List.prefix_rfl) (hst.file hj hjd i hi)
      · exact hr.beside i hi ((hst.changed h _).mpr hc)
  · have hk' := fun hx => hk ((hkeeps _).mpr hx)
    rcases (hmem i).mp hi with hi | hi
    · have ht := h.inPlace i hi (fun hx => hk' (.inl hx))
      by_cases hp : ∃ j ∈ b.is, ∃ q, q <+: j.comps ∧ pathOf i.comps = pathOf q
      · obtain ⟨j, hj, q, hq, e⟩ := hp
        have e := hst.inj hj hi hq List.prefix_rfl e.symm
        subst e
        obtain ⟨a, ha, hi'⟩ := mem_done hi
        have hd := (hst.left a ha).dirs i hi' j hj hq
        rw [hd]
        by_cases e : i.comps = j.comps
        · have hjd : j.node = .dir := (hst.right a ha).dirs j hj i hi' (e ▸ List.prefix_rfl)
          rw [e] at hk' ⊢
          rw [hr.repaired j hj (fun hx => hk' (.inr ((hst.changed h _).mp hx))), hjd]
        · exact hr.dirs j hj _ hq e
      · rw [hr.rest _ (fun j hj q hq e => hp ⟨j, hj, q, hq, e⟩) (atDone i hi _ List.prefix_rfl), ht]
    · exact hr.repaired i hi (fun hx => hk' (.inr ((hst.changed h _).mp hx)))
  · rcases (hmem i).mp hi with hi | hi
    · have ht := h.dirs i hi q hq hne
      by_cases hp : ∃ j ∈ b.is, ∃ r, r <+: j.comps ∧ pathOf q = pathOf r
      · obtain ⟨j, hj, r, hrp, e⟩ := hp
        have e := hst.inj hj hi hrp hq e.symm
        subst e
        by_cases e : r = j.comps
        · subst e
          obtain ⟨a, ha, hi'⟩ := mem_done hi
          have hjd : j.node = .dir := (hst.right a ha).dirs j hj i hi' hq
          rw [hr.repaired j hj (fun hx => ?_), hjd]
          obtain ⟨c, hc⟩ := hx.file
          rw [ht] at hc; cases hc
        · exact hr.dirs j hj r hrp e
      · rw [hr.rest _ (fun j hj r hrp e => hp ⟨j, hj, r, hrp, e⟩) (atDone i hi _ hq), ht]
    · exact hr.dirs i hi q hq hne
  · rw [hr.rest k (fun i hi => h1 i ((hmem i).mpr (.inr hi))) (fun p hp => h2 p ((hkeeps p).mpr (.inr ((hst.changed h p).mp hp)))),
      h.rest k (fun i hi => h1 i ((hmem i).mpr (.inl hi))) (fun p hp => h2 p ((hkeeps p).mpr (.inl hp)))]

theorem installMany_append (sha : Str → Str) (dest : Str) (b : Pack) : ∀ (ps : List Pack) (s : FS),
    installMany sha dest (ps ++ [b]) s = match installMany sha dest ps s with
      | .ok t => installMany sha dest [b] t
      | .error e => .error e
  | [], _ => rfl
  | p :: ps, s => by
    rw [List.cons_append]
    unfold installMany
    cases (extractInstall sha dest (if p.again then some p.l else none) p.l (p.is.map Item.entry) s).2 with
    | error e => rfl
    | ok t => exact installMany_append sha dest b ps t

theorem pairwise_all {α : Type} {R : α → α → Prop} (hsym : ∀ x y, R x y → R y x) : ∀ l : List α, l.Pairwise R → ∀ x ∈ l, ∀ y ∈ l, x ≠ y → R x y
  | [], _, _, h, _, _, _ => absurd h (by simp)
  | a :: l, h, x, hx, y, hy, hne => by
    rw [List.pairwise_cons] at h
    rcases List.mem_cons.mp hx with ex | hx'
    · rcases List.mem_cons.mp hy with ey | hy'
      · exact absurd (ex.trans ey.symm) hne
      · rw [ex]; exact h.1 y hy'
    · rcases List.mem_cons.mp hy with ey | hy'
      · rw [ey]; exact hsym _ _ (h.1 x hx')
      · exact pairwise_all hsym l h.2 x hx' y hy' hne

/-- **C213.**  Packages each of which could be installed, that have only directories in common and whose members are not called like the
names under which changed configuration files are kept: they can be installed one after the other, for the first time or again, and then
the members of all are in place, the changed configuration files are kept, and nothing else has changed.  What is missing for the full
statement, which is false of the code: a file of one where another has a directory. -/
theorem many_partial (ps : List Pack) (hw : WF s) (hf : ∀ p ∈ ps, Fits sha dest s p) (hb : ps.Pairwise (fun a b => Beside dest a b ∧ Beside dest b a)) :
    ∃ t, installMany sha dest ps s = .ok t ∧ PutOver (Keeps sha dest ps s) (ps.flatMap Pack.is) s t ∧ WF t := by
  induction ps using Pisi.snoc_induction with
  | h0 =>
    refine ⟨s, rfl, ⟨?_, ?_, ?_, ?_, ?_⟩, hw⟩
    · rintro p ⟨a, ha, _⟩; cases ha
    · rintro i hi; cases hi
    · rintro i hi; cases hi
    · rintro i hi; cases hi
    · intro k _ _; rfl
  | hs done b ih =>
    rw [List.pairwise_append] at hb
    obtain ⟨t, h1, h2, h3⟩ := ih (fun p hp => hf p (List.mem_append_left _ hp)) hb.1
    have hst : Step sha dest s done b := ⟨fun a ha => hf a (List.mem_append_left _ ha), hf b (by simp),
      fun a ha => (hb.2.2 a ha b (by simp)).1, fun a ha => (hb.2.2 a ha b (by simp)).2⟩
    obtain ⟨u, e1, e2, e3⟩ := install_one h3 (hst.next h2)
    refine ⟨u, ?_, hst.puts h2 e2, e3⟩
    rw [installMany_append, h1]
    simp only [installMany, e1]

/-- The order of the packages does not matter. -/
theorem many_order (ps qs : List Pack) (hp : ps.Perm qs) (hw : WF s) (hf : ∀ p ∈ ps, Fits sha dest s p)
    (hb : ps.Pairwise (fun a b => Beside dest a b ∧ Beside dest b a)) :
    ∃ t u, installMany sha dest ps s = .ok t ∧ installMany sha dest qs s = .ok u ∧ Same t u := by
  obtain ⟨t, h1, h2, _⟩ := many_partial ps hw hf hb
  obtain ⟨u, g1, g2, _⟩ := many_partial qs hw (fun p h => hf p (hp.mem_iff.mpr h)) (hp.pairwise hb fun h => ⟨h.2, h.1⟩)
  refine ⟨t, u, h1, g1, fun k => ?_⟩
  have hk : ∀ p, Keeps sha dest ps s p ↔ Keeps sha dest qs s p := fun p =>
    ⟨fun ⟨a, ha, hc⟩ => ⟨a, hp.mem_iff.mp ha, hc⟩, fun ⟨a, ha, hc⟩ => ⟨a, hp.mem_iff.mpr ha, hc⟩⟩
  have hm : ∀ i, i ∈ ps.flatMap Pack.is ↔ i ∈ qs.flatMap Pack.is := fun i => by
    rw [List.mem_flatMap, List.mem_flatMap]
    exact ⟨fun ⟨a, ha, hi⟩ => ⟨a, hp.mem_iff.mp ha, hi⟩, fun ⟨a, ha, hi⟩ => ⟨a, hp.mem_iff.mpr ha, hi⟩⟩
  by_cases hk1 : ∃ i ∈ ps.flatMap Pack.is, ∃ q, q <+: i.comps ∧ k = pathOf q
  · obtain ⟨i, hi, q, hq, rfl⟩ := hk1
    by_cases e : q = i.comps
    · subst e
      by_cases hkp : Keeps sha dest ps s (pathOf i.comps)
      · rw [h2.kept _ hkp, g2.kept _ ((hk _).mp hkp)]
      · rw [h2.inPlace i hi hkp, g2.inPlace i ((hm i).mp hi) (fun h => hkp ((hk _).mpr h))]
    · rw [h2.dirs i hi q hq e, g2.dirs i ((hm i).mp hi) q hq e]
  · by_cases hk2 : ∃ p, Keeps sha dest ps s p ∧ k = p ++ ".newconfig".toList
    · obtain ⟨p, hkp, rfl⟩ := hk2
      obtain ⟨a, ha, hc⟩ := hkp
      obtain ⟨i, hi, he⟩ := hc.item (hf a ha).lists
      have hi' : i ∈ ps.flatMap Pack.is := List.mem_flatMap.mpr ⟨a, ha, hi⟩
      have hkp : Keeps sha dest ps s p := ⟨a, ha, hc⟩
      rw [he] at hkp ⊢
      rw [h2.beside i hi' hkp, g2.beside i ((hm i).mp hi') ((hk _).mp hkp)]
    · rw [h2.rest k (fun i hi q hq e => hk1 ⟨i, hi, q, hq, e⟩) (fun p h e => hk2 ⟨p, h, e⟩),
        g2.rest k (fun i hi q hq e => hk1 ⟨i, (hm i).mpr hi, q, hq, e⟩) (fun p h e => hk2 ⟨p, (hk p).mpr h, e⟩)]

/-- Then the check finds all of them intact. -/
theorem many_intact (ps : List Pack) (hn : ∀ c, sha c ≠ []) (hw : WF s) (hf : ∀ p ∈ ps, Fits sha ['/'] s p)
    (hb : ps.Pairwise (fun a b => Beside ['/'] a b ∧ Beside ['/'] b a)) (hh : ∀ p ∈ ps, Honest sha ['/'] p.l p.is)
    (hc : ∀ p ∈ ps, ∀ f ∈ p.l, ∀ g ∈ p.l, f.path = g.path → f.conf = g.conf) :
    ∃ t, installMany sha ['/'] ps s = .ok t ∧ ∀ p ∈ ps, checkFiles sha t p.l = .ok [] := by
  obtain ⟨t, h1, h2, _⟩ := many_partial ps hw hf hb
  refine ⟨t, h1, fun p hp => check_intact hn (hf p hp).lists (hh p hp) fun f hfp hcf i hi he => ?_⟩
  refine h2.inPlace i (List.mem_flatMap.mpr ⟨p, hp, hi⟩) ?_
  rintro ⟨a, ha, g, hg, hcg, hpg, _⟩
  obtain ⟨j, hj, hej⟩ := (hf a ha).lists.sub g hg
  have hjd := (hf a ha).files g hg hcg j hj hej
  have hcomp : j.comps = i.comps := pathOf_inj ((hf a ha).sound.names j hj) ((hf p hp).sound.names i hi) (by rw [← hej, hpg])
  by_cases e : a = p
  · subst e
    rw [← he, join_root ((hh a ha).rel g hg), join_root ((hh a ha).rel f hfp)] at hpg
    have := hc a ha f hfp g hg (List.cons.inj hpg).2.symm
    rw [hcf, hcg] at this
    cases this
  · have hB : Beside ['/'] a p := by
      have hsym : ∀ x ∈ ps, ∀ y ∈ ps, x ≠ y → Beside ['/'] x y ∧ Beside ['/'] y x := by
        intro x hx y hy hne
        exact pairwise_all (fun _ _ h => ⟨h.2, h.1⟩) ps hb x hx y hy hne
      exact (hsym a ha p hp e).1
    exact hjd (hB.dirs j hj i hi (hcomp ▸ List.prefix_rfl))

end

theorem re_fits : Fits id exDest reFS ⟨reL, reIs, true⟩ := by
  refine ⟨⟨by decide, by unfold CompName; decide, by decide, by decide⟩,
    ⟨by decide, by decide⟩, ⟨by decide, by decide, fun i hi q hq hne => ?_⟩, ⟨?_, fun p hp => ?_, fun p hp => ?_, fun p hp i hi q hq => ?_⟩, by decide⟩
  · have : ∀ i ∈ reIs, ∀ n ≤ i.comps.length, i.comps.take n ≠ i.comps →
      reFS.get (pathOf (i.comps.take n)) = none ∨ reFS.get (pathOf (i.comps.take n)) = some .dir := by decide
    rw [List.prefix_iff_eq_take.mp hq] at hne ⊢
    exact this i hi _ hq.length_le hne
  · intro f hf hc
    have : ∀ f ∈ reL, f.conf = true → joinPath exDest [f.path] = "/e/c".toList := by decide
    rw [this f hf hc]
    exact .inr ⟨['u'], by decide⟩
  · rw [re_changed hp]; decide
  · rw [re_changed hp]; decide
  · rw [re_changed hp]
    have : ∀ i ∈ reIs, ∀ n ≤ i.comps.length, "/e/c".toList ++ ".old".toList ≠ pathOf (i.comps.take n) ∧
      "/e/c".toList ++ ".newconfig".toList ≠ pathOf (i.comps.take n) := by decide
    rw [List.prefix_iff_eq_take.mp hq]
    exact this i hi _ hq.length_le

/-- A package with a file in a directory of the other. -/
def rePack : Pack := ⟨[⟨['b', '/', 'w'], false, none, false⟩], [⟨[['b']], .dir⟩, ⟨[['b'], ['w']], .file ['3']⟩], false⟩

theorem rePack_fits : Fits id exDest reFS rePack := by
  refine ⟨⟨by decide, by unfold CompName; decide, by decide, by decide⟩,
    ⟨by decide, by decide⟩, ⟨by decide, by decide, fun i hi q hq hne => ?_⟩, ⟨?_, ?_, ?_, ?_⟩, by decide⟩
  · have : ∀ i ∈ rePack.is, ∀ n ≤ i.comps.length, i.comps.take n ≠ i.comps →
      reFS.get (pathOf (i.comps.take n)) = none ∨ reFS.get (pathOf (i.comps.take n)) = some .dir := by decide
    rw [List.prefix_iff_eq_take.mp hq] at hne ⊢
    exact this i hi _ hq.length_le hne
  · exact fun f hf hc => absurd hc (by rw [List.mem_singleton.mp hf]; decide)
  all_goals
    rintro p ⟨f, hf, hc, _⟩
    exact absurd hc (by rw [List.mem_singleton.mp hf]; decide)

/-- The hypotheses of `many_partial` can be met. -/
example : ∃ t, installMany id exDest [⟨reL, reIs, true⟩, rePack] reFS = .ok t ∧
    PutOver (Keeps id exDest [⟨reL, reIs, true⟩, rePack] reFS) ([⟨reL, reIs, true⟩, rePack].flatMap Pack.is) reFS t ∧ WF t := by
  refine many_partial _ (wf_check (by decide) (by decide)) ?_ (by
    rw [List.pairwise_cons]
    refine ⟨?_, by simp⟩
    intro b hb
    rw [List.mem_singleton.mp hb]
    refine ⟨⟨by decide, ?_⟩, ⟨by decide, ?_⟩⟩
    · intro f hf hc j hj q hq
      have : ∀ f ∈ reL, f.conf = true → ∀ j ∈ rePack.is, ∀ n ≤ j.comps.length, joinPath exDest [f.path] ++ ".old".toList ≠ pathOf (j.comps.take n) ∧
        joinPath exDest [f.path] ++ ".newconfig".toList ≠ pathOf (j.comps.take n) := by decide
      rw [List.prefix_iff_eq_take.mp hq]
      exact this f hf hc j hj _ hq.length_le
    · intro f hf hc
      exact absurd hc (by rw [List.mem_singleton.mp hf]; decide))
  intro p hp
  simp only [List.mem_cons, List.not_mem_nil, or_false] at hp
  rcases hp with rfl | rfl
  · exact re_fits
  · exact rePack_fits

/-- **C213 is false of the code**: one package has a file where the other has a directory. -/
theorem many_refuted : ¬ ManyFull := by
  intro h
  obtain ⟨t, ht, _⟩ := h id ['/'] [(['/'], .dir)] [⟨[⟨['a'], false, none, false⟩], [⟨[['a']], .file ['1']⟩], false⟩,
      ⟨[⟨['a', '/', 'b'], false, none, false⟩], [⟨[['a'], ['b']], .file ['2']⟩], false⟩]
    (by
      have way : ∀ (q r : List Str) (s : FS), s = [(['/'], .dir)] → q <+: r → q ≠ r → (r = [['a']] ∨ r = [['a'], ['b']]) →
          s.get (pathOf q) = none ∨ s.get (pathOf q) = some .dir := by
        rintro q r s rfl hq hne hr
        have : q = r.take q.length := List.prefix_iff_eq_take.mp hq
        have hl := hq.length_le
        rcases hr with rfl | rfl
        · have : ∀ n ≤ 1, Dict.get ([(['/'], .dir)] : FS) (pathOf ([['a']].take n)) = none ∨ Dict.get ([(['/'], .dir)] : FS) (pathOf ([['a']].take n)) = some .dir := by decide
          rw [‹q = _›]
          exact this _ hl
        · have : ∀ n ≤ 2, Dict.get ([(['/'], .dir)] : FS) (pathOf ([['a'], ['b']].take n)) = none ∨ Dict.get ([(['/'], .dir)] : FS) (pathOf ([['a'], ['b']].take n)) = some .dir := by decide
          rw [‹q = _›]
          exact this _ hl
      have nc : ∀ (l : List FileInfo) (p : Str) (s : FS), (∀ f ∈ l, f.conf = false) → ¬ Changed id ['/'] l s p := by
        rintro l p s hl ⟨f, hf, hc, _⟩
        rw [hl f hf] at hc
        cases hc
      intro p hp
      simp only [List.mem_cons, List.not_mem_nil, or_false] at hp
      rcases hp with rfl | rfl
      · refine ⟨⟨by decide, by unfold CompName; decide, by decide, by decide⟩, ⟨by decide, by decide⟩, ⟨by decide, by decide, ?_⟩, ⟨fun f hf hc => absurd hc (by rw [List.mem_singleton.mp hf]; decide), ?_, ?_, ?_⟩, by decide⟩
        · intro i hi q hq hne
          rw [List.mem_singleton.mp hi] at hq hne
          exact way q _ _ rfl hq hne (.inl rfl)
        all_goals exact fun p hp => absurd hp (nc _ p _ (by decide))
      · refine ⟨⟨by decide, by unfold CompName; decide, by decide, by decide⟩, ⟨by decide, by decide⟩, ⟨by decide, by decide, ?_⟩, ⟨fun f hf hc => absurd hc (by rw [List.mem_singleton.mp hf]; decide), ?_, ?_, ?_⟩, by decide⟩
        · intro i hi q hq hne
          rw [List.mem_singleton.mp hi] at hq hne
          exact way q _ _ rfl hq hne (.inr rfl)
        all_goals exact fun p hp => absurd hp (nc _ p _ (by decide)))
    (by decide)
  have hx : (installMany id ['/'] [⟨[⟨['a'], false, none, false⟩], [⟨[['a']], .file ['1']⟩], false⟩,
      ⟨[⟨['a', '/', 'b'], false, none, false⟩], [⟨[['a'], ['b']], .file ['2']⟩], false⟩] [(['/'], .dir)]).toOption.isSome = false := by decide +kernel
  rw [ht] at hx
  cases hx

end Pisi.FS
