import Verif.Spec.FileHistory
import Verif.Props.InstallMany

/-!
# C214: histories of installations, removals and changes of configuration files
-/
namespace Pisi.FS
open Pisi.Path

section
variable {sha : Str → Str} {dest : Str} {s t u : FS} {ps : List Pack} {a b p : Pack}

/-- A proper package for which there is room can be installed. -/
theorem Proper.fits (h : Proper sha dest p) (hr : Room dest s p) : Fits sha dest s p := by
  refine ⟨h.sound, h.lists, hr.isOpen, ⟨hr.plain, ?_, ?_, ?_⟩, fun f hf hc i hi he => ?_⟩
  · rintro q ⟨f, hf, hc, rfl, _⟩
    exact hr.oldFree f hf hc
  · rintro q ⟨f, hf, hc, rfl, _⟩
    exact hr.newFree f hf hc
  · rintro q ⟨f, hf, hc, rfl, _⟩
    exact h.names f hf hc
  · obtain ⟨c, e, _⟩ := h.conf f hf hc i hi he
    rw [e]
    exact fun h => by cases h

/-- Installing one package is putting it over what is there. -/
theorem Reinstalled.puts (h : Reinstalled sha dest a.l a.is s t) : PutOver (Keeps sha dest [a] s) ([a].flatMap Pack.is) s t := by
  have hk : ∀ p, Keeps sha dest [a] s p ↔ Changed sha dest a.l s p := fun p =>
    ⟨fun ⟨x, hx, hc⟩ => by rw [List.mem_singleton.mp hx] at hc; exact hc, fun hc => ⟨a, by simp, hc⟩⟩
  have hm : ∀ i, i ∈ [a].flatMap Pack.is ↔ i ∈ a.is := by simp
  exact ⟨fun p hp => h.kept p ((hk p).mp hp), fun i hi hp => h.beside i ((hm i).mp hi) ((hk _).mp hp),
    fun i hi hp => h.repaired i ((hm i).mp hi) (fun hc => hp ((hk _).mpr hc)), fun i hi => h.dirs i ((hm i).mp hi),
    fun k h1 h2 => h.rest k (fun i hi => h1 i ((hm i).mpr hi)) (fun p hp => h2 p ((hk p).mpr hp))⟩

theorem step_one (ha : Fits sha dest s a) (hb : Fits sha dest s b) (h1 : Beside dest a b) (h2 : Beside dest b a) : Step sha dest s [a] b := by
  refine ⟨?_, hb, ?_, ?_⟩ <;> intro x hx <;> rw [List.mem_singleton.mp hx]
  · exact ha
  · exact h1
  · exact h2

/-- Room for one package is left by the installation of another one. -/
theorem Room.install_other (pa : Proper sha dest a) (pb : Proper sha dest b) (ha : Room dest s a) (hb : Room dest s b) (h1 : Beside dest a b)
    (h2 : Beside dest b a) (h : Reinstalled sha dest a.l a.is s t) : Room dest t b := by
  have hst := step_one (pa.fits ha) (pb.fits hb) h1 h2
  have hn := hst.next h.puts
  refine ⟨hn.isOpen, hn.keepable.plain, fun f hf hc => ?_, fun f hf hc => ?_⟩
  · rw [h.rest _ (fun i hi q hq => (h2.names f hf hc i hi q hq).1) (fun q _ e => dotOld_ne_dotNew _ q e)]
    exact hb.oldFree f hf hc
  · rw [h.rest _ (fun i hi q hq => (h2.names f hf hc i hi q hq).2) (fun q hq e => ?_)]
    · exact hb.newFree f hf hc
    · have e := dotNew_inj e
      obtain ⟨i, hi, hid⟩ := pb.lists.sub f hf
      obtain ⟨j, hj, hjd⟩ := hq.item pa.lists
      have := pathOf_inj (pb.sound.names i hi) (pa.sound.names j hj) (by rw [← hid, e, hjd])
      exact (pb.fits hb).files f hf hc i hi hid (h2.dirs i hi j hj (this ▸ List.prefix_rfl))

/-- And by its own. -/
theorem Room.install_self (pa : Proper sha dest a) (ha : Room dest s a) (h : Reinstalled sha dest a.l a.is s t) : Room dest t a := by
  refine ⟨⟨fun i hi hd => ?_, fun i hi hd => ?_, fun i hi q hq hne => .inr (h.dirs i hi q hq hne)⟩, fun f hf hc => ?_, fun f hf hc => ?_,
    fun f hf hc => ?_⟩
  · refine .inr ?_
    rw [h.repaired i hi (fun hx => ?_), hd]
    obtain ⟨c, hc⟩ := hx.file
    rcases ha.isOpen.dir i hi hd with e | e <;> rw [e] at hc <;> cases hc
  · by_cases hx : Changed sha dest a.l s (pathOf i.comps)
    · rw [h.kept _ hx]; exact ha.isOpen.nodir i hi hd
    · rw [h.repaired i hi hx]
      exact fun e => hd (Option.some.inj e)
  · obtain ⟨i, hi, he⟩ := pa.lists.sub f hf
    by_cases hx : Changed sha dest a.l s (joinPath dest [f.path])
    · rw [h.kept _ hx]; exact ha.plain f hf hc
    · obtain ⟨c, hn, _⟩ := pa.conf f hf hc i hi he
      rw [he] at hx ⊢
      exact .inr ⟨c, by rw [h.repaired i hi hx, hn]⟩
  · rw [h.rest _ (fun i hi q hq => (pa.names f hf hc i hi q hq).1) (fun q _ e => dotOld_ne_dotNew _ q e)]
    exact ha.oldFree f hf hc
  · by_cases hx : Changed sha dest a.l s (joinPath dest [f.path])
    · obtain ⟨i, hi, he⟩ := pa.lists.sub f hf
      obtain ⟨c, hn, _⟩ := pa.conf f hf hc i hi he
      rw [he] at hx ⊢
      rw [h.beside i hi hx, hn]
      exact fun e => by cases e
    · rw [h.rest _ (fun i hi q hq => (pa.names f hf hc i hi q hq).2) (fun q hq e => ?_)]
      · exact ha.newFree f hf hc
      · exact hx (dotNew_inj e ▸ hq)

/-- Room is left where things are only taken away. -/
theorem Room.less (hb : Room dest s b) (h : ∀ k, t.get k = s.get k ∨ t.get k = none) : Room dest t b := by
  refine ⟨⟨fun i hi hd => ?_, fun i hi hd => ?_, fun i hi q hq hne => ?_⟩, fun f hf hc => ?_, fun f hf hc => ?_, fun f hf hc => ?_⟩
  · rcases h (pathOf i.comps) with e | e
    · rw [e]; exact hb.isOpen.dir i hi hd
    · exact .inl e
  · rcases h (pathOf i.comps) with e | e
    · rw [e]; exact hb.isOpen.nodir i hi hd
    · rw [e]; exact fun e => by cases e
  · rcases h (pathOf q) with e | e
    · rw [e]; exact hb.isOpen.way i hi q hq hne
    · exact .inl e
  · rcases h (joinPath dest [f.path]) with e | e
    · rw [e]; exact hb.plain f hf hc
    · exact .inl e
  · rcases h (joinPath dest [f.path] ++ ".old".toList) with e | e
    · rw [e]; exact hb.oldFree f hf hc
    · exact e
  · rcases h (joinPath dest [f.path] ++ ".newconfig".toList) with e | e
    · rw [e]; exact hb.newFree f hf hc
    · rw [e]; exact fun e => by cases e

/-- And where the text of a file is changed. -/
theorem Room.text (hb : Room dest s b) {k c c' : Str} (hk : s.get k = some (.file c)) : Room dest (s.put k (.file c')) b := by
  have get : ∀ x, Dict.get (s.put k (.file c')) x = if k = x then some (.file c') else s.get x := fun x => Dict.get_put ..
  have same : ∀ x, (∀ d, s.get x ≠ some (.file d)) → Dict.get (s.put k (.file c')) x = s.get x := fun x hx => by
    rw [get, if_neg]
    rintro rfl
    exact hx c hk
  refine ⟨⟨fun i hi hd => ?_, fun i hi hd => ?_, fun i hi q hq hne => ?_⟩, fun f hf hc => ?_, fun f hf hc => ?_, fun f hf hc => ?_⟩
  · have := hb.isOpen.dir i hi hd
    rw [same _ (fun d e => by rcases this with g | g <;> rw [g] at e <;> cases e)]
    exact this
  · rw [get]
    split
    · exact fun e => by cases e
    · exact hb.isOpen.nodir i hi hd
  · have := hb.isOpen.way i hi q hq hne
    rw [same _ (fun d e => by rcases this with g | g <;> rw [g] at e <;> cases e)]
    exact this
  · rw [get]
    split
    · exact .inr ⟨c', rfl⟩
    · exact hb.plain f hf hc
  · have := hb.oldFree f hf hc
    rw [same _ (fun d e => by rw [this] at e; cases e)]
    exact this
  · rw [get]
    split
    · exact fun e => by cases e
    · exact hb.newFree f hf hc

theorem WF.text (hw : WF s) {k c c' : Str} (hk : s.get k = some (.file c)) : WF (s.put k (.file c')) := by
  have same : ∀ x, s.get x = some .dir → Dict.get (s.put k (.file c')) x = some .dir := fun x hx => by
    rw [Dict.get_put, if_neg (fun e => by rw [e, hx] at hk; cases hk)]
    exact hx
  refine ⟨same _ hw.root, fun x n hx => ?_⟩
  rw [Dict.get_put] at hx
  have : ∃ m, s.get x = some m := by
    by_cases e : k = x
    · exact ⟨_, e ▸ hk⟩
    · rw [if_neg e] at hx; exact ⟨n, hx⟩
  obtain ⟨m, hm⟩ := this
  rcases hw.parent x m hm with e | ⟨h1, h2⟩
  · exact .inl e
  · exact .inr ⟨same _ h1, h2⟩

/-- What holds after every deed. -/
structure SysInv (sha : Str → Str) (dest : Str) (ps : List Pack) (y : Sys) : Prop where
  wf : WF y.fs
  room : ∀ p ∈ ps, Room dest y.fs p
  known : ∀ p ∈ y.inst, p ∈ ps
  whole : ∀ p ∈ y.inst, Whole dest y.fs p

/-- The packages are proper and have only directories in common. -/
structure PackSet (sha : Str → Str) (dest : Str) (ps : List Pack) : Prop where
  proper : ∀ p ∈ ps, Proper sha dest p
  beside : ps.Pairwise (fun a b => Beside dest a b ∧ Beside dest b a)

theorem PackSet.apart (h : PackSet sha dest ps) (ha : a ∈ ps) (hb : b ∈ ps) (hne : a ≠ b) : Beside dest a b ∧ Beside dest b a :=
  pairwise_all (fun _ _ h => ⟨h.2, h.1⟩) ps h.beside a ha b hb hne

/-- A member of one package that is no directory is none of another one. -/
theorem PackSet.apartFile (h : PackSet sha dest ps) (ha : a ∈ ps) (hb : b ∈ ps) (hne : a ≠ b) {i j : Item} (hi : i ∈ a.is) (hj : j ∈ b.is)
    (hd : i.node ≠ .dir) : pathOf i.comps ≠ pathOf j.comps := by
  intro e
  have := pathOf_inj ((h.proper a ha).sound.names i hi) ((h.proper b hb).sound.names j hj) e
  exact hd ((h.apart ha hb hne).1.dirs i hi j hj (this ▸ List.prefix_rfl))

theorem inv_install (h : PackSet sha dest ps) {y : Sys} (hy : SysInv sha dest ps y) (ha : a ∈ ps) :
    ∃ z, deed sha dest y (.install a) = .ok z ∧ SysInv sha dest ps z ∧ Reinstalled sha dest a.l a.is y.fs z.fs ∧ z.inst = a :: y.inst := by
  have pa := h.proper a ha
  have fa := pa.fits (hy.room a ha)
  obtain ⟨t, ht, hr, hw⟩ := install_one (p := { a with again := decide (a ∈ y.inst) }) hy.wf ⟨fa.sound, fa.lists, fa.isOpen, fa.keepable, fa.files⟩
  simp only [decide_eq_true_eq] at ht
  refine ⟨⟨t, a :: y.inst⟩, ?_, ⟨hw, fun b hb => ?_, fun b hb => ?_, fun b hb => ?_⟩, hr, rfl⟩
  · simp only [deed, ht]
  · by_cases e : a = b
    · rw [← e]; exact (hy.room a ha).install_self pa hr
    · obtain ⟨h1, h2⟩ := h.apart ha hb e
      exact Room.install_other pa (h.proper b hb) (hy.room a ha) (hy.room b hb) h1 h2 hr
  · rcases List.mem_cons.mp hb with e | hb
    · rw [e]; exact ha
    · exact hy.known b hb
  · by_cases e : b = a
    · subst e
      intro f hf hcf i hi he _
      refine hr.repaired i hi ?_
      rintro ⟨g, hg, hcg, hpg, _⟩
      have := pa.once f hf g hg (he.trans hpg.symm)
      rw [this, hcg] at hcf
      cases hcf
    · have hb := (List.mem_cons.mp hb).resolve_left e
      have hbp := hy.known b hb
      obtain ⟨h1, h2⟩ := h.apart hbp ha e
      intro f hf hcf i hi he hd
      rw [← hy.whole b hb f hf hcf i hi he hd]
      refine hr.rest _ (fun j hj q hq e' => ?_) (fun q hq e' => ?_)
      · have := pathOf_inj ((h.proper b hbp).sound.names i hi) (fun x hx => pa.sound.names j hj x (hq.subset hx)) e'
        exact hd (h1.dirs i hi j hj (this ▸ hq))
      · obtain ⟨g, hg, hcg, hp⟩ := changed_conf hq
        rw [← hp] at e'
        exact (h2.names g hg hcg i hi _ List.prefix_rfl).2 e'.symm

theorem inv_remove (h : PackSet sha dest ps) {y : Sys} (hy : SysInv sha dest ps y) (ha : a ∈ ps) (db : DB.FilesDB Str Nat Unit) (pkg : Nat) :
    ∃ z, deed sha dest y (.remove a db pkg) = .ok z ∧ SysInv sha dest ps z ∧ z.inst = y.inst.filter (· ≠ a) ∧
      (z = y ∨ removeFiles sha dest db pkg a.l y.fs = .ok z.fs) := by
  by_cases hi : a ∈ y.inst
  · have pa := h.proper a ha
    obtain ⟨t, ht, hw⟩ := remove_total sha dest db pkg a.l y.fs hy.wf (fun f hf e => by
      obtain ⟨i, hi, he⟩ := pa.lists.sub f hf
      exact pa.sound.ne i hi (pathOf_inj (pa.sound.names i hi) (by simp) ((he.symm.trans e).trans rfl)))
    have hfr := removeFiles_frame sha dest db pkg a.l y.fs t ht
    refine ⟨⟨t, y.inst.filter (· ≠ a)⟩, ?_, ⟨hw, fun b hb => ?_, fun b hb => ?_, fun b hb => ?_⟩, rfl, .inr ht⟩
    · simp only [deed, if_pos hi, ht]
    · exact (hy.room b hb).less fun k => (hfr k).imp id And.left
    · exact hy.known b (List.mem_filter.mp hb).1
    · obtain ⟨hb, hne⟩ := List.mem_filter.mp hb
      have hne : b ≠ a := by simpa using hne
      have hbp := hy.known b hb
      intro f hf hcf i hi he hd
      have hs := hy.whole b hb f hf hcf i hi he hd
      rcases hfr (pathOf i.comps) with e | ⟨_, ⟨g, hg, e⟩ | e⟩
      · rw [← hs]; exact e
      · obtain ⟨j, hj, hje⟩ := pa.lists.sub g hg
        exact absurd (e.trans hje) (h.apartFile hbp ha hne hi hj hd)
      · rw [hs] at e
        exact absurd (Option.some.inj e) hd
  · refine ⟨y, ?_, hy, ?_, .inl rfl⟩
    · simp only [deed, if_neg hi]
    · rw [List.filter_eq_self.mpr]
      intro b hb
      simp only [decide_eq_true_eq, ne_eq]
      exact fun e => hi (e ▸ hb)

theorem inv_edit (h : PackSet sha dest ps) {y : Sys} (hy : SysInv sha dest ps y) (ha : a ∈ ps) {f : FileInfo} (hf : f ∈ a.l) (hc : f.conf = true)
    (text : Str) : ∃ z, deed sha dest y (.edit a f text) = .ok z ∧ SysInv sha dest ps z ∧ z.inst = y.inst ∧
      ∀ k, k ≠ joinPath dest [f.path] → z.fs.get k = y.fs.get k := by
  have pa := h.proper a ha
  rcases (hy.room a ha).plain f hf hc with e | ⟨c, e⟩
  · exact ⟨y, by simp only [deed, e], hy, rfl, fun _ _ => rfl⟩
  · refine ⟨{ y with fs := y.fs.put (joinPath dest [f.path]) (.file text) }, by simp only [deed, e],
      ⟨hy.wf.text e, fun b hb => (hy.room b hb).text e, hy.known, fun b hb => ?_⟩, rfl, fun k hk => ?_⟩
    · intro g hg hcg i hi he hd
      rw [← hy.whole b hb g hg hcg i hi he hd]
      show Dict.get (y.fs.put _ _) _ = _
      rw [Dict.get_put, if_neg]
      intro e'
      obtain ⟨j, hj, hje⟩ := pa.lists.sub f hf
      by_cases eb : b = a
      · subst eb
        have := pa.once f hf g hg (e'.trans he.symm)
        rw [this, hcg] at hc
        cases hc
      · exact h.apartFile (hy.known b hb) ha eb hi hj hd (e'.symm.trans hje)
    · show Dict.get (y.fs.put _ _) _ = _
      rw [Dict.get_put, if_neg (fun e => hk e.symm)]

theorem inv_deed (h : PackSet sha dest ps) {y : Sys} (hy : SysInv sha dest ps y) {d : Deed} (hd : d.About ps) :
    ∃ z, deed sha dest y d = .ok z ∧ SysInv sha dest ps z := by
  cases d with
  | install a => obtain ⟨z, h1, h2, _⟩ := inv_install h hy hd; exact ⟨z, h1, h2⟩
  | remove a db pkg => obtain ⟨z, h1, h2, _⟩ := inv_remove h hy hd db pkg; exact ⟨z, h1, h2⟩
  | edit a f text => obtain ⟨z, h1, h2, _⟩ := inv_edit h hy hd.1 hd.2.1 hd.2.2 text; exact ⟨z, h1, h2⟩

theorem inv_deeds (h : PackSet sha dest ps) : ∀ (ds : List Deed) {y : Sys}, SysInv sha dest ps y → (∀ d ∈ ds, d.About ps) →
    ∃ z, deeds sha dest y ds = .ok z ∧ SysInv sha dest ps z
  | [], y, hy, _ => ⟨y, rfl, hy⟩
  | d :: ds, y, hy, hd => by
    obtain ⟨z, h1, h2⟩ := inv_deed h hy (hd d (by simp))
    obtain ⟨w, h3, h4⟩ := inv_deeds h ds h2 fun x hx => hd x (by simp [hx])
    exact ⟨w, by unfold deeds; rw [h1]; exact h3, h4⟩

/-- **C214.**  Proper packages that have only directories in common, for which there is room: they can be installed, installed again and
removed in any order, with configuration files changed by the user in between; every one of these succeeds, and what is installed then is
whole.  What is missing for the full statement, which is false of the code: a file of one package where another has a directory. -/
theorem history_partial (hw : WF s) (hp : ∀ p ∈ ps, Proper sha dest p ∧ Room dest s p)
    (hb : ps.Pairwise (fun a b => Beside dest a b ∧ Beside dest b a)) (ds : List Deed) (hd : ∀ d ∈ ds, d.About ps) :
    ∃ y, deeds sha dest ⟨s, []⟩ ds = .ok y ∧ WF y.fs ∧ ∀ p ∈ y.inst, p ∈ ps ∧ Whole dest y.fs p := by
  obtain ⟨y, h1, h2⟩ := inv_deeds ⟨fun p h => (hp p h).1, hb⟩ ds (y := ⟨s, []⟩)
    ⟨hw, fun p h => (hp p h).2, fun p h => absurd h (by simp), fun p h => absurd h (by simp)⟩ hd
  exact ⟨y, h1, h2.wf, fun p h => ⟨h2.known p h, h2.whole p h⟩⟩

/-- What is whole is found intact by the check: that directories are missing is not noticed. -/
theorem check_whole (hl : Lists ['/'] p.l p.is) (hh : Honest sha ['/'] p.l p.is) (hp : Whole ['/'] s p) :
    checkFiles sha s p.l = .ok [] := by
  have key : ∀ f ∈ p.l, Covered s f → ∃ c, s.get ('/' :: f.path) = some (.file c) ∧ f.hash = some (sha c) := by
    intro f hf hcov
    obtain ⟨i, hi, he⟩ := hl.sub f hf
    have hj := join_root (hh.rel f hf)
    cases hnode : i.node with
    | file c =>
      have hg := hp f hf hcov.2.2.1 i hi he (by rw [hnode]; exact fun e => by cases e)
      rw [← he, hj, hnode] at hg
      exact ⟨c, hg, hh.file f hf i hi he c hnode⟩
    | link x =>
      have hg := hp f hf hcov.2.2.1 i hi he (by rw [hnode]; exact fun e => by cases e)
      rw [← he, hj, hnode] at hg
      have := hcov.2.2.2
      unfold isLink at this
      rw [hg] at this
      cases this
    | dir =>
      rcases hh.dir f hf i hi he hnode with e | e
      · exact absurd e hcov.1
      · exact absurd e hcov.2.1
  have sha1 : ∀ f c, s.get ('/' :: f) = some (.file c) → sha1File sha s ('/' :: f) = some (sha c) := fun f c h => by
    simp [sha1File, stat, statN, h]
  obtain ⟨r, hr⟩ := (check_fails_iff sha s p.l).mpr fun f hf hcov => by
    obtain ⟨c, h1, _⟩ := key f hf hcov
    rw [sha1 _ _ h1]
    exact fun e => by cases e
  rw [hr]
  congr 1
  refine List.eq_nil_iff_forall_not_mem.mpr fun f hf => ?_
  obtain ⟨hf, hcov, hdam⟩ := (check_reports sha s p.l r hr f).mp hf
  obtain ⟨c, h1, h2⟩ := key f hf hcov
  obtain ⟨h, e, hne⟩ := hdam
  rw [h2] at e
  rw [sha1 _ _ h1, e] at hne
  exact hne rfl

/-- So the check finds whatever is installed intact. -/
theorem history_intact (hw : WF s) (hp : ∀ p ∈ ps, Proper sha ['/'] p ∧ Room ['/'] s p)
    (hb : ps.Pairwise (fun a b => Beside ['/'] a b ∧ Beside ['/'] b a)) (hh : ∀ p ∈ ps, Honest sha ['/'] p.l p.is) (ds : List Deed)
    (hd : ∀ d ∈ ds, d.About ps) :
    ∃ y, deeds sha ['/'] ⟨s, []⟩ ds = .ok y ∧ ∀ p ∈ y.inst, checkFiles sha y.fs p.l = .ok [] := by
  obtain ⟨y, h1, _, h2⟩ := history_partial hw hp hb ds hd
  exact ⟨y, h1, fun p h => check_whole (hp p (h2 p h).1).1.lists (hh p (h2 p h).1) (h2 p h).2⟩

/-- A removal keeps a file if those recorded for its path are configuration files with another hash. -/
theorem remove_keeps {α ι : Type} [DecidableEq α] (db : DB.FilesDB Str α ι) (pkg : α) {k c : Str} : ∀ (l : List FileInfo) {s t : FS}, s.get k = some (.file c) →
    (∀ g ∈ l, joinPath dest [g.path] = k → g.conf = true ∧ g.hash ≠ some (sha c)) → removeFiles sha dest db pkg l s = .ok t →
    t.get k = some (.file c)
  | [], s, t, hk, _, h => by cases h; exact hk
  | g :: l, s, t, hk, hl, h => by
    unfold removeFiles at h
    cases h1 : removeFile sha dest db pkg g s with
    | error e => rw [h1] at h; cases h
    | ok u =>
      rw [h1] at h
      refine remove_keeps db pkg l (s := u) ?_ (fun x hx => hl x (by simp [hx])) h
      by_cases e : joinPath dest [g.path] = k
      · obtain ⟨hc, hh⟩ := hl g (by simp) e
        have hs : sha1File sha s k = some (sha c) := by simp [sha1File, stat, statN, hk]
        have : removeFile sha dest db pkg g s = .ok s := by
          unfold removeFile
          simp only [e, hc, hs]
          split
          · rfl
          · split
            · rfl
            · rw [if_pos trivial, if_neg (fun h => hh h.symm)]
        rw [this] at h1
        cases h1
        exact hk
      · rcases removeFile_frame sha dest db pkg g s u h1 k with e' | ⟨_, e' | e'⟩
        · rw [e', hk]
        · exact absurd e'.symm e
        · rw [hk] at e'; cases e'

/-- What the user has written into a configuration file stays there, whatever is installed and removed, until the user changes it. -/
theorem edit_stays (h : PackSet sha dest ps) {y : Sys} (hy : SysInv sha dest ps y) (ha : a ∈ ps) {f : FileInfo} (hf : f ∈ a.l) (hc : f.conf = true)
    {c : Str} (hk : y.fs.get (joinPath dest [f.path]) = some (.file c)) (hh : f.hash ≠ some (sha c)) {d : Deed} (hd : d.About ps)
    (hne : ∀ p g text, d = .edit p g text → joinPath dest [f.path] ≠ joinPath dest [g.path]) {z : Sys} (hz : deed sha dest y d = .ok z) :
    z.fs.get (joinPath dest [f.path]) = some (.file c) := by
  have pa := h.proper a ha
  obtain ⟨i, hi, he⟩ := pa.lists.sub f hf
  have hid := (pa.fits (hy.room a ha)).files f hf hc i hi he
  cases d with
  | install b =>
    obtain ⟨w, h1, _, hr, _⟩ := inv_install h hy hd
    rw [hz] at h1
    cases h1
    by_cases e : a = b
    · subst e
      rw [hr.kept _ ⟨f, hf, hc, rfl, c, hk, hh⟩, hk]
    · have hb : b ∈ ps := hd
      obtain ⟨h1, h2⟩ := h.apart ha hb e
      have hst := step_one ((h.proper b hb).fits (hy.room b hb)) (pa.fits (hy.room a ha)) h2 h1
      rw [hst.conf hr.puts hf hc, hk]
  | remove b db pkg =>
    have hb : b ∈ ps := hd
    obtain ⟨w, h1, _, _, hr⟩ := inv_remove h hy hd db pkg
    rw [hz] at h1
    cases h1
    rcases hr with rfl | hr
    · exact hk
    · refine remove_keeps db pkg b.l hk (fun g hg e => ?_) hr
      by_cases eb : a = b
      · subst eb
        rw [pa.once g hg f hf e]
        exact ⟨hc, hh⟩
      · obtain ⟨j, hj, hje⟩ := (h.proper b hb).lists.sub g hg
        exact absurd (he.symm.trans (e.symm.trans hje)) (h.apartFile ha hb eb hi hj hid)
  | edit b g text =>
    obtain ⟨w, h1, _, _, hr⟩ := inv_edit h hy hd.1 hd.2.1 hd.2.2 text
    rw [hz] at h1
    cases h1
    rw [hr _ (hne b g text rfl), hk]

theorem edits_stay (h : PackSet sha dest ps) (ha : a ∈ ps) {f : FileInfo} (hf : f ∈ a.l) (hc : f.conf = true) {c : Str} (hh : f.hash ≠ some (sha c)) :
    ∀ (ds : List Deed) {y z : Sys}, SysInv sha dest ps y → y.fs.get (joinPath dest [f.path]) = some (.file c) → (∀ d ∈ ds, d.About ps) →
    (∀ d ∈ ds, ∀ p g text, d = .edit p g text → joinPath dest [f.path] ≠ joinPath dest [g.path]) → deeds sha dest y ds = .ok z →
    z.fs.get (joinPath dest [f.path]) = some (.file c)
  | [], y, z, _, hk, _, _, hz => by cases hz; exact hk
  | d :: ds, y, z, hy, hk, hd, hne, hz => by
    obtain ⟨w, h1, h2⟩ := inv_deed h hy (hd d (by simp))
    unfold deeds at hz
    rw [h1] at hz
    exact edits_stay h ha hf hc hh ds h2 (edit_stays h hy ha hf hc hk hh (hd d (by simp)) (hne d (by simp)) h1)
      (fun x hx => hd x (by simp [hx])) (fun x hx => hne x (by simp [hx])) hz

theorem deeds_append (sha : Str → Str) (dest : Str) : ∀ (ds es : List Deed) (y : Sys), deeds sha dest y (ds ++ es) =
    match deeds sha dest y ds with
    | .ok z => deeds sha dest z es
    | .error e => .error e
  | [], _, _ => rfl
  | d :: ds, es, y => by
    have e : ∀ ds, deeds sha dest y (d :: ds) = match deed sha dest y d with
      | .ok y => deeds sha dest y ds
      | .error e => .error e := fun _ => rfl
    rw [List.cons_append, e, e]
    cases deed sha dest y d with
    | error e => rfl
    | ok z => exact deeds_append sha dest ds es z

/-- **C214.**  A configuration file is there, the user writes another text into it than the package has, and from then on the file has that
text, whatever is installed, installed again or removed, until they change it. -/
theorem history_edits (hw : WF s) (hp : ∀ p ∈ ps, Proper sha dest p ∧ Room dest s p)
    (hb : ps.Pairwise (fun a b => Beside dest a b ∧ Beside dest b a)) (ds es : List Deed) (hd : ∀ d ∈ ds ++ es, d.About ps) {y : Sys}
    (hy : deeds sha dest ⟨s, []⟩ ds = .ok y) (ha : a ∈ ps) {f : FileInfo} (hf : f ∈ a.l) (hc : f.conf = true)
    (hk : y.fs.get (joinPath dest [f.path]) ≠ none) {text : Str} (hh : f.hash ≠ some (sha text))
    (hne : ∀ d ∈ es, ∀ p g text, d = .edit p g text → joinPath dest [f.path] ≠ joinPath dest [g.path]) :
    ∃ z, deeds sha dest ⟨s, []⟩ (ds ++ .edit a f text :: es) = .ok z ∧ z.fs.get (joinPath dest [f.path]) = some (.file text) := by
  have h : PackSet sha dest ps := ⟨fun p h => (hp p h).1, hb⟩
  obtain ⟨y', h1, h2⟩ := inv_deeds h ds (y := ⟨s, []⟩)
    ⟨hw, fun p h => (hp p h).2, fun p h => absurd h (by simp), fun p h => absurd h (by simp)⟩ fun d hx => hd d (List.mem_append_left _ hx)
  rw [hy] at h1
  cases h1
  obtain ⟨w, g1, g2, _⟩ := inv_edit h h2 ha hf hc text
  have hwk : w.fs.get (joinPath dest [f.path]) = some (.file text) := by
    rcases (h2.room a ha).plain f hf hc with e | ⟨c, e⟩
    · exact absurd e hk
    · simp only [deed, e, Except.ok.injEq] at g1
      rw [← g1]
      show Dict.get (y.fs.put _ _) _ = _
      rw [Dict.get_put, if_pos rfl]
  obtain ⟨z, h3, h4⟩ := inv_deeds h es g2 fun d hx => hd d (List.mem_append_right _ hx)
  refine ⟨z, ?_, edits_stay h ha hf hc hh es g2 hwk (fun d hx => hd d (List.mem_append_right _ hx)) hne h3⟩
  rw [deeds_append, hy]
  show deeds sha dest y (.edit a f text :: es) = _
  unfold deeds
  rw [g1]
  exact h3

/-- **C214.**  Files and links that are no packages' stay. -/
theorem history_frame (hw : WF s) (hp : ∀ p ∈ ps, Proper sha dest p ∧ Room dest s p)
    (hb : ps.Pairwise (fun a b => Beside dest a b ∧ Beside dest b a)) (ds : List Deed) (hd : ∀ d ∈ ds, d.About ps) {k : Str} {n : Node}
    (hk : s.get k = some n) (hn : n ≠ .dir) (h1 : ∀ p ∈ ps, ∀ i ∈ p.is, ∀ q, q <+: i.comps → k ≠ pathOf q)
    (h2 : ∀ p ∈ ps, ∀ f ∈ p.l, f.conf = true → k ≠ joinPath dest [f.path] ++ ".newconfig".toList) :
    ∃ y, deeds sha dest ⟨s, []⟩ ds = .ok y ∧ y.fs.get k = some n := by
  have h : PackSet sha dest ps := ⟨fun p h => (hp p h).1, hb⟩
  have listed : ∀ p ∈ ps, ∀ f ∈ p.l, k ≠ joinPath dest [f.path] := by
    intro p hpp f hf e
    obtain ⟨i, hi, he⟩ := (hp p hpp).1.lists.sub f hf
    exact h1 p hpp i hi _ List.prefix_rfl (e.trans he)
  have step : ∀ (ds : List Deed) (y : Sys), SysInv sha dest ps y → y.fs.get k = some n → (∀ d ∈ ds, d.About ps) →
      ∃ z, deeds sha dest y ds = .ok z ∧ z.fs.get k = some n := by
    intro ds
    induction ds with
    | nil => intro y _ hk _; exact ⟨y, rfl, hk⟩
    | cons d ds ih =>
      intro y hy hk hd
      have : ∃ z, deed sha dest y d = .ok z ∧ SysInv sha dest ps z ∧ z.fs.get k = some n := by
        have hda := hd d (by simp)
        cases d with
        | install a =>
          obtain ⟨z, g1, g2, g3, _⟩ := inv_install h hy hda
          refine ⟨z, g1, g2, ?_⟩
          rw [g3.rest k (h1 a hda) (fun p hc e => ?_), hk]
          obtain ⟨f, hf, hcf, rfl⟩ := changed_conf hc
          exact h2 a hda f hf hcf e
        | remove a db pkg =>
          obtain ⟨z, g1, g2, _, g3⟩ := inv_remove h hy hda db pkg
          refine ⟨z, g1, g2, ?_⟩
          rcases g3 with rfl | g3
          · exact hk
          · rcases remove_only_listed sha dest db pkg a.l y.fs z.fs g3 k (listed a hda) with e | ⟨e, _⟩
            · rw [e, hk]
            · rw [hk] at e
              exact absurd (Option.some.inj e) hn
        | edit a f text =>
          obtain ⟨z, g1, g2, _, g3⟩ := inv_edit h hy hda.1 hda.2.1 hda.2.2 text
          exact ⟨z, g1, g2, by rw [g3 k (listed a hda.1 f hda.2.1), hk]⟩
      obtain ⟨z, g1, g2, g3⟩ := this
      obtain ⟨w, g4, g5⟩ := ih z g2 g3 fun x hx => hd x (by simp [hx])
      exact ⟨w, by unfold deeds; rw [g1]; exact g4, g5⟩
  exact step ds ⟨s, []⟩ ⟨hw, fun p h => (hp p h).2, fun p h => absurd h (by simp), fun p h => absurd h (by simp)⟩ hk hd

/-- Whether a package is installed: the last of its installations and removals says it. -/
theorem history_inst (h : PackSet sha dest ps) {y z : Sys} (hy : SysInv sha dest ps y) {d : Deed} (hd : d.About ps) (hz : deed sha dest y d = .ok z)
    (p : Pack) : p ∈ z.inst ↔ match d with
      | .install a => p = a ∨ p ∈ y.inst
      | .remove a _ _ => p ≠ a ∧ p ∈ y.inst
      | .edit .. => p ∈ y.inst := by
  cases d with
  | install a =>
    obtain ⟨w, g1, _, _, g2⟩ := inv_install h hy hd
    rw [hz] at g1; cases g1
    rw [g2, List.mem_cons]
  | remove a db pkg =>
    obtain ⟨w, g1, _, g2, _⟩ := inv_remove h hy hd db pkg
    rw [hz] at g1; cases g1
    rw [g2, List.mem_filter]
    simp [and_comm]
  | edit a f text =>
    obtain ⟨w, g1, _, g2, _⟩ := inv_edit h hy hd.1 hd.2.1 hd.2.2 text
    rw [hz] at g1; cases g1
    rw [g2]

end

/-- Packages for an example: one with a configuration file, one with a file in a directory of the first. -/
def hiA : Pack := ⟨[⟨"e/c".toList, true, some ['1'], false⟩, ⟨"b/v".toList, false, some ['2'], false⟩],
  [⟨[['e']], .dir⟩, ⟨[['e'], ['c']], .file ['1']⟩, ⟨[['b']], .dir⟩, ⟨[['b'], ['v']], .file ['2']⟩], false⟩
def hiB : Pack := ⟨[⟨"b/w".toList, false, some ['3'], false⟩], [⟨[['b']], .dir⟩, ⟨[['b'], ['w']], .file ['3']⟩], false⟩
def hiFS : FS := [(['/'], .dir)]

theorem hi_take {l : List Str} {P : List Str → Prop} (h : ∀ n ≤ l.length, P (l.take n)) {q : List Str} (hq : q <+: l) : P q := by
  rw [List.prefix_iff_eq_take.mp hq]
  exact h _ hq.length_le

theorem hiA_proper : Proper id ['/'] hiA := by
  refine ⟨⟨by decide, by unfold CompName; decide, by decide, by decide⟩, ⟨by decide, by decide⟩, by decide, ?_, ?_⟩
  · intro f hf hc i hi he
    have : ∀ f ∈ hiA.l, f.conf = true → ∀ i ∈ hiA.is, joinPath ['/'] [f.path] = pathOf i.comps → i.node = .file ['1'] ∧ f.hash = some ['1'] := by decide
    exact ⟨['1'], this f hf hc i hi he⟩
  · intro f hf hc j hj q hq
    have : ∀ f ∈ hiA.l, f.conf = true → ∀ j ∈ hiA.is, ∀ n ≤ j.comps.length, joinPath ['/'] [f.path] ++ ".old".toList ≠ pathOf (j.comps.take n) ∧
      joinPath ['/'] [f.path] ++ ".newconfig".toList ≠ pathOf (j.comps.take n) := by decide
    exact hi_take (P := fun q => joinPath ['/'] [f.path] ++ ".old".toList ≠ pathOf q ∧ joinPath ['/'] [f.path] ++ ".newconfig".toList ≠ pathOf q)
      (this f hf hc j hj) hq

theorem hiA_room : Room ['/'] hiFS hiA := by
  refine ⟨⟨by decide, by decide, fun i hi q hq hne => ?_⟩, fun f hf hc => .inl ?_, by decide, by decide⟩
  · have : ∀ i ∈ hiA.is, ∀ n ≤ i.comps.length, i.comps.take n ≠ i.comps →
      hiFS.get (pathOf (i.comps.take n)) = none ∨ hiFS.get (pathOf (i.comps.take n)) = some .dir := by decide
    exact hi_take (P := fun q => q ≠ i.comps → hiFS.get (pathOf q) = none ∨ hiFS.get (pathOf q) = some .dir) (this i hi) hq hne
  · have : ∀ f ∈ hiA.l, f.conf = true → hiFS.get (joinPath ['/'] [f.path]) = none := by decide
    exact this f hf hc

theorem hiB_proper : Proper id ['/'] hiB := by
  refine ⟨⟨by decide, by unfold CompName; decide, by decide, by decide⟩, ⟨by decide, by decide⟩, by decide, ?_, ?_⟩ <;>
  · intro f hf hc
    exact absurd hc (by rw [List.mem_singleton.mp hf]; decide)

theorem hiB_room : Room ['/'] hiFS hiB := by
  refine ⟨⟨by decide, by decide, fun i hi q hq hne => ?_⟩, fun f hf hc => ?_, by decide, by decide⟩
  · have : ∀ i ∈ hiB.is, ∀ n ≤ i.comps.length, i.comps.take n ≠ i.comps →
      hiFS.get (pathOf (i.comps.take n)) = none ∨ hiFS.get (pathOf (i.comps.take n)) = some .dir := by decide
    exact hi_take (P := fun q => q ≠ i.comps → hiFS.get (pathOf q) = none ∨ hiFS.get (pathOf q) = some .dir) (this i hi) hq hne
  · exact absurd hc (by rw [List.mem_singleton.mp hf]; decide)

theorem hi_all : ∀ p ∈ [hiA, hiB], Proper id ['/'] p ∧ Room ['/'] hiFS p := by
  intro p hp
  simp only [List.mem_cons, List.not_mem_nil, or_false] at hp
  rcases hp with rfl | rfl
  · exact ⟨hiA_proper, hiA_room⟩
  · exact ⟨hiB_proper, hiB_room⟩

theorem hi_beside : [hiA, hiB].Pairwise (fun a b => Beside ['/'] a b ∧ Beside ['/'] b a) := by
  rw [List.pairwise_cons]
  refine ⟨?_, by simp⟩
  intro b hb
  rw [List.mem_singleton.mp hb]
  refine ⟨⟨by decide, ?_⟩, ⟨by decide, ?_⟩⟩
  · intro f hf hc j hj q hq
    have : ∀ f ∈ hiA.l, f.conf = true → ∀ j ∈ hiB.is, ∀ n ≤ j.comps.length, joinPath ['/'] [f.path] ++ ".old".toList ≠ pathOf (j.comps.take n) ∧
      joinPath ['/'] [f.path] ++ ".newconfig".toList ≠ pathOf (j.comps.take n) := by decide
    exact hi_take (P := fun q => joinPath ['/'] [f.path] ++ ".old".toList ≠ pathOf q ∧ joinPath ['/'] [f.path] ++ ".newconfig".toList ≠ pathOf q)
      (this f hf hc j hj) hq
  · intro f hf hc
    exact absurd hc (by rw [List.mem_singleton.mp hf]; decide)

/-- The hypotheses of `history_partial` and `history_intact` can be met: whatever is done with the two packages, the check finds what is installed intact. -/
example (ds : List Deed) (hd : ∀ d ∈ ds, d.About [hiA, hiB]) :
    ∃ y, deeds id ['/'] ⟨hiFS, []⟩ ds = .ok y ∧ ∀ p ∈ y.inst, checkFiles id y.fs p.l = .ok [] :=
  history_intact (wf_check (by decide) (by decide)) hi_all hi_beside (by
    intro p hp
    simp only [List.mem_cons, List.not_mem_nil, or_false] at hp
    rcases hp with rfl | rfl
    · refine ⟨by decide, fun f hf i hi he c hn => ?_, by decide⟩
      have : ∀ f ∈ hiA.l, ∀ i ∈ hiA.is, joinPath ['/'] [f.path] = pathOf i.comps → f.hash.map Node.file = some i.node := by decide
      have := this f hf i hi he
      rw [hn] at this
      obtain ⟨x, e1, e2⟩ := Option.map_eq_some_iff.mp this
      cases e2
      exact e1
    · refine ⟨by decide, fun f hf i hi he c hn => ?_, by decide⟩
      have : ∀ f ∈ hiB.l, ∀ i ∈ hiB.is, joinPath ['/'] [f.path] = pathOf i.comps → f.hash.map Node.file = some i.node := by decide
      have := this f hf i hi he
      rw [hn] at this
      obtain ⟨x, e1, e2⟩ := Option.map_eq_some_iff.mp this
      cases e2
      exact e1) ds hd

/-- And those of `history_edits`: the first is installed and its configuration file changed. -/
example (es : List Deed) (hd : ∀ d ∈ es, d.About [hiA, hiB]) (hne : ∀ d ∈ es, ∀ p g text, d = .edit p g text → "/e/c".toList ≠ joinPath ['/'] [g.path]) :
    ∃ z, deeds id ['/'] ⟨hiFS, []⟩ ([.install hiA] ++ .edit hiA ⟨"e/c".toList, true, some ['1'], false⟩ ['u'] :: es) = .ok z ∧
      z.fs.get "/e/c".toList = some (.file ['u']) := by
  obtain ⟨y, hy, hg⟩ : ∃ y, deeds id ['/'] ⟨hiFS, []⟩ [.install hiA] = .ok y ∧ y.fs.get "/e/c".toList = some (.file ['1']) := by
    have : ((deeds id ['/'] ⟨hiFS, []⟩ [.install hiA]).toOption.map fun y => y.fs.get "/e/c".toList) = some (some (.file ['1'])) := by decide +kernel
    cases h : deeds id ['/'] ⟨hiFS, []⟩ [.install hiA] with
    | error e => rw [h] at this; cases this
    | ok y => rw [h] at this; exact ⟨y, rfl, Option.some.inj this⟩
  have e : joinPath ['/'] ["e/c".toList] = "/e/c".toList := by decide
  have := history_edits (wf_check (by decide) (by decide)) hi_all hi_beside [.install hiA] es (by
    intro d hd'
    rcases List.mem_append.mp hd' with h | h
    · rw [List.mem_singleton.mp h]; exact List.mem_cons_self
    · exact hd d h) hy (a := hiA) (by simp) (f := ⟨"e/c".toList, true, some ['1'], false⟩) (by decide) rfl
    (by show Dict.get y.fs (joinPath ['/'] ["e/c".toList]) ≠ none; rw [e, hg]; exact fun e => by cases e) (text := ['u']) (by decide)
    (by show ∀ d ∈ es, ∀ p g text, d = .edit p g text → joinPath ['/'] ["e/c".toList] ≠ joinPath ['/'] [g.path]; rw [e]; exact hne)
  refine Exists.imp (fun z h => ⟨h.1, ?_⟩) this
  have h2 := h.2
  show Dict.get z.fs _ = _
  rw [← e]
  exact h2

/-- **C214 is false of the code**: one package has a file where the other has a directory. -/
theorem history_refuted : ¬ HistoryFull := by
  intro h
  let A : Pack := ⟨[⟨['a'], false, none, false⟩], [⟨[['a']], .file ['1']⟩], false⟩
  let B : Pack := ⟨[⟨['a', '/', 'b'], false, none, false⟩], [⟨[['a'], ['b']], .file ['2']⟩], false⟩
  have way : ∀ r : List Str, (∀ n ≤ r.length, hiFS.get (pathOf (r.take n)) = none ∨ hiFS.get (pathOf (r.take n)) = some .dir) →
      ∀ q, q <+: r → hiFS.get (pathOf q) = none ∨ hiFS.get (pathOf q) = some .dir := fun r hr q hq =>
    hi_take (P := fun q => hiFS.get (pathOf q) = none ∨ hiFS.get (pathOf q) = some .dir) hr hq
  have noconf : ∀ l : List FileInfo, (∀ f ∈ l, f.conf = false) → ∀ f ∈ l, f.conf = true → False := fun l hl f hf hc => by
    rw [hl f hf] at hc; cases hc
  obtain ⟨y, hy, _⟩ := h id ['/'] [A, B] hiFS
    (by
      intro p hp
      simp only [List.mem_cons, List.not_mem_nil, or_false] at hp
      rcases hp with rfl | rfl
      · refine ⟨⟨⟨by decide, by unfold CompName; decide, by decide, by decide⟩, ⟨by decide, by decide⟩, by decide, ?_, ?_⟩,
          ⟨by decide, by decide, ?_⟩, ?_, ?_, ?_⟩
        iterate 2 exact fun f hf hc => (noconf A.l (by decide) f hf hc).elim
        · intro i hi q hq _
          rw [List.mem_singleton.mp hi] at hq
          exact way _ (by decide) q hq
        all_goals exact fun f hf hc => (noconf A.l (by decide) f hf hc).elim
      · refine ⟨⟨⟨by decide, by unfold CompName; decide, by decide, by decide⟩, ⟨by decide, by decide⟩, by decide, ?_, ?_⟩,
          ⟨by decide, by decide, ?_⟩, ?_, ?_, ?_⟩
        iterate 2 exact fun f hf hc => (noconf B.l (by decide) f hf hc).elim
        · intro i hi q hq _
          rw [List.mem_singleton.mp hi] at hq
          exact way _ (by decide) q hq
        all_goals exact fun f hf hc => (noconf B.l (by decide) f hf hc).elim)
    (by decide) [.install A, .install B] (by
      intro d hd
      simp only [List.mem_cons, List.not_mem_nil, or_false] at hd
      rcases hd with rfl | rfl
      · exact List.mem_cons_self
      · exact List.mem_cons_of_mem _ List.mem_cons_self)
  have hx : (deeds id ['/'] ⟨hiFS, []⟩ [.install A, .install B]).toOption.isSome = false := by decide +kernel
  rw [hy] at hx
  cases hx

end Pisi.FS
