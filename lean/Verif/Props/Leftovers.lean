import Verif.Spec.Leftovers
import Verif.Props.UpgradeHistory

/-!
# C220: what is left behind
-/
namespace Pisi.FS
open Pisi.Path

/-- **C220, full statement.**  At a place of the packages where nothing was before, there is something exactly if an installed version has it. -/
def LeftoversFull : Prop := ∀ (sha : Str → Str) (dest : Str) (nm : Pack → Str) (ps : List Pack) (s : FS), WF s → Family sha dest nm ps →
  (∀ p ∈ ps, Room dest s p) → ∀ ds : List Deed, (∀ d ∈ ds, d.About ps ∧ d.Owned dest) → ∀ k, Ordinary dest ps k → s.get k = none →
  ((udeeds sha dest nm ⟨s, [], []⟩ ds).fs.get k ≠ none ↔ ∃ p ∈ (udeeds sha dest nm ⟨s, [], []⟩ ds).inst, Has p k)

section
variable {sha : Str → Str} {dest : Str} {nm : Pack → Str} {s t : FS} {ps : List Pack} {a b p : Pack} {k : Str}

/-- What a version has there is a file or a link, and listed. -/
theorem Ordinary.listed (h : Family sha dest nm ps) (hk : Ordinary dest ps k) (hp : p ∈ ps) (hh : Has p k) :
    ∃ i ∈ p.is, k = pathOf i.comps ∧ i.node ≠ .dir ∧ ∃ f ∈ p.l, joinPath dest [f.path] = k ∧ f.conf = false ∧ f.permanent = false := by
  obtain ⟨v, hv, i, hi, hd, rfl⟩ := hk.isOf
  obtain ⟨j, hj, e⟩ := hh
  have ec := pathOf_inj ((h.proper v hv).sound.names i hi) ((h.proper p hp).sound.names j hj) e
  have hjd : j.node ≠ .dir := fun hx => hd ((h.version hp hv).kind j hj i hi ec.symm hx)
  rcases (h.proper p hp).lists.all j hj with ⟨f, hf, he⟩ | ⟨hx, _⟩
  · have := he.trans e.symm
    exact ⟨j, hj, e, hjd, f, hf, this, hk.plain p hp f hf this⟩
  · exact absurd hx hjd

/-- An installation puts something there only if its version has it. -/
theorem Ordinary.put (h : Family sha dest nm ps) (hk : Ordinary dest ps k) (hb : b ∈ ps) (hh : ¬ Has b k) {l : List FileInfo} (hc : ConfOf l b)
    (hr : Reinstalled sha dest l b.is s t) : t.get k = s.get k := by
  obtain ⟨v, hv, i, hi, hd, rfl⟩ := hk.isOf
  refine hr.rest _ (fun j hj q hq e => ?_) (fun q hq e => ?_)
  · have ec := pathOf_inj ((h.proper v hv).sound.names i hi) (fun x hx => (h.proper b hb).sound.names j hj x (hq.subset hx)) e
    subst ec
    by_cases e' : i.comps = j.comps
    · exact hh ⟨j, hj, by rw [e']⟩
    · exact hd ((h.version hv hb).way i hi j hj hq e')
  · obtain ⟨g, hg, hcg, rfl⟩ := hc.changed hq
    exact ((h.version hb hv).names g hg hcg i hi _ List.prefix_rfl).2 e.symm

/-- A removal leaves nothing there. -/
theorem Ordinary.take (h : Family sha dest nm ps) (hk : Ordinary dest ps k) (ha : a ∈ ps) (hh : Has a k) (hr : Room dest s a)
    (db : DB.FilesDB Str Nat Unit) (pkg : Nat) (ho : ∀ f ∈ a.l, ∀ o i, db.get (joinPath dest [f.path]) = some (o, i) → o = pkg)
    (ht : removeFiles sha dest db pkg a.l s = .ok t) : t.get k = none := by
  obtain ⟨i, hi, e, hd, f, hf, rfl, hcf, hpf⟩ := hk.listed h ha hh
  have ho : ∀ f ∈ a.l, ¬ Foreign db pkg (joinPath dest [f.path]) := fun f hf ⟨o, i, h1, h2⟩ => h2 (ho f hf o i h1)
  have hnd : (a.l.map (fun f => joinPath dest [f.path])).Nodup :=
    List.Nodup.map_on (fun f hf g hg e => (h.proper a ha).once f hf g hg e) (List.Nodup.of_map _ (h.once a ha))
  cases hg : s.get (joinPath dest [f.path]) with
  | none =>
    rcases removeFiles_frame sha dest db pkg a.l s t ht (joinPath dest [f.path]) with e | ⟨e, _⟩
    · rw [e, hg]
    · exact e
  | some n =>
    cases n with
    | dir =>
      rw [e] at hg
      exact absurd hg (hr.isOpen.nodir i hi hd)
    | file c => exact (remove_decision sha dest db pkg a.l s t hnd ht f hf (ho f hf) c hg).2.2.2 hpf hcf
    | link x => exact remove_links sha dest db pkg a.l s t hnd ht f hf (ho f hf) x hg hpf hcf

/-- **C220.**  At a place of the packages where nothing was before there is something only if an installed version has it, or a version
whose installation has failed. -/
theorem leftovers_partial (hw : WF s) (h : Family sha dest nm ps) (hr : ∀ p ∈ ps, Room dest s p) (hk : Ordinary dest ps k) (hs : s.get k = none)
    (ds : List Deed) (hd : ∀ d ∈ ds, d.About ps ∧ d.Owned dest) (hg : (udeeds sha dest nm ⟨s, [], []⟩ ds).fs.get k ≠ none) :
    (∃ p ∈ (udeeds sha dest nm ⟨s, [], []⟩ ds).inst, Has p k) ∨ FailedWith sha dest nm s ds k := by
  induction ds using Pisi.snoc_induction with
  | h0 => exact absurd hs hg
  | hs ds d ih =>
    have hd1 : ∀ x ∈ ds, x.About ps ∧ x.Owned dest := fun x hx => hd x (List.mem_append_left _ hx)
    have hy := uinv_deeds h ds (uinv_start (sha := sha) (nm := nm) hw hr) fun x hx => (hd1 x hx).1
    obtain ⟨hda, hdo⟩ := hd d (by simp)
    have ih := ih hd1
    have more : FailedWith sha dest nm s ds k → FailedWith sha dest nm s (ds ++ [d]) k := fun ⟨es, b, fs, e, r⟩ =>
      ⟨es, b, fs ++ [d], by rw [e]; simp, r⟩
    have hnew : ∀ b, d = .install b → Drops nm (udeeds sha dest nm ⟨s, [], []⟩ ds) b → Has b k → FailedWith sha dest nm s (ds ++ [d]) k :=
      fun b e h1 h2 => ⟨ds, b, [], by rw [e], h1, h2⟩
    rw [udeeds_append] at hg ⊢
    generalize udeeds sha dest nm ⟨s, [], []⟩ ds = y at hg hy ih hnew ⊢
    change (udeed sha dest nm y d).fs.get k ≠ none at hg
    show (∃ p ∈ (udeed sha dest nm y d).inst, Has p k) ∨ _
    cases d with
    | install b =>
      obtain ⟨l, _, hc, hre, _, hres⟩ := inv_put h hy hda
      by_cases hb : Has b k
      · rcases hres with ⟨_, e, _⟩ | ⟨hdr, _, _⟩
        · exact .inl ⟨b, by rw [e]; exact List.mem_cons_self, hb⟩
        · exact .inr (hnew b rfl hdr hb)
      · rw [hk.put h hda hb hc hre] at hg
        rcases ih hg with ⟨v, hv, hvk⟩ | hx
        · rcases hres with ⟨hnd, e, _⟩ | ⟨_, e, _⟩
          · by_cases en : nm v = nm b
            · obtain ⟨_, _, _, _, f, hf, rfl, _⟩ := hk.listed h (hy.known v hv) hvk
              refine absurd ⟨v, hv, en, f, hf, fun n hn e' => hb ?_⟩ hnd
              obtain ⟨i, hi, hie⟩ := (h.proper b hda).lists.sub n hn
              exact ⟨i, hi, by rw [← e']; exact hie⟩
            · refine .inl ⟨v, ?_, hvk⟩
              rw [e]
              exact List.mem_cons_of_mem _ (List.mem_filter.mpr ⟨hv, by simpa using en⟩)
          · exact .inl ⟨v, by rw [e]; exact hv, hvk⟩
        · exact .inr (more hx)
    | remove a db pkg =>
      obtain ⟨_, he, _, _, hre⟩ := inv_take h hy hda db pkg
      rcases hre with e | ⟨hai, hre⟩
      · rw [e] at hg ⊢
        exact (ih hg).imp id more
      · have hyk : y.fs.get k ≠ none := by
          rcases removeFiles_frame sha dest db pkg a.l y.fs _ hre k with e | ⟨e, _⟩
          · rw [e] at hg; exact hg
          · exact absurd e hg
        rcases ih hyk with ⟨v, hv, hvk⟩ | hx
        · by_cases e : v = a
          · subst e
            exact absurd (hk.take h hda hvk (hy.room v hda) db pkg hdo hre) hg
          · refine .inl ⟨v, ?_, hvk⟩
            rw [he]
            exact List.mem_filter.mpr ⟨hv, by simpa using e⟩
        · exact .inr (more hx)
    | edit a f text =>
      obtain ⟨_, he, _, hre⟩ := inv_write h hy hda.1 hda.2.1 hda.2.2 text
      rw [hre k (fun e => ?_)] at hg
      · rw [he]
        exact (ih hg).imp id more
      · have := (hk.plain a hda.1 f hda.2.1 e.symm).1
        rw [hda.2.2] at this
        cases this

/-- **C220.**  If no installation drops a file of the version it replaces, the files of the packages that are there are exactly those of the
installed ones.  What is missing for the full statement, which is false of the code: failed upgrades. -/
theorem leftovers_none_partial (hw : WF s) (h : Family sha dest nm ps) (hr : ∀ p ∈ ps, Room dest s p) (hk : Ordinary dest ps k) (hs : s.get k = none)
    (ds : List Deed) (hd : ∀ d ∈ ds, d.About ps ∧ d.Owned dest)
    (hnd : ∀ es b fs, ds = es ++ .install b :: fs → ¬ Drops nm (udeeds sha dest nm ⟨s, [], []⟩ es) b) :
    (udeeds sha dest nm ⟨s, [], []⟩ ds).fs.get k ≠ none ↔ ∃ p ∈ (udeeds sha dest nm ⟨s, [], []⟩ ds).inst, Has p k := by
  obtain ⟨h1, h2⟩ := upgrades_partial hw h hr ds fun d hx => (hd d hx).1
  constructor
  · intro hg
    rcases leftovers_partial hw h hr hk hs ds hd hg with hx | ⟨es, b, fs, e, hdr, _⟩
    · exact hx
    · exact absurd hdr (hnd es b fs e)
  · rintro ⟨p, hp, hpk⟩
    obtain ⟨hpp, hwh, _⟩ := h1 p hp
    obtain ⟨i, hi, e, hid, f, hf, he, hcf, _⟩ := hk.listed h hpp hpk
    rw [e, hwh (by rw [h2 hnd]; simp) f hf hcf i hi (he.trans e) hid]
    exact fun e => by cases e

/-- So when everything is removed nothing of it is left. -/
theorem leftovers_removed (hw : WF s) (h : Family sha dest nm ps) (hr : ∀ p ∈ ps, Room dest s p) (hk : Ordinary dest ps k) (hs : s.get k = none)
    (ds : List Deed) (hd : ∀ d ∈ ds, d.About ps ∧ d.Owned dest)
    (hnd : ∀ es b fs, ds = es ++ .install b :: fs → ¬ Drops nm (udeeds sha dest nm ⟨s, [], []⟩ es) b)
    (hi : (udeeds sha dest nm ⟨s, [], []⟩ ds).inst = []) : (udeeds sha dest nm ⟨s, [], []⟩ ds).fs.get k = none := by
  refine Classical.byContradiction fun hg => ?_
  obtain ⟨p, hp, _⟩ := (leftovers_none_partial hw h hr hk hs ds hd hnd).mp hg
  rw [hi] at hp
  cases hp

/-- A database of relative names, as the records of packages have them, has no other package for any file. -/
theorem owned_relative (pp : Proper sha dest p) (db : DB.FilesDB Str Nat Unit) (pkg : Nat) (hdb : ∀ k v, db.get k = some v → k.head? ≠ some '/') :
    Deed.Owned dest (.remove p db pkg) := by
  intro f hf o i h
  obtain ⟨j, _, e⟩ := pp.lists.sub f hf
  refine absurd ?_ (hdb _ _ h)
  rw [e]
  unfold pathOf
  cases j.comps <;> rfl

end

/-- The hypotheses of `leftovers_partial` can be met: the file that only the new version has. -/
theorem hi_ordinary : Ordinary ['/'] [hiA, hiA2, hiB] "/b/z".toList :=
  ⟨⟨hiA2, by decide, ⟨[['b'], ['z']], .file ['6']⟩, by decide, by decide, by decide⟩, by decide⟩

example (ds : List Deed) (hd : ∀ d ∈ ds, d.About [hiA, hiA2, hiB] ∧ d.Owned ['/'])
    (hg : (udeeds id ['/'] hiName ⟨hiFS, [], []⟩ ds).fs.get "/b/z".toList ≠ none) :
    (∃ p ∈ (udeeds id ['/'] hiName ⟨hiFS, [], []⟩ ds).inst, Has p "/b/z".toList) ∨ FailedWith id ['/'] hiName hiFS ds "/b/z".toList :=
  leftovers_partial hi_wf hi_family hi_room hi_ordinary (by decide) ds hd hg

/-- Two versions with one file each. -/
def loX : Pack := ⟨[⟨['x'], false, some ['1'], false⟩], [⟨[['x']], .file ['1']⟩], false⟩
def loY : Pack := ⟨[⟨['y'], false, some ['2'], false⟩], [⟨[['y']], .file ['2']⟩], false⟩

/-- **C220 is false of the code**: the upgrade fails for the old file, which is dropped, and the new one stays though it is not recorded. -/
theorem leftovers_refuted : ¬ LeftoversFull := by
  intro h
  have noconf : ∀ p ∈ [loX, loY], ∀ f ∈ p.l, f.conf = true → False := fun p hp f hf hc => by
    have : ∀ p ∈ [loX, loY], ∀ f ∈ p.l, f.conf = false := by decide
    rw [this p hp f hf] at hc; cases hc
  have hfam : Family id ['/'] (fun _ => ['P']) [loX, loY] := by
    refine ⟨fun p hp => ?_, by decide, fun a _ b _ hne => absurd rfl hne, fun a ha b hb _ hne => ?_⟩
    · refine ⟨?_, ?_, ?_, fun f hf hc => (noconf p hp f hf hc).elim, fun f hf hc => (noconf p hp f hf hc).elim⟩ <;>
        simp only [List.mem_cons, List.not_mem_nil, or_false] at hp <;> rcases hp with rfl | rfl
      · exact ⟨by decide, by unfold CompName; decide, by decide, by decide⟩
      · exact ⟨by decide, by unfold CompName; decide, by decide, by decide⟩
      · exact ⟨by decide, by decide⟩
      · exact ⟨by decide, by decide⟩
      · decide
      · decide
    · refine ⟨?_, ?_, fun f hf hc => (noconf a ha f hf hc).elim, fun f hf hc => (noconf a ha f hf hc).elim⟩ <;>
        simp only [List.mem_cons, List.not_mem_nil, or_false] at ha hb <;> rcases ha with rfl | rfl <;> rcases hb with rfl | rfl <;>
        first | exact absurd rfl hne | decide
  have hroom : ∀ p ∈ [loX, loY], Room ['/'] hiFS p := by
    intro p hp
    refine ⟨⟨?_, ?_, fun i hi q hq _ => ?_⟩, fun f hf hc => (noconf p hp f hf hc).elim, fun f hf hc => (noconf p hp f hf hc).elim,
      fun f hf hc => (noconf p hp f hf hc).elim⟩
    · have : ∀ p ∈ [loX, loY], ∀ i ∈ p.is, i.node = .dir → hiFS.get (pathOf i.comps) = none ∨ hiFS.get (pathOf i.comps) = some .dir := by decide
      exact this p hp
    · have : ∀ p ∈ [loX, loY], ∀ i ∈ p.is, i.node ≠ .dir → hiFS.get (pathOf i.comps) ≠ some .dir := by decide
      exact this p hp
    · have : ∀ p ∈ [loX, loY], ∀ i ∈ p.is, ∀ n ≤ i.comps.length, hiFS.get (pathOf (i.comps.take n)) = none ∨ hiFS.get (pathOf (i.comps.take n)) = some .dir := by
        decide
      exact hi_take (P := fun q => hiFS.get (pathOf q) = none ∨ hiFS.get (pathOf q) = some .dir) (this p hp i hi) hq
  have hds : ∀ d ∈ [Deed.install loX, .install loY], d.About [loX, loY] ∧ d.Owned ['/'] := by
    intro d hd
    simp only [List.mem_cons, List.not_mem_nil, or_false] at hd
    rcases hd with rfl | rfl
    · exact ⟨List.mem_cons_self, trivial⟩
    · exact ⟨List.mem_cons_of_mem _ List.mem_cons_self, trivial⟩
  have h0 := uinv_start (sha := id) (nm := fun _ => ['P']) hi_wf hroom
  have h1 := uinv_deed hfam h0 (hds (.install loX) (by simp)).1
  have hnf : ¬ Drops (fun _ => ['P']) ⟨hiFS, [], []⟩ loX := by
    rintro ⟨_, hx, _⟩; cases hx
  have hin : ∀ p, p ∈ (udeed id ['/'] (fun _ => ['P']) ⟨hiFS, [], []⟩ (.install loX)).inst ↔ p = loX := by
    intro p
    rw [upgrades_inst hfam h0 (by simp), if_neg (fun hx => hnf ((upgrade_fails_iff hfam h0 (by simp)).mp hx))]
    simp
  have hdr : Drops (fun _ => ['P']) (udeed id ['/'] (fun _ => ['P']) ⟨hiFS, [], []⟩ (.install loX)) loY :=
    ⟨loX, (hin loX).mpr rfl, rfl, ⟨['x'], false, some ['1'], false⟩, by decide, by decide⟩
  have hin2 : ∀ p, p ∈ (udeeds id ['/'] (fun _ => ['P']) ⟨hiFS, [], []⟩ [.install loX, .install loY]).inst ↔ p = loX := by
    intro p
    show p ∈ (udeed id ['/'] (fun _ => ['P']) (udeed id ['/'] (fun _ => ['P']) ⟨hiFS, [], []⟩ (.install loX)) (.install loY)).inst ↔ _
    rw [upgrades_inst hfam h1 (by simp), if_pos ((upgrade_fails_iff hfam h1 (by simp)).mpr hdr), hin]
  have hwh : Whole ['/'] (udeeds id ['/'] (fun _ => ['P']) ⟨hiFS, [], []⟩ [.install loX, .install loY]).fs loY := upgrades_failed hfam h1 (by simp)
  have hg := hwh ⟨['y'], false, some ['2'], false⟩ (by decide) rfl ⟨[['y']], .file ['2']⟩ (by decide) (by decide) (by decide)
  obtain ⟨p, hp, hpk⟩ := (h id ['/'] (fun _ => ['P']) _ hiFS hi_wf hfam hroom _ hds ['/', 'y']
    ⟨⟨loY, by simp, ⟨[['y']], .file ['2']⟩, by decide, by decide, by decide⟩, by decide⟩ (by decide)).mp
    (by rw [show (['/', 'y'] : Str) = pathOf [['y']] by decide, hg]; exact fun e => by cases e)
  rw [hin2] at hp
  subst hp
  obtain ⟨i, hi, e⟩ := hpk
  rw [List.mem_singleton.mp hi] at e
  exact absurd e (by decide)

end Pisi.FS
