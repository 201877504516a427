import Verif.Spec.InterruptedUp
import Verif.Props.Interrupted
import Verif.Props.UpgradeFiles

/-!
# C224: interrupted upgrades
-/
namespace Pisi.FS
open Pisi.Path

/-- **C224, full statement.**  After any interruptions the next upgrade gives what the first one would have given. -/
def InterruptedUpFull : Prop := ∀ (sha : Str → Str) (dest : Str) (old : List FileInfo) (p : Pack) (s c : FS), WF s → Proper sha dest p →
  Room dest s p → (old.map FileInfo.path).Nodup → (p.l.map FileInfo.path).Nodup → (∀ o ∈ old, ∃ n ∈ p.l, n.path = o.path) →
  Interrupted sha dest (some old) p (fun _ => True) s c →
  ∃ t, (extractInstall sha dest (some old) p.l (p.is.map Item.entry) c).2 = .ok t ∧ PutOver (UserChanged sha dest old p.l s) p.is s t

section
variable {sha : Str → Str} {dest : Str} {old : List FileInfo} {p : Pack} {s c t : FS}

theorem over_conf {f : FileInfo} (hf : f ∈ (p.over old).l) (hc : f.conf = true) :
    ∃ n ∈ p.l, ∃ o ∈ old, n.path = o.path ∧ n.conf = true ∧ o.conf = true ∧ f = n := by
  obtain ⟨n, hn, rfl⟩ := List.mem_map.mp hf
  simp only [Bool.and_eq_true, List.any_eq_true, beq_iff_eq] at hc
  obtain ⟨h1, o, ho, h2, h3⟩ := hc
  refine ⟨n, hn, o, ho, h2.symm, h1, h3, ?_⟩
  have : (old.any fun o => o.path == n.path && o.conf) = true := by
    simp only [List.any_eq_true, Bool.and_eq_true, beq_iff_eq]
    exact ⟨o, ho, h2, h3⟩
  rw [this, h1]
  cases n
  simp_all

theorem mem_over {n o : FileInfo} (hn : n ∈ p.l) (ho : o ∈ old) (e : n.path = o.path) (h1 : n.conf = true) (h2 : o.conf = true) :
    n ∈ (p.over old).l := by
  refine List.mem_map.mpr ⟨n, hn, ?_⟩
  have : (old.any fun o => o.path == n.path && o.conf) = true := by
    simp only [List.any_eq_true, Bool.and_eq_true, beq_iff_eq]
    exact ⟨o, ho, e.symm, h2⟩
  rw [this, h1]
  cases n
  simp_all

theorem over_proper (hp : Proper sha dest p) : Proper sha dest (p.over old) := by
  refine ⟨hp.sound, ⟨fun f hf => ?_, fun i hi => ?_⟩, fun f hf g hg e => ?_, fun f hf hc => ?_, fun f hf hc => ?_⟩
  · obtain ⟨g, hg, rfl⟩ := List.mem_map.mp hf
    exact hp.lists.sub g hg
  · rcases hp.lists.all i hi with ⟨f, hf, e⟩ | h
    · exact .inl ⟨_, List.mem_map.mpr ⟨f, hf, rfl⟩, e⟩
    · exact .inr h
  · obtain ⟨f', hf', rfl⟩ := List.mem_map.mp hf
    obtain ⟨g', hg', rfl⟩ := List.mem_map.mp hg
    rw [hp.once f' hf' g' hg' e]
  · obtain ⟨n, hn, _, _, _, h1, _, rfl⟩ := over_conf hf hc
    exact hp.conf f hn h1
  · obtain ⟨n, hn, _, _, _, h1, _, rfl⟩ := over_conf hf hc
    exact hp.names f hn h1

theorem over_room (hr : RoomOver dest s p) : RoomOver dest s (p.over old) := by
  refine ⟨hr.isOpen, fun f hf hc => ?_, fun f hf hc => ?_, fun f hf hc => ?_⟩ <;>
    obtain ⟨n, hn, _, _, _, h1, _, rfl⟩ := over_conf hf hc
  · exact hr.plain f hn h1
  · exact hr.oldFile f hn h1
  · exact hr.newFree f hn h1

/-! ## The upgrade as steps -/

/-- The files of which the upgrade sees to that they are kept. -/
def watched (dest : Str) (old new : List FileInfo) : List (Option Str × Str) :=
  ((overlapPairs new old).filter (fun x => x.1.conf && x.2.conf)).map fun x => (x.2.hash, joinPath dest [x.2.path])

theorem mem_watched (hno : (old.map FileInfo.path).Nodup) (hnn : (p.l.map FileInfo.path).Nodup) {x : Option Str × Str} :
    x ∈ watched dest old p.l ↔ ∃ n ∈ p.l, ∃ o ∈ old, n.path = o.path ∧ n.conf = true ∧ o.conf = true ∧ x = (o.hash, joinPath dest [o.path]) := by
  unfold watched
  constructor
  · intro h
    obtain ⟨⟨n, o⟩, h', rfl⟩ := List.mem_map.mp h
    obtain ⟨h1, h2⟩ := List.mem_filter.mp h'
    obtain ⟨a, b, e⟩ := (overlapPairs_spec p.l old hnn hno n o).mp h1
    simp only [Bool.and_eq_true] at h2
    exact ⟨n, a, o, b, e, h2.1, h2.2, rfl⟩
  · rintro ⟨n, a, o, b, e, h1, h2, rfl⟩
    exact List.mem_map.mpr ⟨(n, o), List.mem_filter.mpr ⟨(overlapPairs_spec p.l old hnn hno n o).mpr ⟨a, b, e⟩, by simp [h1, h2]⟩, rfl⟩

theorem upgrade_eq (hno : (old.map FileInfo.path).Nodup) (hnn : (p.l.map FileInfo.path).Nodup) (c : FS) (es : List Entry) :
    extractInstall sha dest (some old) p.l es c = Tr.bind (backupList sha (watched dest old p.l) (c, [])) fun st =>
      Tr.bind (extractAll st.1 es) fun fs => Tr.bind (restore fs st.2) fun fs =>
      if old.all (fun f => f.path ∈ p.l.map FileInfo.path) then ([], .ok fs) else ([], .error .typeErr) := by
  unfold extractInstall watched
  simp only
  rw [backupUpg_eq _ _ _ _ (fun x hx => ((overlapPairs_spec p.l old hnn hno x.1 x.2).mp hx).2.2)]

theorem watched_conf (hno : (old.map FileInfo.path).Nodup) (hnn : (p.l.map FileInfo.path).Nodup) :
    ∀ x ∈ watched dest old p.l, (p.over old).Conf dest x.2 := by
  intro x hx
  obtain ⟨n, hn, o, ho, e, h1, h2, rfl⟩ := (mem_watched hno hnn).mp hx
  exact ⟨n, mem_over hn ho e h1 h2, h1, by rw [e]⟩

theorem upgrade_mid (hp : Proper sha dest p) (hr : RoomOver dest s p) (hno : (old.map FileInfo.path).Nodup)
    (hnn : (p.l.map FileInfo.path).Nodup) (h : Mid dest (p.over old) s c) :
    (extractInstall sha dest (some old) p.l (p.is.map Item.entry) c).Sat (Mid dest (p.over old) s) (Mid dest (p.over old) s) := by
  have hp' := over_proper (old := old) hp
  have hr' := over_room (old := old) hr
  rw [upgrade_eq hno hnn]
  refine Tr.Sat.bind (backupList_mid hp' hr' _ (c, []) (watched_conf hno hnn) h (by simp)) fun st h1 => ?_
  refine Tr.Sat.bind (extractAll_mid hp' hr' p.is st.1 (fun _ h => h) h1.1) fun c1 h2 => ?_
  refine Tr.Sat.bind (restore_mid hp' hr' st.2 c1 h1.2 h2) fun c2 h3 => ?_
  split
  · exact Tr.sat_pure h3
  · exact Tr.sat_fail

theorem interruptedUp_mid (hw : WF s) (hp : Proper sha dest p) (hr : RoomOver dest s p) (hno : (old.map FileInfo.path).Nodup)
    (hnn : (p.l.map FileInfo.path).Nodup) {ok : FS → Prop} (h : Interrupted sha dest (some old) p ok s c) : Mid dest (p.over old) s c := by
  induction h with
  | start => exact Mid.start hw
  | again _ hc _ ih => exact (upgrade_mid hp hr hno hnn ih).1 _ hc

theorem Mid.keepableUp (hp : Proper sha dest p) (hr : RoomOver dest s p) (h : Mid dest (p.over old) s c) :
    KeepableOver sha dest (merged old p.l) p.is c := by
  have hp' := over_proper (old := old) hp
  have hr' := over_room (old := old) hr
  have conf : ∀ f ∈ merged old p.l, f.conf = true → ∃ n ∈ (p.over old).l, n.conf = true ∧ n.path = f.path := by
    intro f hf hc
    rcases mem_merged.mp hf with ⟨n, hn, o, ho, he, rfl⟩ | ⟨n, hn, _, rfl⟩
    · simp only [both, Bool.and_eq_true] at hc
      exact ⟨n, mem_over hn ho he hc.1 hc.2, hc.1, he⟩
    · cases hc
  refine ⟨fun f hf hc => ?_, ?_, ?_, ?_⟩
  · obtain ⟨n, hn, h1, h2⟩ := conf f hf hc
    rw [← h2]
    exact h.plain hp' hr' hn h1
  all_goals
    rintro _ ⟨f, hf, hc, rfl, _⟩
    obtain ⟨n, hn, h1, h2⟩ := conf f hf hc
    rw [← h2]
  · exact h.oldFile hp' hr' hn h1
  · exact h.newFile hp' hr' hn h1
  · exact hp'.names n hn h1

/-- What the next upgrade does: it leaves `t`, and fails at its end if files are dropped. -/
theorem Mid.upgrade (hp : Proper sha dest p) (hr : RoomOver dest s p) (hno : (old.map FileInfo.path).Nodup)
    (hnn : (p.l.map FileInfo.path).Nodup) (h : Mid dest (p.over old) s c) : ∃ t,
      Tr.final c (extractInstall sha dest (some old) p.l (p.is.map Item.entry) c) = t ∧
      (extractInstall sha dest (some old) p.l (p.is.map Item.entry) c).2 =
        (if ∀ o ∈ old, ∃ n ∈ p.l, n.path = o.path then .ok t else .error .typeErr) ∧
      ReinstalledOver sha dest (merged old p.l) p.is c t := by
  have hpairs : ∀ x ∈ overlapPairs p.l old, x.1.path = x.2.path := fun x hx => ((overlapPairs_spec p.l old hnn hno x.1 x.2).mp hx).2.2
  obtain ⟨s1, P, t1, t, h1, e1, u1, hres⟩ := install_steps_over (sha := sha) h.wf hp.sound (lists_merged (old := old) hp.lists)
    (show Open (p.over old).is c from h.open (over_proper hp) (over_room hr)) (h.keepableUp hp hr)
    ((overlapPairs p.l old).map fun x => both x.1 x.2)
    (fun f hf => by
      obtain ⟨x, hx, rfl⟩ := List.mem_map.mp hf
      obtain ⟨a, b, c⟩ := (overlapPairs_spec p.l old hnn hno x.1 x.2).mp hx
      exact mem_merged.mpr (.inl ⟨x.1, a, x.2, b, c, rfl⟩))
    (fun f hf hc => by
      rcases mem_merged.mp hf with ⟨n, hn, o, ho, he, rfl⟩ | ⟨n, hn, _, rfl⟩
      · exact List.mem_map.mpr ⟨(n, o), (overlapPairs_spec p.l old hnn hno n o).mpr ⟨hn, ho, he⟩, rfl⟩
      · cases hc)
  rw [← backupUpg_both sha dest _ _ hpairs] at h1
  have hx : extractInstall sha dest (some old) p.l (p.is.map Item.entry) c =
      Tr.bind (Tr.bind (backupUpg sha dest (overlapPairs p.l old) (c, [])) fun st => Tr.bind (extractAll st.1 (p.is.map Item.entry)) fun fs => restore fs st.2)
        fun fs => if old.all (fun f => f.path ∈ p.l.map FileInfo.path) then ([], .ok fs) else ([], .error .typeErr) := by
    unfold extractInstall Tr.bind
    simp only [h1, e1, u1]
    split <;> simp
  have hmid : (Tr.bind (backupUpg sha dest (overlapPairs p.l old) (c, [])) fun st => Tr.bind (extractAll st.1 (p.is.map Item.entry)) fun fs => restore fs st.2).2 = .ok t := by
    rw [bind_ok h1, bind_ok e1, u1]
  have hend : Ends id c (Tr.bind (backupUpg sha dest (overlapPairs p.l old) (c, [])) fun st => Tr.bind (extractAll st.1 (p.is.map Item.entry)) fun fs => restore fs st.2) :=
    Ends.bind (f := Prod.fst) (backupUpg_ends sha dest _ (c, [])) fun b => Ends.bind (extractAll_ends _ b.1) fun c => restore_ends b.2 c
  have hfin : Tr.final c (extractInstall sha dest (some old) p.l (p.is.map Item.entry) c) = t := by
    rw [hx]
    have := hend t hmid
    generalize (Tr.bind (backupUpg sha dest (overlapPairs p.l old) (c, [])) fun st => Tr.bind (extractAll st.1 (p.is.map Item.entry)) fun fs => restore fs st.2) = x at hmid this
    unfold Tr.bind
    rw [hmid]
    unfold Tr.final at this ⊢
    simp only
    split <;> simpa using this
  refine ⟨t, hfin, ?_, hres⟩
  rw [hx, bind_ok hmid]
  by_cases hd : ∀ o ∈ old, ∃ n ∈ p.l, n.path = o.path
  · rw [if_pos hd, if_pos]
    rw [List.all_eq_true]
    intro o ho
    obtain ⟨n, hn, he⟩ := hd o ho
    simpa using ⟨n, hn, he⟩
  · rw [if_neg hd, if_neg]
    intro h
    rw [List.all_eq_true] at h
    refine hd fun o ho => ?_
    simpa using h o ho

/-- The last state is one of the upgrade or the first one. -/
theorem final_mid {β : Type} {P : FS → Prop} {Q : β → Prop} {x : Tr β} (h : x.Sat P Q) (hc : P c) : P (Tr.final c x) := by
  unfold Tr.final
  cases hx : x.1.getLast? with
  | none => exact hc
  | some t => exact h.1 t (List.mem_of_getLast? hx)

/-- **C224.**  However often and wherever upgrading was interrupted, the next upgrade puts all members of the new version in place, except
configuration files of both versions that differ from what the old version records, which are left as they are; it changes nothing that is
not of the new version, and succeeds if no file is dropped.  Missing for the full statement: configuration files that the user has changed. -/
theorem interruptedUp_partial (hw : WF s) (hp : Proper sha dest p) (hr : RoomOver dest s p) (hno : (old.map FileInfo.path).Nodup)
    (hnn : (p.l.map FileInfo.path).Nodup) {ok : FS → Prop} (h : Interrupted sha dest (some old) p ok s c) : ∃ t,
      Tr.final c (extractInstall sha dest (some old) p.l (p.is.map Item.entry) c) = t ∧
      (extractInstall sha dest (some old) p.l (p.is.map Item.entry) c).2 =
        (if ∀ o ∈ old, ∃ n ∈ p.l, n.path = o.path then .ok t else .error .typeErr) ∧
      (∀ i ∈ p.is, ¬ UserChanged sha dest old p.l c (pathOf i.comps) → t.get (pathOf i.comps) = some i.node) ∧
      (∀ k, UserChanged sha dest old p.l c k → t.get k = c.get k) ∧
      ∀ k, ¬ (p.over old).Own dest k → t.get k = s.get k := by
  have hm := interruptedUp_mid hw hp hr hno hnn h
  obtain ⟨t, h1, h2, h3⟩ := hm.upgrade hp hr hno hnn
  refine ⟨t, h1, h2, fun i hi hc => h3.repaired i hi fun h => hc ((changed_merged _).mp h), fun k hk => h3.kept k ((changed_merged k).mpr hk), fun k hk => ?_⟩
  have := final_mid (upgrade_mid hp hr hno hnn hm) hm
  rw [h1] at this
  exact this.rest (over_proper hp) hk

/-! ## Configuration files -/

/-- Members that are no configuration files are in place in any case. -/
theorem interruptedUp_members (hw : WF s) (hp : Proper sha dest p) (hr : RoomOver dest s p) (hno : (old.map FileInfo.path).Nodup)
    (hnn : (p.l.map FileInfo.path).Nodup) {ok : FS → Prop} (h : Interrupted sha dest (some old) p ok s c) {i : Item} (hi : i ∈ p.is)
    (hc : ¬ p.Conf dest (pathOf i.comps)) :
    (Tr.final c (extractInstall sha dest (some old) p.l (p.is.map Item.entry) c)).get (pathOf i.comps) = some i.node := by
  obtain ⟨t, h1, _, h3, _⟩ := interruptedUp_partial hw hp hr hno hnn h
  rw [h1]
  refine h3 i hi ?_
  rintro ⟨n, hn, _, _, _, hnc, _, e, _⟩
  exact hc ⟨n, hn, hnc, e⟩

/-- **C224, no changed configuration file.**  If the user has changed none of the configuration files, and none was cut off at an
interruption, then after the next upgrade all members are in place, configuration files or not. -/
theorem interruptedUp_unchanged (hw : WF s) (hp : Proper sha dest p) (hr : RoomOver dest s p) (hno : (old.map FileInfo.path).Nodup)
    (hnn : (p.l.map FileInfo.path).Nodup) (hun : ∀ k, ¬ UserChanged sha dest old p.l s k)
    (h : Interrupted sha dest (some old) p (fun c' => ∀ k, p.Conf dest k → p.Uncut s k c') s c) {i : Item} (hi : i ∈ p.is) :
    (Tr.final c (extractInstall sha dest (some old) p.l (p.is.map Item.entry) c)).get (pathOf i.comps) = some i.node := by
  obtain ⟨t, h1, _, h3, h4, _⟩ := interruptedUp_partial hw hp hr hno hnn h
  rw [h1]
  by_cases hu : UserChanged sha dest old p.l c (pathOf i.comps)
  · rw [h4 _ hu]
    obtain ⟨n, hn, o, ho, e, hnc, hoc, ep, x, hx, hh⟩ := hu
    have cut : p.Uncut s (pathOf i.comps) c := by
      cases h with
      | start => exact .inr (.inl rfl)
      | again _ _ h => exact h _ ⟨n, hn, hnc, ep⟩
    rcases cut with g | g | ⟨j, hj, ej, g⟩
    · rw [g] at hx; cases hx
    · exact absurd ⟨n, hn, o, ho, e, hnc, hoc, ep, x, g ▸ hx, hh⟩ (hun _)
    · rw [g, List.inj_on_of_nodup_map hp.sound.apart hj hi (pathOf_inj (hp.sound.names j hj) (hp.sound.names i hi) ej.symm)]
  · exact h3 i hi hu

/-- A configuration file of which the upgrade sees nothing to keep, and what is kept beside it. -/
theorem watched_still {q : Pack} (hp : Proper sha dest q) {k : Str} (hk : q.Conf dest k) : ∀ (L : List (Option Str × Str)) (st : FS × List Str),
    (∀ x ∈ L, q.Conf dest x.2) → (∀ x ∈ L, x.2 = k → st.1.get k = none ∨ ∃ y, st.1.get k = some (.file y) ∧ some (sha y) = x.1) →
    k ∉ st.2 → (backupList sha L st).Sat (fun t => t.get (dotOld k) = st.1.get (dotOld k))
      (fun st' => st'.1.get (dotOld k) = st.1.get (dotOld k) ∧ k ∉ st'.2)
  | [], st, _, _, hn => Tr.sat_pure ⟨rfl, hn⟩
  | (hash, f) :: L, st, hL, hq, hn => by
    unfold backupList
    have hcf : q.Conf dest f := hL (hash, f) (by simp)
    have next : ∀ st' : FS × List Str, st'.1.get (dotOld k) = st.1.get (dotOld k) ∧ st'.1.get k = st.1.get k ∧ k ∉ st'.2 →
        (backupList sha L st').Sat (fun t => t.get (dotOld k) = st.1.get (dotOld k))
          (fun st' => st'.1.get (dotOld k) = st.1.get (dotOld k) ∧ k ∉ st'.2) := by
      rintro st' ⟨h1, h2, h3⟩
      have := watched_still hp hk L st' (fun g hg => hL g (by simp [hg])) (fun g hg e => by rw [h2]; exact hq g (by simp [hg]) e) h3
      rw [h1] at this
      exact this
    refine Tr.Sat.bind (Q := fun st' => st'.1.get (dotOld k) = st.1.get (dotOld k) ∧ st'.1.get k = st.1.get k ∧ k ∉ st'.2) ?_ next
    have same : Tr.Sat (([], .ok st) : Tr (FS × List Str)) (fun t => t.get (dotOld k) = st.1.get (dotOld k))
      (fun st' => st'.1.get (dotOld k) = st.1.get (dotOld k) ∧ st'.1.get k = st.1.get k ∧ k ∉ st'.2) := Tr.sat_pure ⟨rfl, rfl, hn⟩
    unfold backupIf
    by_cases e : f = k
    · rcases hq (hash, f) (by simp) e with h0 | ⟨x, h0, h1⟩
      · have : sha1File sha st.1 f = none := by rw [e]; simp [sha1File, stat_none h0]
        rw [this]; exact same
      · have : sha1File sha st.1 f = some (sha x) := by rw [e]; simp [sha1File, stat, statN, h0]
        rw [this]
        simp only [h1, ne_eq, not_true_eq_false, if_false]
        exact same
    · split
      · exact same
      · split
        · have a1 := backup_keeps st.1 f k (Ne.symm e) (conf_apart hp hk hcf).1
          have a2 := backup_keeps st.1 f (dotOld k) (Ne.symm (conf_apart hp hcf hk).1) (fun h => e (dotOld_inj h).symm)
          refine Tr.Sat.bind (Tr.Sat.mono (a2.and a1) (fun _ h => h.1) fun _ h => h) fun c1 h1 => Tr.sat_pure ⟨h1.1, h1.2, ?_⟩
          intro h
          rcases List.mem_append.mp h with h | h
          · exact hn h
          · exact e (List.mem_singleton.mp h).symm
        · exact same

/-- The user's file is where it was, or kept beside while there is none or one that the old version records. -/
def KeptUp (sha : Str → Str) (dest : Str) (old : List FileInfo) (k u : Str) (c : FS) : Prop :=
  c.get k = some (.file u) ∨ (c.get (dotOld k) = some (.file u) ∧
    (c.get k = none ∨ ∃ x, c.get k = some (.file x) ∧ ∀ o ∈ old, joinPath dest [o.path] = k → o.hash = some (sha x)))

theorem zip_snd {α β : Type} : ∀ (a : List α) (b : List β), (a.zip b).map Prod.snd <+: b
  | [], b => by simp
  | _ :: _, [] => by simp
  | x :: a, y :: b => by
    rw [List.zip_cons_cons, List.map_cons]
    obtain ⟨r, hr⟩ := zip_snd a b
    exact ⟨r, by rw [List.cons_append, hr]⟩

theorem watched_apart (hp : Proper sha dest p) (hno : (old.map FileInfo.path).Nodup) (hnn : (p.l.map FileInfo.path).Nodup) :
    Apart ((watched dest old p.l).map Prod.snd) := by
  have hp' := over_proper (old := old) hp
  refine ⟨?_, fun a ha b hb => ?_⟩
  · unfold watched
    rw [List.map_map]
    have nd : (overlapPairs p.l old).Nodup := by
      refine List.Nodup.of_map Prod.snd ?_
      refine List.Nodup.sublist (zip_snd _ _).sublist ?_
      exact ((List.mergeSort_perm old _).nodup_iff.mpr (List.Nodup.of_map _ hno)).filter _
    refine List.Nodup.map_on (fun a ha b hb h => ?_) (nd.filter _)
    obtain ⟨a1, a2, a3⟩ := (overlapPairs_spec p.l old hnn hno a.1 a.2).mp (List.mem_filter.mp ha).1
    obtain ⟨b1, b2, b3⟩ := (overlapPairs_spec p.l old hnn hno b.1 b.2).mp (List.mem_filter.mp hb).1
    have h : joinPath dest [a.2.path] = joinPath dest [b.2.path] := h
    rw [← a3, ← b3] at h
    have e1 := hp.once a.1 a1 b.1 b1 h
    have e2 : a.2 = b.2 := List.inj_on_of_nodup_map hno a2 b2 (by rw [← a3, ← b3, e1])
    exact Prod.ext e1 e2
  · obtain ⟨x, hx, rfl⟩ := List.mem_map.mp ha
    obtain ⟨y, hy, rfl⟩ := List.mem_map.mp hb
    exact conf_apart hp' (watched_conf hno hnn x hx) (watched_conf hno hnn y hy)

theorem KeptUp.step (hp : Proper sha dest p) (hr : RoomOver dest s p) (hno : (old.map FileInfo.path).Nodup)
    (hnn : (p.l.map FileInfo.path).Nodup) (hm : Mid dest (p.over old) s c)
    {k u : Str} (hk : UserChanged sha dest old p.l s k) (hu : s.get k = some (.file u)) (hj : KeptUp sha dest old k u c) :
    ∀ c' ∈ (extractInstall sha dest (some old) p.l (p.is.map Item.entry) c).1, Quiet sha dest old s k c' → KeptUp sha dest old k u c' := by
  obtain ⟨n, hn, o, ho, en, hnc, hoc, e, x, hx, hh⟩ := hk
  rw [hu] at hx
  cases hx
  have hp' := over_proper (old := old) hp
  have hr' := over_room (old := old) hr
  have hconf : (p.over old).Conf dest k := ⟨n, mem_over hn ho en hnc hoc, hnc, e⟩
  have final : ∀ c', Safe k (.file u) c' → Quiet sha dest old s k c' → KeptUp sha dest old k u c' := by
    intro c' hs hun
    by_cases e' : c'.get k = some (.file u)
    · exact .inl e'
    · refine .inr ⟨hs.resolve_left e', ?_⟩
      rcases hun with h | h | h
      · exact .inl h
      · exact absurd (h.trans hu) e'
      · exact .inr h
  have bm := backupList_mid (sha := sha) hp' hr' _ (c, []) (watched_conf hno hnn) hm (by simp)
  have pres : ∀ (c1 : FS), Mid dest (p.over old) s c1 → c1.get (dotOld k) = some (.file u) →
      (extractAll c1 (p.is.map Item.entry)).Sat (Safe k (.file u)) (fun t => t.get (dotOld k) = some (.file u)) := by
    intro c1 h1 h2
    have key : ∀ t, Mid dest (p.over old).plain c1 t → t.get (dotOld k) = some (.file u) := fun t ht =>
      (plain_rest ht fun i hi q hq => (conf_names hp' hconf i hi q hq).1).trans h2
    exact (extract_rest hp' hr' h1).mono (fun t ht => .inr (key t ht)) key
  have last : ∀ fs : FS, Tr.Sat (if old.all (fun f => f.path ∈ p.l.map FileInfo.path) then ([], .ok fs) else ([], .error .typeErr) : Tr FS)
      (Safe k (.file u)) (fun _ => True) := by
    intro fs
    split
    · exact Tr.sat_pure trivial
    · exact Tr.sat_fail
  intro c' hc' hun
  refine final c' ?_ hun
  rw [upgrade_eq hno hnn] at hc'
  rcases hj with hj | ⟨hj, hj'⟩
  · -- changed
    have hap := watched_apart hp hno hnn
    have hmem : (o.hash, k) ∈ watched dest old p.l := (mem_watched hno hnn).mpr ⟨n, hn, o, ho, en, hnc, hoc, by rw [← e, en]⟩
    have b1 := backupList_changed sha k u o.hash (Ne.symm hh) _ (c, []) hap hmem hj
    refine (Tr.Sat.bind (R := fun _ => True) (Tr.Sat.mono (b1.and bm) (fun _ h => h.1) fun _ h => h) fun st h1 => ?_).1 c' hc'
    obtain ⟨⟨h1, l, hl, hsub, hpl⟩, h2, _⟩ := h1
    have hl : st.2 = l := by simpa using hl
    refine Tr.Sat.bind (pres st.1 h2 h1) fun t ht => ?_
    have r := restore_safe k (.file u) st.2 t (hl ▸ hap.sublist hsub) (hl ▸ hpl) ht
    exact Tr.Sat.bind (Tr.Sat.mono r (fun _ h => h) (fun _ _ => trivial)) fun _ _ => last _
  · -- kept beside
    have quiet : ∀ x ∈ watched dest old p.l, x.2 = k → c.get k = none ∨ ∃ y, c.get k = some (.file y) ∧ some (sha y) = x.1 := by
      intro x hx ex
      obtain ⟨n', _, o', ho', _, _, _, rfl⟩ := (mem_watched hno hnn).mp hx
      rcases hj' with h | ⟨y, h, hy⟩
      · exact .inl h
      · exact .inr ⟨y, h, (hy o' ho' ex).symm⟩
    have b1 := watched_still hp' hconf (watched dest old p.l) (c, []) (watched_conf hno hnn) quiet (by simp)
    refine (Tr.Sat.bind (R := fun _ => True) (Tr.Sat.mono (b1.and bm) (fun _ h => .inr (h.1.trans hj)) fun _ h => h) fun st h1 => ?_).1 c' hc'
    obtain ⟨⟨h1, h3⟩, h2, h4⟩ := h1
    refine Tr.Sat.bind (pres st.1 h2 (h1.trans hj)) fun t ht => ?_
    have r := restore_keeps st.2 (dotOld k) t (fun q hq => ⟨Ne.symm (conf_apart hp' (h4 q hq) hconf).1,
      fun h => h3 (by rw [dotOld_inj h]; exact hq), dotOld_ne_dotNew k q⟩)
    exact Tr.Sat.bind (Tr.Sat.mono r (fun _ h => .inr (h.trans ht)) (fun _ _ => trivial)) fun _ _ => last _

/-- **C224, configuration files.**  If at every interruption the place of a configuration file that the user has changed was empty, had the
user's file or one with the text that the old version records, then after the next upgrade the user's file is in its place or beside it
with `.old`. -/
theorem interruptedUp_conf (hw : WF s) (hp : Proper sha dest p) (hr : RoomOver dest s p) (hno : (old.map FileInfo.path).Nodup)
    (hnn : (p.l.map FileInfo.path).Nodup) {k u : Str} (hk : UserChanged sha dest old p.l s k) (hu : s.get k = some (.file u))
    (h : Interrupted sha dest (some old) p (Quiet sha dest old s k) s c) : ∃ t,
      Tr.final c (extractInstall sha dest (some old) p.l (p.is.map Item.entry) c) = t ∧
      (t.get k = some (.file u) ∨ t.get (k ++ ".old".toList) = some (.file u)) := by
  have hj : KeptUp sha dest old k u c := by
    induction h with
    | start => exact .inl hu
    | again h1 h2 h3 ih => exact KeptUp.step hp hr hno hnn (interruptedUp_mid hw hp hr hno hnn h1) hk hu ih _ h2 h3
  have hm := interruptedUp_mid hw hp hr hno hnn h
  obtain ⟨t, h1, _, ho'⟩ := hm.upgrade hp hr hno hnn
  refine ⟨t, h1, ?_⟩
  have hp' := over_proper (old := old) hp
  obtain ⟨n, hn, o, ho, en, hnc, hoc, e, x, hx, hh⟩ := hk
  rw [hu] at hx
  cases hx
  rcases hj with hj | ⟨hj, hj'⟩
  · left
    rw [ho'.kept k ((changed_merged k).mpr ⟨n, hn, o, ho, en, hnc, hoc, e, u, hj, hh⟩), hj]
  · right
    have hno' : ¬ UserChanged sha dest old p.l c k := by
      rintro ⟨n', _, o', ho2, en', _, _, e', x, hx, hne⟩
      rcases hj' with h | ⟨y, h, hy⟩
      · rw [h] at hx; cases hx
      · rw [h] at hx
        cases hx
        exact hne (hy o' ho2 (by rw [← en']; exact e'))
    rw [dotOld_eq, ho'.rest (dotOld k) (fun i hi q hq => (conf_names hp' ⟨n, mem_over hn ho en hnc hoc, hnc, e⟩ i hi q hq).1), hj]
    intro q hq
    rw [dotOld_eq, dotNew_eq]
    exact ⟨dotOld_ne_dotNew k q, fun h => hno' (by rw [dotOld_inj h]; exact (changed_merged q).mp hq)⟩

end

/-- A package of one configuration file, its former version, and a file system in which the user has changed the file. -/
def iuP : Pack := ⟨[⟨"e/c".toList, true, some ['1'], false⟩], [⟨[['e']], .dir⟩, ⟨[['e'], ['c']], .file ['1']⟩], false⟩
def iuOld : List FileInfo := [⟨"e/c".toList, true, some ['0'], false⟩]

/-- The user's file is aside and that of the new version written, as a whole. -/
def iuWhole : FS := Dict.put itAside "/e/c".toList (.file ['1'])

theorem iu_pairs : overlapPairs iuP.l iuOld = [(⟨"e/c".toList, true, some ['1'], false⟩, ⟨"e/c".toList, true, some ['0'], false⟩)] := by
  unfold overlapPairs sortFiles iuP iuOld
  simp only [List.mergeSort_singleton]
  decide

/-- The upgrade with its pairs. -/
theorem iu_eq (c : FS) : extractInstall id ['/'] (some iuOld) iuP.l (iuP.is.map Item.entry) c =
    Tr.bind (backupUpg id ['/'] [(⟨"e/c".toList, true, some ['1'], false⟩, ⟨"e/c".toList, true, some ['0'], false⟩)] (c, [])) fun st =>
      Tr.bind (extractAll st.1 (iuP.is.map Item.entry)) fun fs => Tr.bind (restore fs st.2) fun fs =>
      if iuOld.all (fun f => f.path ∈ iuP.l.map FileInfo.path) then ([], .ok fs) else ([], .error .typeErr) := by
  unfold extractInstall
  simp only [iu_pairs]

theorem iu_proper : Proper id ['/'] iuP := by
  refine ⟨⟨by decide, by unfold CompName; decide, by decide, by decide⟩, ⟨by decide, by decide⟩, by decide, ?_, ?_⟩
  · intro f hf hc i hi he
    have : ∀ f ∈ iuP.l, f.conf = true → ∀ i ∈ iuP.is, joinPath ['/'] [f.path] = pathOf i.comps → i.node = .file ['1'] ∧ f.hash = some ['1'] := by decide
    exact ⟨['1'], this f hf hc i hi he⟩
  · intro f hf hc i hi q hq
    have : ∀ f ∈ iuP.l, f.conf = true → ∀ i ∈ iuP.is, ∀ n ≤ i.comps.length, joinPath ['/'] [f.path] ++ ".old".toList ≠ pathOf (i.comps.take n) ∧
      joinPath ['/'] [f.path] ++ ".newconfig".toList ≠ pathOf (i.comps.take n) := by decide
    exact hi_take (P := fun q => joinPath ['/'] [f.path] ++ ".old".toList ≠ pathOf q ∧ joinPath ['/'] [f.path] ++ ".newconfig".toList ≠ pathOf q)
      (this f hf hc i hi) hq

theorem iu_room : Room ['/'] itFS iuP := by
  refine ⟨⟨by decide, by decide, fun i hi q hq hne => ?_⟩, fun f hf hc => .inr ⟨['u'], ?_⟩, by decide, by decide⟩
  · have : ∀ i ∈ iuP.is, ∀ n ≤ i.comps.length, i.comps.take n ≠ i.comps →
      itFS.get (pathOf (i.comps.take n)) = none ∨ itFS.get (pathOf (i.comps.take n)) = some .dir := by decide
    exact hi_take (P := fun q => q ≠ i.comps → itFS.get (pathOf q) = none ∨ itFS.get (pathOf q) = some .dir) (this i hi) hq hne
  · have : ∀ f ∈ iuP.l, f.conf = true → itFS.get (joinPath ['/'] [f.path]) = some (.file ['u']) := by decide
    exact this f hf hc

theorem iu_changed : UserChanged id ['/'] iuOld iuP.l itFS "/e/c".toList :=
  ⟨⟨"e/c".toList, true, some ['1'], false⟩, by decide, ⟨"e/c".toList, true, some ['0'], false⟩, by decide, rfl, rfl, rfl, by decide, ['u'],
    by decide, by decide⟩

theorem iu_whole {ok : FS → Prop} (h : ok iuWhole) : Interrupted id ['/'] (some iuOld) iuP ok itFS iuWhole :=
  .again .start (by rw [iu_eq]; decide +kernel) h

theorem iu_aside {ok : FS → Prop} (h : ok itAside) : Interrupted id ['/'] (some iuOld) iuP ok itFS itAside :=
  .again .start (by rw [iu_eq]; decide +kernel) h

/-- The hypotheses can be met. -/
example : (∃ t, Tr.final iuWhole (extractInstall id ['/'] (some iuOld) iuP.l (iuP.is.map Item.entry) iuWhole) = t ∧
      (extractInstall id ['/'] (some iuOld) iuP.l (iuP.is.map Item.entry) iuWhole).2 =
        (if ∀ o ∈ iuOld, ∃ n ∈ iuP.l, n.path = o.path then .ok t else .error .typeErr) ∧
      (∀ i ∈ iuP.is, ¬ UserChanged id ['/'] iuOld iuP.l iuWhole (pathOf i.comps) → t.get (pathOf i.comps) = some i.node) ∧
      (∀ k, UserChanged id ['/'] iuOld iuP.l iuWhole k → t.get k = iuWhole.get k) ∧
      ∀ k, ¬ (iuP.over iuOld).Own ['/'] k → t.get k = itFS.get k) :=
  interruptedUp_partial it_wf iu_proper iu_room.over (by decide) (by decide) (iu_whole (ok := fun _ => True) trivial)

example : ∃ t, Tr.final itAside (extractInstall id ['/'] (some iuOld) iuP.l (iuP.is.map Item.entry) itAside) = t ∧
    (t.get "/e/c".toList = some (.file ['u']) ∨ t.get ("/e/c".toList ++ ".old".toList) = some (.file ['u'])) :=
  interruptedUp_conf it_wf iu_proper iu_room.over (by decide) (by decide) iu_changed (by decide) (iu_aside (.inl (by decide)))

/-- The same, with the file of the old version. -/
def iuFS : FS := [(['/'], .dir), ("/e".toList, .dir), ("/e/c".toList, .file ['0'])]

example : (Tr.final (Dict.put iuFS "/e/c".toList (.file ['1'])) (extractInstall id ['/'] (some iuOld) iuP.l (iuP.is.map Item.entry)
    (Dict.put iuFS "/e/c".toList (.file ['1'])))).get (pathOf [['e'], ['c']]) = some (.file ['1']) := by
  have room : Room ['/'] iuFS iuP := by
    refine ⟨⟨by decide, by decide, fun i hi q hq hne => ?_⟩, fun f hf hc => .inr ⟨['0'], ?_⟩, by decide, by decide⟩
    · have : ∀ i ∈ iuP.is, ∀ n ≤ i.comps.length, i.comps.take n ≠ i.comps →
        iuFS.get (pathOf (i.comps.take n)) = none ∨ iuFS.get (pathOf (i.comps.take n)) = some .dir := by decide
      exact hi_take (P := fun q => q ≠ i.comps → iuFS.get (pathOf q) = none ∨ iuFS.get (pathOf q) = some .dir) (this i hi) hq hne
    · have : ∀ f ∈ iuP.l, f.conf = true → iuFS.get (joinPath ['/'] [f.path]) = some (.file ['0']) := by decide
      exact this f hf hc
  refine interruptedUp_unchanged (wf_check (by decide) (by decide)) iu_proper room.over (by decide) (by decide) ?_
    (.again .start (by rw [iu_eq]; decide +kernel) ?_) (i := ⟨[['e'], ['c']], .file ['1']⟩) (by decide)
  · rintro k ⟨n, hn, o, ho, _, _, _, rfl, x, hx, hh⟩
    have h1 : ∀ n ∈ iuP.l, iuFS.get (joinPath ['/'] [n.path]) = some (.file ['0']) := by decide
    have h2 : ∀ o ∈ iuOld, o.hash = some (id ['0']) := by decide
    rw [h1 n hn] at hx
    cases hx
    exact hh (h2 o ho)
  · rintro k ⟨f, hf, hc, rfl⟩
    have : ∀ f ∈ iuP.l, joinPath ['/'] [f.path] = "/e/c".toList := by decide
    rw [this f hf]
    exact .inr (.inr ⟨⟨[['e'], ['c']], .file ['1']⟩, by decide, by decide, by decide⟩)

/-- After an interruption when the configuration file of the new version is written, as a whole, it is taken for one that the user has
changed, and the user's is nowhere any more. -/
theorem interruptedUp_lost : ∃ t, Interrupted id ['/'] (some iuOld) iuP (fun c' => ∀ k, iuP.Conf ['/'] k → iuP.Uncut itFS k c') itFS iuWhole ∧
    (extractInstall id ['/'] (some iuOld) iuP.l (iuP.is.map Item.entry) iuWhole).2 = .ok t ∧
    t.get "/e/c".toList = some (.file ['1']) ∧ ∀ k, t.get k ≠ some (.file ['u']) := by
  have hi : Interrupted id ['/'] (some iuOld) iuP (fun c' => ∀ k, iuP.Conf ['/'] k → iuP.Uncut itFS k c') itFS iuWhole := by
    refine iu_whole ?_
    rintro k ⟨f, hf, hc, rfl⟩
    have : ∀ f ∈ iuP.l, joinPath ['/'] [f.path] = "/e/c".toList := by decide
    rw [this f hf]
    exact .inr (.inr ⟨⟨[['e'], ['c']], .file ['1']⟩, by decide, by decide, by decide⟩)
  cases h : (extractInstall id ['/'] (some iuOld) iuP.l (iuP.is.map Item.entry) iuWhole).2 with
  | error e =>
    have : (extractInstall id ['/'] (some iuOld) iuP.l (iuP.is.map Item.entry) iuWhole).2.toOption.isSome = true := by rw [iu_eq]; decide +kernel
    rw [h] at this; cases this
  | ok t =>
    have : (extractInstall id ['/'] (some iuOld) iuP.l (iuP.is.map Item.entry) iuWhole).2.toOption.any (fun t =>
      decide (t.get "/e/c".toList = some (.file ['1']) ∧ ∀ k ∈ t.keys, t.get k ≠ some (.file ['u']))) = true := by rw [iu_eq]; decide +kernel
    rw [h] at this
    simp only [Except.toOption, Option.any_some, decide_eq_true_eq] at this
    refine ⟨t, hi, rfl, this.1, fun k hk => this.2 k ?_ hk⟩
    exact (Dict.mem_keys _ _).mpr (by simp [hk])

/-- **C224 is false of the code.** -/
theorem interruptedUp_refuted : ¬ InterruptedUpFull := by
  intro h
  obtain ⟨t, _, ht, hc, _⟩ := interruptedUp_lost
  obtain ⟨t', ht', hr⟩ := h id ['/'] iuOld iuP itFS iuWhole it_wf iu_proper iu_room (by decide) (by decide) (by decide) (iu_whole trivial)
  rw [ht] at ht'
  cases ht'
  have := hr.kept _ iu_changed
  rw [hc] at this
  revert this
  decide

end Pisi.FS
