import Verif.Props.RoundTrip
import Verif.Spec.Reinstall

/-!
# C208: installing a package again repairs it
-/
namespace Pisi.FS
open Pisi.Path

/-- **C208, full statement.** -/
def ReinstallFull : Prop := ∀ (sha : Str → Str) (dest : Str) (l : List FileInfo) (is : List Item) (s : FS),
  WF s → Sound is → Lists dest l is →
  ∃ t, (extractInstall sha dest (some l) l (is.map Item.entry) s).2 = .ok t ∧ Reinstalled sha dest l is s t

/-! ## Extraction over what is there -/

/-- What is on the way to something is a directory. -/
theorem WF.dir_above {s : FS} (hw : WF s) (r q : List Str) (hr : r ≠ []) (hn : ∀ x ∈ q ++ r, CompName x)
    (h : s.get (pathOf (q ++ r)) ≠ none) : s.get (pathOf q) = some .dir := by
  cases r with
  | nil => exact absurd rfl hr
  | cons c r =>
    have hn' : ∀ x ∈ (q ++ [c]) ++ r, CompName x := by simpa using hn
    have h1 := hw.up r (q ++ [c]) hn' (by simpa using h)
    obtain ⟨n, e⟩ := Option.ne_none_iff_exists'.mp h1
    have hqc : ∀ x ∈ q ++ [c], CompName x := fun x hx => hn' x (List.mem_append_left _ hx)
    rcases hw.parent _ n e with g | ⟨g, _⟩
    · have := pathOf_root hqc g
      simp at this
    · rw [dirname_pathOf hqc] at g
      exact g

theorem checkDir_dir {s : FS} {d : Str} (h : s.get d = some .dir) : checkDir s d = ([], .ok s) := by
  unfold checkDir
  rw [if_pos (by simp [existsP, stat_dir h])]

theorem clearWay_some {s : FS} {p : Str} {n : Node} (hg : s.get p = some n) (hd : n ≠ .dir) : (clearWay s p).2 = .ok (s.del p) := by
  unfold clearWay
  cases n with
  | dir => exact absurd rfl hd
  | file d =>
    rw [if_pos (by simp [isFile, stat, statN, hg])]
    simp [unlink, hg, Tr.atomic]
  | link d =>
    rw [if_pos (by simp [isLink, hg])]
    simp [unlink, hg, Tr.atomic]

theorem clearWay_none {s : FS} {p : Str} (hg : s.get p = none) : (clearWay s p).2 = .ok s := by
  unfold clearWay
  rw [if_neg (by simp [isFile, isLink, stat_none hg, hg])]

/-- A file or link in the way makes no difference. -/
theorem extractEntry_del (i : Item) (s : FS) (hw : WF s) (hi : i.node ≠ .dir) {n : Node}
    (hg : s.get (pathOf i.comps) = some n) (hd : n ≠ .dir) :
    (extractEntry s i.entry).2 = (extractEntry (s.del (pathOf i.comps)) i.entry).2 := by
  have hpar : s.get (dirname (pathOf i.comps)) = some .dir ∧ dirname (pathOf i.comps) ≠ pathOf i.comps := by
    rcases hw.parent _ n hg with e | ⟨e1, e2⟩
    · rw [e, hw.root] at hg
      exact absurd (Option.some.inj hg).symm hd
    · exact ⟨e1, fun e => by rw [e] at e2; omega⟩
  have hpar' : (s.del (pathOf i.comps)).get (dirname (pathOf i.comps)) = some .dir := by
    rw [Dict.get_del, if_neg (Ne.symm hpar.2)]
    exact hpar.1
  have hnone : (s.del (pathOf i.comps)).get (pathOf i.comps) = none := by rw [Dict.get_del, if_pos rfl]
  obtain ⟨cs, m⟩ := i
  simp only at *
  cases m with
  | dir => exact absurd rfl hi
  | file c =>
    simp only [Item.entry, extractEntry]
    rw [checkDir_dir hpar.1, checkDir_dir hpar', bind_ok (show (([], .ok s) : Tr FS).2 = .ok s from rfl),
      bind_ok (show (([], .ok (s.del (pathOf cs))) : Tr FS).2 = .ok (s.del (pathOf cs)) from rfl), bind_ok (clearWay_some hg hd),
      bind_ok (clearWay_none hnone)]
  | link t =>
    simp only [Item.entry, extractEntry]
    rw [checkDir_dir hpar.1, checkDir_dir hpar', bind_ok (show (([], .ok s) : Tr FS).2 = .ok s from rfl),
      bind_ok (show (([], .ok (s.del (pathOf cs))) : Tr FS).2 = .ok (s.del (pathOf cs)) from rfl), bind_ok (clearWay_some hg hd),
      bind_ok (clearWay_none hnone)]

/-- What changes by extracting one member. -/
def Puts (i : Item) (s t : FS) : Prop :=
  ∀ k, t.get k = s.get k ∨ k = pathOf i.comps ∨
    (s.get k = none ∧ t.get k = some .dir ∧ ∃ q, q <+: i.comps ∧ q ≠ i.comps ∧ k = pathOf q)

theorem extractEntry_open (i : Item) (s : FS) (hne : i.comps ≠ []) (hn : ∀ x ∈ i.comps, CompName x) (hw : WF s)
    (ho : Open [i] s) :
    ∃ t, (extractEntry s i.entry).2 = .ok t ∧ WF t ∧ t.get (pathOf i.comps) = some i.node ∧ Puts i s t := by
  have hway := ho.way i (by simp)
  have free : ∀ s', WF s' → FreeFor i s' → (∀ k, k ≠ pathOf i.comps → s'.get k = s.get k) →
      ∃ t, (extractEntry s' i.entry).2 = .ok t ∧ WF t ∧ t.get (pathOf i.comps) = some i.node ∧ Puts i s t := by
    intro s' hw' hf hsame
    obtain ⟨t, h1, h2, h3, h4⟩ := extractEntry_free i s' hne hn hw' hf
    refine ⟨t, h1, h2, h3, fun k => ?_⟩
    by_cases hk : k = pathOf i.comps
    · exact .inr (.inl hk)
    · rcases h4 k with e | ⟨e, ⟨e1, _⟩ | ⟨e1, e2⟩⟩
      · exact .inl (by rw [e, hsame k hk])
      · exact absurd e1 hk
      · exact .inr (.inr ⟨by rw [← hsame k hk]; exact e, e1, e2⟩)
  by_cases hd : i.node = .dir
  · refine free s hw ⟨?_, hway⟩ (fun _ _ => rfl)
    rcases ho.dir i (by simp) hd with e | e
    · exact .inl e
    · exact .inr ⟨hd, e⟩
  · cases hg : s.get (pathOf i.comps) with
    | none => exact free s hw ⟨.inl hg, hway⟩ (fun _ _ => rfl)
    | some n =>
      have hnd : n ≠ .dir := fun e => ho.nodir i (by simp) hd (by rw [hg, e])
      rw [extractEntry_del i s hw hd hg hnd]
      refine free _ (hw.del_nondir _ _ hg hnd) ⟨.inl (by rw [Dict.get_del, if_pos rfl]), fun q h1 h2 => ?_⟩
        (fun k hk => by rw [Dict.get_del, if_neg (Ne.symm hk)])
      rw [Dict.get_del]
      by_cases e : pathOf i.comps = pathOf q
      · rw [if_pos e]; exact .inl rfl
      · rw [if_neg e]; exact hway q h1 h2

theorem extract_open : ∀ (is : List Item) (s : FS), Sound is → WF s → Open is s →
    ∃ t, (extractAll s (is.map Item.entry)).2 = .ok t ∧ WF t ∧ (∀ i ∈ is, t.get (pathOf i.comps) = some i.node) ∧
      ∀ k, t.get k = s.get k ∨ ∃ i ∈ is, ∃ q, q <+: i.comps ∧ k = pathOf q := by
  intro is
  induction is with
  | nil => intro s _ hw _; exact ⟨s, rfl, hw, by simp, fun k => .inl rfl⟩
  | cons i is ih =>
    intro s hs hw ho
    obtain ⟨t, h1, h2, h3, h4⟩ := extractEntry_open i s (hs.ne i (by simp)) (hs.names i (by simp)) hw
      ⟨fun j hj => ho.dir j (by simp at hj; simp [hj]), fun j hj => ho.nodir j (by simp at hj; simp [hj]),
        fun j hj => ho.way j (by simp at hj; simp [hj])⟩
    have hnd := hs.apart
    rw [List.map_cons, List.nodup_cons] at hnd
    have hs' : Sound is := ⟨fun j hj => hs.ne j (by simp [hj]), fun j hj => hs.names j (by simp [hj]), hnd.2,
      fun j hj k hk => hs.inDirs j (by simp [hj]) k (by simp [hk])⟩
    have hne : ∀ j ∈ is, i.comps ≠ j.comps := fun j hj e => hnd.1 (e ▸ List.mem_map.mpr ⟨j, hj, rfl⟩)
    have hin := hs.names i (by simp)
    have at_item : ∀ j ∈ is, t.get (pathOf j.comps) = s.get (pathOf j.comps) ∨
        (j.node = .dir ∧ t.get (pathOf j.comps) = some .dir) := by
      intro j hj
      have hjn := hs.names j (by simp [hj])
      rcases h4 (pathOf j.comps) with e | e | ⟨_, e, q, hq1, hq2, hq3⟩
      · exact .inl e
      · exact absurd (pathOf_inj hjn hin e).symm (hne j hj)
      · have := pathOf_inj hjn (fun x hx => hin x (hq1.subset hx)) hq3
        subst this
        exact .inr ⟨hs.inDirs j (by simp [hj]) i (by simp) hq1 hq2, e⟩
    obtain ⟨u, g1, g2, g3, g4⟩ := ih t hs' h2 (by
      refine ⟨fun j hj hd => ?_, fun j hj hd => ?_, fun j hj q hq1 hq2 => ?_⟩
      · rcases at_item j hj with e | ⟨_, e⟩
        · rw [e]; exact ho.dir j (by simp [hj]) hd
        · exact .inr e
      · rcases at_item j hj with e | ⟨e, _⟩
        · rw [e]; exact ho.nodir j (by simp [hj]) hd
        · exact absurd e hd
      · have hjn := hs.names j (by simp [hj])
        rcases h4 (pathOf q) with e | e | ⟨_, e, _⟩
        · rw [e]; exact ho.way j (by simp [hj]) q hq1 hq2
        · have := pathOf_inj (fun x hx => hjn x (hq1.subset hx)) hin e
          subst this
          rw [h3, hs.inDirs i (by simp) j (by simp [hj]) hq1 hq2]
          exact .inr rfl
        · exact .inr e)
    refine ⟨u, ?_, g2, ?_, fun k => ?_⟩
    · rw [List.map_cons, extractAll, bind_ok h1]; exact g1
    · intro j hj
      rcases List.mem_cons.mp hj with rfl | hj
      · rcases g4 (pathOf j.comps) with e | ⟨m, hm, q, hq1, hq2⟩
        · rw [e]; exact h3
        · have hmn := hs.names m (by simp [hm])
          have := pathOf_inj hin (fun x hx => hmn x (hq1.subset hx)) hq2
          subst this
          have hdir : j.node = .dir := hs.inDirs j (by simp) m (by simp [hm]) hq1 (hne m hm)
          rw [hdir]
          obtain ⟨r, hr⟩ := hq1
          have hrne : r ≠ [] := by
            rintro rfl
            exact hne m hm (by simpa using hr)
          exact g2.dir_above r j.comps hrne (by rw [hr]; exact hmn) (by rw [hr, g3 m hm]; simp)
      · exact g3 j hj
    · rcases g4 k with e | ⟨j, hj, q, hq1, hq2⟩
      · rcases h4 k with f | f | ⟨_, _, q, hq1, _, hq2⟩
        · exact .inl (e.trans f)
        · exact .inr ⟨i, by simp, i.comps, List.prefix_rfl, f⟩
        · exact .inr ⟨i, by simp, q, hq1, hq2⟩
      · exact .inr ⟨j, by simp [hj], q, hq1, hq2⟩

/-! ## Keeping the changed configuration files -/

theorem dotOld_eq (p : Str) : p ++ ".old".toList = dotOld p := rfl
theorem dotNew_eq (p : Str) : p ++ ".newconfig".toList = dotNew p := rfl

/-- The changed configuration files `P` have been moved away. -/
structure Moved (s s' : FS) (P : List Str) : Prop where
  wf : WF s'
  gone : ∀ p ∈ P, s'.get p = none
  away : ∀ p ∈ P, s'.get (dotOld p) = s.get p
  rest : ∀ k, k ∉ P → (∀ p ∈ P, k ≠ dotOld p) → s'.get k = s.get k

section
variable {sha : Str → Str} {dest : Str} {l : List FileInfo} {is : List Item} {s : FS}

/-- A changed file is a member of the package. -/
theorem Changed.item (hl : Lists dest l is) {p : Str} (h : Changed sha dest l s p) : ∃ i ∈ is, p = pathOf i.comps := by
  obtain ⟨f, hf, _, rfl, _⟩ := h
  exact hl.sub f hf

theorem Changed.file {p : Str} (h : Changed sha dest l s p) : ∃ c, s.get p = some (.file c) := by
  obtain ⟨_, _, _, _, c, hc, _⟩ := h
  exact ⟨c, hc⟩

theorem dirname_old (hs : Sound is) (hl : Lists dest l is) {p : Str} (h : Changed sha dest l s p) :
    dirname (dotOld p) = dirname p ∧ (dirname p).length < (dotOld p).length := by
  obtain ⟨i, hi, rfl⟩ := h.item hl
  obtain ⟨b, c, hbc⟩ := (List.eq_nil_or_concat i.comps).resolve_left (hs.ne i hi)
  rw [List.concat_eq_append] at hbc
  have hn := hs.names i hi
  rw [hbc] at hn ⊢
  have hc : CompName c := hn c (by simp)
  have hd := dirname_pathOf hn
  have h2 : dirname (dotOld (pathOf (b ++ [c]))) = dirname (pathOf (b ++ [c])) := by
    have e : dotOld (pathOf (b ++ [c])) = pathOf (b ++ [dotOld c]) := by
      rw [pathOf_snoc, pathOf_snoc]
      simp [dotOld]
    rw [e, hd]
    refine dirname_pathOf (fun x hx => ?_)
    rcases List.mem_append.mp hx with hx | hx
    · exact hn x (List.mem_append_left _ hx)
    · rw [List.mem_singleton.mp hx]
      refine ⟨by simp [dotOld], ?_⟩
      have := hc.2
      simp [dotOld, this]
  refine ⟨h2, ?_⟩
  rw [hd]
  have := length_pathOf (cs := b) hc
  simp [dotOld]
  omega

theorem Keepable.over (h : Keepable sha dest l is s) : KeepableOver sha dest l is s :=
  ⟨h.plain, fun p hp => .inl (h.old p hp), h.new, h.names⟩

theorem backup_moves (hs : Sound is) (hl : Lists dest l is) (hk : KeepableOver sha dest l is s) {s' : FS} {P : List Str}
    (hP : ∀ p ∈ P, Changed sha dest l s p) (hm : Moved s s' P) {p : Str} (hp : Changed sha dest l s p) (hnew : p ∉ P) :
    ∃ s'', (backup s' p).2 = .ok s'' ∧ Moved s s'' (P ++ [p]) := by
  have hitem : ∀ p', Changed sha dest l s p' → ∀ p'', Changed sha dest l s p'' → p'' ≠ dotOld p' := by
    intro p' h' p'' h''
    obtain ⟨i, hi, rfl⟩ := h''.item hl
    exact fun e => (hk.names p' h' i hi i.comps List.prefix_rfl).1 (by rw [dotOld_eq]; exact e.symm)
  obtain ⟨c, hc⟩ := hp.file
  have hne : p ≠ dotOld p := hitem p hp p hp
  have hgetp : s'.get p = some (.file c) := by
    rw [hm.rest p hnew (fun p' h' => hitem p' (hP p' h') p hp)]
    exact hc
  -- when nothing is in the way
  have core : ∀ s1 : FS, WF s1 → (∀ k, k ≠ dotOld p → s1.get k = s'.get k) → s1.get (dotOld p) = none →
      (Tr.atomic (rename s1 p (dotOld p))).2 = .ok ((s1.del p).put (dotOld p) (.file c)) ∧
      Moved s ((s1.del p).put (dotOld p) (.file c)) (P ++ [p]) := by
    intro s1 hw1 hsame hold
    have hget : s1.get p = some (.file c) := (hsame p hne).trans hgetp
    refine ⟨by simp [rename, hget, hold, Tr.atomic], ?_⟩
    have hdir := dirname_old hs hl hp
    have hpar := hw1.parent p _ hget
    have hproot : p ≠ ['/'] := by
      rintro rfl
      rw [hw1.root] at hget
      cases hget
    obtain ⟨hp1, hp2⟩ := hpar.resolve_left hproot
    have hdne : p ≠ dirname p := fun e => by rw [← e] at hp2; omega
    have hget' : ∀ k, ((s1.del p).put (dotOld p) (.file c)).get k = if dotOld p = k then some (.file c) else
        if p = k then none else s'.get k := by
      intro k
      rw [Dict.get_put, Dict.get_del]
      by_cases e : dotOld p = k
      · rw [if_pos e, if_pos e]
      · rw [if_neg e, if_neg e, hsame k (Ne.symm e)]
    refine ⟨WF.put (hw1.del_nondir _ _ hget (by simp)) ?_ ?_ ?_, ?_, ?_, ?_⟩
    · rw [Dict.get_del, if_neg hne]; exact hold
    · rw [hdir.1, Dict.get_del, if_neg hdne]; exact hp1
    · rw [hdir.1]; exact hdir.2
    · intro p' h'
      rw [hget']
      have hc' : Changed sha dest l s p' := by
        rcases List.mem_append.mp h' with h | h
        · exact hP p' h
        · rw [List.mem_singleton.mp h]; exact hp
      rw [if_neg (fun e => hitem p hp p' hc' e.symm)]
      by_cases e : p = p'
      · rw [if_pos e]
      · rw [if_neg e]
        rcases List.mem_append.mp h' with h | h
        · exact hm.gone p' h
        · exact absurd (List.mem_singleton.mp h).symm e
    · intro p' h'
      rw [hget']
      by_cases e : dotOld p = dotOld p'
      · rw [if_pos e, ← dotOld_inj e, hc]
      · rw [if_neg e]
        have h : p' ∈ P := by
          rcases List.mem_append.mp h' with h | h
          · exact h
          · exact absurd (by rw [List.mem_singleton.mp h]) e
        rw [if_neg (hitem p' (hP p' h) p hp)]
        exact hm.away p' h
    · intro k hk1 hk2
      rw [hget', if_neg (fun e => hk2 p (by simp) e.symm), if_neg (fun e => hk1 (by simp [e]))]
      exact hm.rest k (fun h => hk1 (by simp [h])) (fun p' h' => hk2 p' (by simp [h']))
  have hsold : s'.get (dotOld p) = s.get (dotOld p) := by
    refine hm.rest _ (fun h => hitem p hp _ (hP _ h) rfl) fun p' h' e => hnew (dotOld_inj e ▸ h')
  rcases hk.old p hp with ho | ⟨o, ho⟩
  · have hold := hsold.trans ho
    have hx : existsP s' (dotOld p) = false := by simp [existsP, stat_none hold]
    obtain ⟨h1, h2⟩ := core s' hm.wf (fun _ _ => rfl) hold
    refine ⟨_, ?_, h2⟩
    unfold backup
    rw [if_neg (by simp [hx]), bind_ok (show (([], .ok s') : Tr FS).2 = .ok s' from rfl)]
    exact h1
  · have hold : s'.get (dotOld p) = some (.file o) := hsold.trans ho
    have hx : existsP s' (dotOld p) = true := by simp [existsP, stat, statN, hold]
    obtain ⟨h1, h2⟩ := core (s'.del (dotOld p)) (hm.wf.del_nondir _ _ hold (by simp))
      (fun k hk => by rw [Dict.get_del, if_neg (Ne.symm hk)]) (by rw [Dict.get_del, if_pos rfl])
    refine ⟨_, ?_, h2⟩
    unfold backup
    rw [if_pos hx, bind_ok (b := s'.del (dotOld p)) (by simp [unlink, hold, Tr.atomic])]
    exact h1

/-- The whole loop. -/
theorem backupUpg_moves (hs : Sound is) (hl : Lists dest l is) (hk : KeepableOver sha dest l is s) :
    ∀ (L : List FileInfo), (∀ f ∈ L, f ∈ l) → ∀ (s' : FS) (P : List Str), P.Nodup → (∀ p ∈ P, Changed sha dest l s p) → Moved s s' P →
    ∃ s'' Q, (backupUpg sha dest (L.map (fun f => (f, f))) (s', P)).2 = .ok (s'', Q) ∧ Q.Nodup ∧ (∀ p ∈ Q, Changed sha dest l s p) ∧
      Moved s s'' Q ∧ (∀ p ∈ P, p ∈ Q) ∧ ∀ p, Changed sha dest L s p → p ∈ Q := by
  intro L
  induction L with
  | nil =>
    intro _ s' P hnd hP hm
    exact ⟨s', P, rfl, hnd, hP, hm, fun _ h => h, fun p ⟨f, hf, _⟩ => absurd hf (by simp)⟩
  | cons f L ih =>
    intro hL s' P hnd hP hm
    have hfl := hL f (by simp)
    have hL' : ∀ f ∈ L, f ∈ l := fun g hg => hL g (List.mem_cons_of_mem _ hg)
    rw [List.map_cons, backupUpg, if_neg (by simp)]
    have split : ∀ Q : List Str, (∀ p ∈ P, p ∈ Q) → (∀ p, Changed sha dest L s p → p ∈ Q) →
        (∀ c, f.conf = true → s.get (joinPath dest [f.path]) = some (.file c) → f.hash ≠ some (sha c) → joinPath dest [f.path] ∈ Q) →
        ∀ p, Changed sha dest (f :: L) s p → p ∈ Q := by
      rintro Q _ hQ hf p ⟨g, hg, hgc, rfl, c, hc, hh⟩
      rcases List.mem_cons.mp hg with rfl | hg
      · exact hf c hgc hc hh
      · exact hQ _ ⟨g, hg, hgc, rfl, c, hc, hh⟩
    cases hcf : f.conf with
    | false =>
      simp only [Bool.and_false, Bool.false_eq_true, if_false]
      obtain ⟨s'', Q, h1, h2, h3, h4, h5, h6⟩ := ih hL' s' P hnd hP hm
      exact ⟨s'', Q, h1, h2, h3, h4, h5, split Q h5 h6 (fun c h => by rw [hcf] at h; cases h)⟩
    | true =>
      simp only [Bool.and_self, if_true]
      have hitem : ∀ p' ∈ P, joinPath dest [f.path] ≠ dotOld p' := by
        intro p' h' e
        obtain ⟨i, hi, hpi⟩ := hl.sub f hfl
        exact (hk.names p' (hP p' h') i hi i.comps List.prefix_rfl).1 (by rw [dotOld_eq, ← e, hpi])
      by_cases hin : joinPath dest [f.path] ∈ P
      · have hsha : sha1File sha s' (joinPath dest [f.path]) = none := by
          simp [sha1File, stat_none (hm.gone _ hin)]
        unfold backupIf
        simp only [hsha]
        rw [bind_ok (show (([], .ok (s', P)) : Tr (FS × List Str)).2 = .ok (s', P) from rfl)]
        obtain ⟨s'', Q, h1, h2, h3, h4, h5, h6⟩ := ih hL' s' P hnd hP hm
        exact ⟨s'', Q, h1, h2, h3, h4, h5, split Q h5 h6 (fun _ _ _ _ => h5 _ hin)⟩
      · have hsame : s'.get (joinPath dest [f.path]) = s.get (joinPath dest [f.path]) := hm.rest _ hin hitem
        rcases hk.plain f hfl hcf with hno | ⟨c, hc⟩
        · have hsha : sha1File sha s' (joinPath dest [f.path]) = none := by
            simp [sha1File, stat_none (hsame.trans hno)]
          unfold backupIf
          simp only [hsha]
          rw [bind_ok (show (([], .ok (s', P)) : Tr (FS × List Str)).2 = .ok (s', P) from rfl)]
          obtain ⟨s'', Q, h1, h2, h3, h4, h5, h6⟩ := ih hL' s' P hnd hP hm
          exact ⟨s'', Q, h1, h2, h3, h4, h5, split Q h5 h6 (fun c _ h _ => by rw [hno] at h; cases h)⟩
        · have hsha : sha1File sha s' (joinPath dest [f.path]) = some (sha c) := by
            simp [sha1File, stat, statN, hsame.trans hc]
          unfold backupIf
          simp only [hsha]
          by_cases hh : some (sha c) ≠ f.hash
          · rw [if_pos hh]
            have hch : Changed sha dest l s (joinPath dest [f.path]) := ⟨f, hfl, hcf, rfl, c, hc, fun e => hh e.symm⟩
            obtain ⟨s1, b1, b2⟩ := backup_moves hs hl hk hP hm hch hin
            rw [bind_ok (b := (s1, P ++ [joinPath dest [f.path]])) (by rw [bind_ok b1])]
            obtain ⟨s'', Q, h1, h2, h3, h4, h5, h6⟩ := ih hL' s1 (P ++ [joinPath dest [f.path]])
              (List.nodup_append.mpr ⟨hnd, List.nodup_singleton _, fun a ha b hb e => hin (List.mem_singleton.mp hb ▸ e ▸ ha)⟩)
              (fun p h => by
                rcases List.mem_append.mp h with h | h
                · exact hP p h
                · rw [List.mem_singleton.mp h]; exact hch) b2
            exact ⟨s'', Q, h1, h2, h3, h4, fun p h => h5 p (by simp [h]), split Q (fun p h => h5 p (by simp [h])) h6
              (fun _ _ _ _ => h5 _ (by simp))⟩
          · rw [if_neg hh]
            rw [bind_ok (show (([], .ok (s', P)) : Tr (FS × List Str)).2 = .ok (s', P) from rfl)]
            obtain ⟨s'', Q, h1, h2, h3, h4, h5, h6⟩ := ih hL' s' P hnd hP hm
            exact ⟨s'', Q, h1, h2, h3, h4, h5, split Q h5 h6 (fun c' _ h h' => by
              rw [hc] at h
              cases h
              exact absurd (fun e => h' e.symm) hh)⟩

/-- Putting the changed files back. -/
theorem restore_moves : ∀ (P : List Str) (t : FS), P.Nodup → (∀ p ∈ P, ∀ p' ∈ P, p ≠ dotOld p' ∧ p ≠ dotNew p') →
    (∀ p ∈ P, ∃ n, t.get p = some n ∧ n ≠ .dir) → (∀ p ∈ P, ∃ c, t.get (dotOld p) = some (.file c)) →
    (∀ p ∈ P, t.get (dotNew p) ≠ some .dir) →
    ∃ u, (restore t P).2 = .ok u ∧ (∀ p ∈ P, u.get p = t.get (dotOld p) ∧ u.get (dotNew p) = t.get p ∧ u.get (dotOld p) = none) ∧
      ∀ k, (∀ p ∈ P, k ≠ p ∧ k ≠ dotNew p ∧ k ≠ dotOld p) → u.get k = t.get k := by
  intro P
  induction P with
  | nil => intro t _ _ _ _ _; exact ⟨t, rfl, by simp, fun _ _ => rfl⟩
  | cons p P ih =>
    intro t hnd hne hnode hold hnew
    rw [List.nodup_cons] at hnd
    obtain ⟨n, hn, hnd'⟩ := hnode p (by simp)
    obtain ⟨c, hc⟩ := hold p (by simp)
    have hpo : p ≠ dotOld p := (hne p (by simp) p (by simp)).1
    have hpn : p ≠ dotNew p := (hne p (by simp) p (by simp)).2
    have hon : dotOld p ≠ dotNew p := dotOld_ne_dotNew p p
    -- the old `.newconfig` goes
    obtain ⟨t1, e1, f1⟩ : ∃ t1, (if existsP t (dotNew p) then Tr.atomic (unlink t (dotNew p)) else ([], .ok t) : Tr FS).2 = .ok t1 ∧
        (∀ k, k ≠ dotNew p → t1.get k = t.get k) ∧ t1.get (dotNew p) ≠ some .dir := by
      cases hx : existsP t (dotNew p) with
      | false => exact ⟨t, rfl, fun _ _ => rfl, hnew p (by simp)⟩
      | true =>
        rw [if_pos rfl]
        cases hg : t.get (dotNew p) with
        | none => simp [existsP, stat_none hg] at hx
        | some m =>
          refine ⟨t.del (dotNew p), ?_, fun k hk => by rw [Dict.get_del, if_neg (Ne.symm hk)], by rw [Dict.get_del, if_pos rfl]; simp⟩
          cases m with
          | dir => exact absurd hg (hnew p (by simp))
          | file d => simp [unlink, hg, Tr.atomic]
          | link d => simp [unlink, hg, Tr.atomic]
    have g1 : t1.get p = some n := (f1.1 p hpn).trans hn
    have e2 : (Tr.atomic (rename t1 p (dotNew p))).2 = .ok ((t1.del p).put (dotNew p) n) := by
      unfold rename
      rw [g1]
      cases n with
      | dir => exact absurd rfl hnd'
      | file d => simp [f1.2, Tr.atomic]
      | link d => simp [f1.2, Tr.atomic]
    have g2 : ((t1.del p).put (dotNew p) n).get (dotOld p) = some (.file c) := by
      rw [Dict.get_put, if_neg (Ne.symm hon), Dict.get_del, if_neg hpo, f1.1 _ hon]
      exact hc
    have g3 : ((t1.del p).put (dotNew p) n).get p = none := by
      rw [Dict.get_put, if_neg (Ne.symm hpn), Dict.get_del, if_pos rfl]
    have e3 : (Tr.atomic (rename ((t1.del p).put (dotNew p) n) (dotOld p) p)).2 =
        .ok ((((t1.del p).put (dotNew p) n).del (dotOld p)).put p (.file c)) := by
      unfold rename
      rw [g2]
      simp [g3, Tr.atomic]
    have hfin : ∀ k, ((((t1.del p).put (dotNew p) n).del (dotOld p)).put p (.file c)).get k =
        if p = k then some (.file c) else if dotOld p = k then none else if dotNew p = k then some n else t.get k := by
      intro k
      rw [Dict.get_put, Dict.get_del, Dict.get_put, Dict.get_del]
      by_cases a : p = k
      · simp only [if_pos a]
      · simp only [if_neg a]
        by_cases b : dotOld p = k
        · simp only [if_pos b]
        · simp only [if_neg b]
          by_cases d : dotNew p = k
          · simp only [if_pos d]
          · simp only [if_neg d]
            exact f1.1 k (Ne.symm d)
    have other : ∀ p' ∈ P, ∀ k, k = p' ∨ k = dotOld p' ∨ k = dotNew p' →
        ((((t1.del p).put (dotNew p) n).del (dotOld p)).put p (.file c)).get k = t.get k := by
      intro p' h' k hk
      have hpp : p ≠ p' := fun e => hnd.1 (e ▸ h')
      have q1 := hne p (by simp) p' (by simp [h'])
      have q2 := hne p' (by simp [h']) p (by simp)
      rw [hfin]
      rcases hk with rfl | rfl | rfl
      · rw [if_neg hpp, if_neg (Ne.symm q2.1), if_neg (Ne.symm q2.2)]
      · rw [if_neg q1.1, if_neg (fun e => hpp (dotOld_inj e)), if_neg (fun e => dotOld_ne_dotNew _ _ e.symm)]
      · rw [if_neg q1.2, if_neg (dotOld_ne_dotNew _ _), if_neg (fun e => hpp (dotNew_inj e))]
    obtain ⟨u, h1, h2, h3⟩ := ih _ hnd.2 (fun a ha b hb => hne a (by simp [ha]) b (by simp [hb]))
      (fun p' h' => by rw [other p' h' p' (.inl rfl)]; exact hnode p' (by simp [h']))
      (fun p' h' => by rw [other p' h' _ (.inr (.inl rfl))]; exact hold p' (by simp [h']))
      (fun p' h' => by rw [other p' h' _ (.inr (.inr rfl))]; exact hnew p' (by simp [h']))
    have apart : ∀ k, k = p ∨ k = dotOld p ∨ k = dotNew p → ∀ p' ∈ P, k ≠ p' ∧ k ≠ dotNew p' ∧ k ≠ dotOld p' := by
      intro k hk p' h'
      have hpp : p ≠ p' := fun e => hnd.1 (e ▸ h')
      have q1 := hne p (by simp) p' (by simp [h'])
      have q2 := hne p' (by simp [h']) p (by simp)
      rcases hk with rfl | rfl | rfl
      · exact ⟨hpp, q1.2, q1.1⟩
      · exact ⟨Ne.symm q2.1, dotOld_ne_dotNew _ _, fun e => hpp (dotOld_inj e)⟩
      · exact ⟨Ne.symm q2.2, fun e => hpp (dotNew_inj e), fun e => dotOld_ne_dotNew _ _ e.symm⟩
    refine ⟨u, ?_, ?_, ?_⟩
    · rw [restore, bind_ok e1, bind_ok e2, bind_ok e3]
      exact h1
    · intro p' h'
      rcases List.mem_cons.mp h' with rfl | h'
      · rw [h3 _ (apart _ (.inl rfl)), h3 _ (apart _ (.inr (.inl rfl))), h3 _ (apart _ (.inr (.inr rfl))), hfin, hfin, hfin,
          if_pos rfl, if_neg hpo, if_pos rfl, if_neg hpn, if_neg hon, if_pos rfl, hc, hn]
        exact ⟨rfl, rfl, rfl⟩
      · obtain ⟨a, b, d⟩ := h2 p' h'
        rw [a, b, d, other p' h' _ (.inr (.inl rfl)), other p' h' _ (.inl rfl)]
        exact ⟨rfl, rfl, rfl⟩
    · intro k hk
      rw [h3 k (fun p' h' => hk p' (by simp [h'])), hfin]
      obtain ⟨a, b, d⟩ := hk p (by simp)
      rw [if_neg (Ne.symm a), if_neg (Ne.symm d), if_neg (Ne.symm b)]

theorem overlap_self (l : List FileInfo) :
    overlapPairs l l = (sortFiles l).map (fun f => (f, f)) := by
  have hmem : ∀ f ∈ sortFiles l, f ∈ l := fun f h => by
    unfold sortFiles at h
    exact (List.mergeSort_perm l _).mem_iff.mp h
  unfold overlapPairs
  have : ∀ L : List FileInfo, (∀ f ∈ L, f ∈ l) →
      L.filter (fun x => decide (x.path ∈ l.map FileInfo.path ∧ x.path ∈ l.map FileInfo.path)) = L := by
    intro L hL
    rw [List.filter_eq_self]
    intro f hf
    have := List.mem_map_of_mem (f := FileInfo.path) (hL f hf)
    simp only [decide_eq_true_eq]
    exact ⟨this, this⟩
  simp only [this _ hmem]
  have : ∀ L : List FileInfo, L.zip L = L.map (fun f => (f, f)) := by
    intro L
    induction L with
    | nil => rfl
    | cons f L ih => rw [List.zip_cons_cons, ih, List.map_cons]
  exact this _

/-- The three steps, whatever the order of the list of files, of which those matter that are configuration files. -/
theorem install_steps_over (hw : WF s) (hs : Sound is) (hl : Lists dest l is) (ho : Open is s) (hk : KeepableOver sha dest l is s)
    (L : List FileInfo) (hmem : ∀ f ∈ L, f ∈ l) (hall : ∀ f ∈ l, f.conf = true → f ∈ L) :
    ∃ s1 P t1 t, (backupUpg sha dest (L.map (fun f => (f, f))) (s, [])).2 = .ok (s1, P) ∧
      (extractAll s1 (is.map Item.entry)).2 = .ok t1 ∧ (restore t1 P).2 = .ok t ∧ ReinstalledOver sha dest l is s t := by
  obtain ⟨s1, P, h1, h2, h3, h4, _, h6⟩ := backupUpg_moves hs hl hk L hmem s [] (by simp) (by simp)
    ⟨hw, by simp, by simp, fun _ _ _ => rfl⟩
  have hPiff : ∀ p, p ∈ P ↔ Changed sha dest l s p :=
    fun p => ⟨h3 p, fun ⟨f, hf, r⟩ => h6 p ⟨f, hall f hf r.1, r⟩⟩
  -- names
  have hpre : ∀ p ∈ P, ∀ i ∈ is, ∀ q, q <+: i.comps → pathOf q ≠ dotOld p ∧ pathOf q ≠ dotNew p := by
    intro p hp i hi q hq
    obtain ⟨a, b⟩ := hk.names p (h3 p hp) i hi q hq
    rw [dotOld_eq] at a
    rw [dotNew_eq] at b
    exact ⟨Ne.symm a, Ne.symm b⟩
  have at_pre : ∀ i ∈ is, ∀ q, q <+: i.comps → s1.get (pathOf q) = none ∨ s1.get (pathOf q) = s.get (pathOf q) := by
    intro i hi q hq
    by_cases hp : pathOf q ∈ P
    · exact .inl (h4.gone _ hp)
    · exact .inr (h4.rest _ hp (fun p hp' => (hpre p hp' i hi q hq).1))
  have ho1 : Open is s1 := by
    refine ⟨fun i hi hd => ?_, fun i hi hd => ?_, fun i hi q hq hne => ?_⟩
    · rcases at_pre i hi _ List.prefix_rfl with e | e
      · exact .inl e
      · rw [e]; exact ho.dir i hi hd
    · rcases at_pre i hi _ List.prefix_rfl with e | e
      · rw [e]; simp
      · rw [e]; exact ho.nodir i hi hd
    · rcases at_pre i hi q hq with e | e
      · exact .inl e
      · rw [e]; exact ho.way i hi q hq hne
  obtain ⟨t1, e1, e2, e3, e4⟩ := extract_open is s1 hs h4.wf ho1
  have hnode : ∀ p ∈ P, ∀ i ∈ is, p = pathOf i.comps → i.node ≠ .dir := by
    intro p hp i hi e hd
    obtain ⟨c, hc⟩ := (h3 p hp).file
    rcases ho.dir i hi hd with g | g
    · rw [← e, hc] at g; cases g
    · rw [← e, hc] at g; cases g
  have t1old : ∀ p ∈ P, t1.get (dotOld p) = s.get p := by
    intro p hp
    rcases e4 (dotOld p) with e | ⟨i, hi, q, hq, e⟩
    · rw [e]; exact h4.away p hp
    · exact absurd e.symm (hpre p hp i hi q hq).1
  have t1new : ∀ p ∈ P, t1.get (dotNew p) = s.get (dotNew p) := by
    intro p hp
    rcases e4 (dotNew p) with e | ⟨i, hi, q, hq, e⟩
    · rw [e, h4.rest]
      · intro hp'
        obtain ⟨i, hi, he⟩ := (h3 _ hp').item hl
        exact (hpre p hp i hi _ List.prefix_rfl).2 he.symm
      · exact fun p' _ e' => dotOld_ne_dotNew _ _ e'.symm
    · exact absurd e.symm (hpre p hp i hi q hq).2
  obtain ⟨u, u1, u2, u3⟩ := restore_moves P t1 h2
    (fun p hp p' hp' => by
      obtain ⟨i, hi, he⟩ := (h3 p hp).item hl
      rw [he]
      exact hpre p' hp' i hi _ List.prefix_rfl)
    (fun p hp => by
      obtain ⟨i, hi, he⟩ := (h3 p hp).item hl
      exact ⟨i.node, by rw [he]; exact e3 i hi, hnode p hp i hi he⟩)
    (fun p hp => by
      obtain ⟨c, hc⟩ := (h3 p hp).file
      exact ⟨c, (t1old p hp).trans hc⟩)
    (fun p hp => by
      rw [t1new p hp]
      exact hk.new p (h3 p hp))
  refine ⟨s1, P, t1, u, h1, e1, u1, ?_⟩
  · have apart : ∀ i ∈ is, ∀ q, q <+: i.comps → pathOf q ∉ P → ∀ p ∈ P, pathOf q ≠ p ∧ pathOf q ≠ dotNew p ∧ pathOf q ≠ dotOld p := by
      intro i hi q hq hn p hp
      obtain ⟨a, b⟩ := hpre p hp i hi q hq
      exact ⟨fun e => hn (e ▸ hp), b, a⟩
    refine ⟨fun p hp => ?_, fun i hi hp => ?_, fun i hi hp => ?_, fun i hi q hq hne => ?_, fun p hp => (u2 p ((hPiff p).mpr hp)).2.2, fun k hk1 hk2 => ?_⟩
    · have hp' := (hPiff p).mpr hp
      rw [(u2 p hp').1]
      exact t1old p hp'
    · have hp' := (hPiff _).mpr hp
      rw [dotNew_eq, (u2 _ hp').2.1]
      exact e3 i hi
    · rw [u3 _ (apart i hi _ List.prefix_rfl (fun h => hp ((hPiff _).mp h)))]
      exact e3 i hi
    · obtain ⟨r, hr⟩ := hq
      have hrne : r ≠ [] := by
        rintro rfl
        exact hne (by simpa using hr)
      have hd : t1.get (pathOf q) = some .dir :=
        e2.dir_above r q hrne (by rw [hr]; exact hs.names i hi) (by rw [hr, e3 i hi]; simp)
      rw [u3 _ (apart i hi q ⟨r, hr⟩ (fun h => ?_))]
      · exact hd
      · obtain ⟨c, hc⟩ := (h3 _ h).file
        rcases ho.way i hi q ⟨r, hr⟩ hne with g | g
        · rw [hc] at g; cases g
        · rw [hc] at g; cases g
    · have hkP : k ∉ P := by
        intro h
        obtain ⟨i, hi, he⟩ := (h3 k h).item hl
        exact hk1 i hi _ List.prefix_rfl he
      have hold : ∀ p ∈ P, k ≠ dotOld p := fun p hp => (hk2 p (h3 p hp)).2
      rw [u3 k (fun p hp => ⟨fun e => hkP (e ▸ hp), (hk2 p (h3 p hp)).1, hold p hp⟩)]
      rcases e4 k with e | ⟨i, hi, q, hq, e⟩
      · rw [e, h4.rest k hkP hold]
      · exact absurd e (hk1 i hi q hq)

/-- When no `.old` is in use. -/
theorem ReinstalledOver.free (hk : Keepable sha dest l is s) {t : FS} (h : ReinstalledOver sha dest l is s t) : Reinstalled sha dest l is s t := by
  refine ⟨h.kept, h.beside, h.repaired, h.dirs, fun k h1 h2 => ?_⟩
  by_cases ho : ∃ p, Changed sha dest l s p ∧ k = p ++ ".old".toList
  · obtain ⟨p, hp, rfl⟩ := ho
    rw [h.gone p hp, hk.old p hp]
  · exact h.rest k h1 fun p hp => ⟨h2 p hp, fun e => ho ⟨p, hp, e⟩⟩

theorem install_steps (hw : WF s) (hs : Sound is) (hl : Lists dest l is) (ho : Open is s) (hk : Keepable sha dest l is s)
    (L : List FileInfo) (hmem : ∀ f ∈ L, f ∈ l) (hall : ∀ f ∈ l, f.conf = true → f ∈ L) :
    ∃ s1 P t1 t, (backupUpg sha dest (L.map (fun f => (f, f))) (s, [])).2 = .ok (s1, P) ∧
      (extractAll s1 (is.map Item.entry)).2 = .ok t1 ∧ (restore t1 P).2 = .ok t ∧ Reinstalled sha dest l is s t := by
  obtain ⟨s1, P, t1, t, h1, h2, h3, h4⟩ := install_steps_over hw hs hl ho hk.over L hmem hall
  exact ⟨s1, P, t1, t, h1, h2, h3, h4.free hk⟩

/-- **C208.**  Installing a package again, whatever is missing, changed or replaced by links, succeeds and repairs it: every member is there
as in the package, in its directories; changed configuration files are kept and those of the package put beside them, and nothing else
changes.  What is missing for the full statement, which is false of the code: directories where files belong and files where
directories belong, `.old` files of the user beside changed configuration files (they are deleted), and configuration files that are
links. -/
theorem reinstall_partial (hw : WF s) (hs : Sound is) (hl : Lists dest l is) (ho : Open is s) (hk : Keepable sha dest l is s) :
    ∃ t, (extractInstall sha dest (some l) l (is.map Item.entry) s).2 = .ok t ∧ Reinstalled sha dest l is s t := by
  obtain ⟨s1, P, t1, t, h1, e1, u1, hr⟩ := install_steps hw hs hl ho hk (sortFiles l)
    (fun f => (List.mergeSort_perm l _).mem_iff.mp) (fun f hf _ => (List.mergeSort_perm l _).mem_iff.mpr hf)
  refine ⟨t, ?_, hr⟩
  unfold extractInstall
  simp only
  rw [overlap_self, bind_ok h1, bind_ok e1, bind_ok u1, if_pos]
  rw [List.all_eq_true]
  intro f hf
  simpa using ⟨f, hf, rfl⟩

/-- **C208.**  The same with `.old` files beside the changed configuration files: these go, and everything else is as before. -/
theorem reinstall_over (hw : WF s) (hs : Sound is) (hl : Lists dest l is) (ho : Open is s) (hk : KeepableOver sha dest l is s) :
    ∃ t, (extractInstall sha dest (some l) l (is.map Item.entry) s).2 = .ok t ∧ ReinstalledOver sha dest l is s t := by
  obtain ⟨s1, P, t1, t, h1, e1, u1, hr⟩ := install_steps_over hw hs hl ho hk (sortFiles l)
    (fun f => (List.mergeSort_perm l _).mem_iff.mp) (fun f hf _ => (List.mergeSort_perm l _).mem_iff.mpr hf)
  refine ⟨t, ?_, hr⟩
  unfold extractInstall
  simp only
  rw [overlap_self, bind_ok h1, bind_ok e1, bind_ok u1, if_pos]
  rw [List.all_eq_true]
  intro f hf
  simpa using ⟨f, hf, rfl⟩

/-- The loop of a first installation does the same. -/
theorem backupNew_upg (sha : Str → Str) (dest : Str) : ∀ (L : List FileInfo) (st : FS × List Str),
    (backupNew sha dest L st).2 = (backupUpg sha dest (L.map (fun f => (f, f))) st).2
  | [], _ => rfl
  | f :: L, st => by
    unfold backupNew
    rw [List.map_cons]
    unfold backupUpg
    simp only [ne_eq, not_true_eq_false, if_false, Bool.and_self]
    cases hc : f.conf with
    | false => simpa using backupNew_upg sha dest L st
    | true =>
      cases he : existsP st.1 (joinPath dest [f.path]) with
      | false =>
        have hn : sha1File sha st.1 (joinPath dest [f.path]) = none := by
          unfold existsP at he
          unfold sha1File
          cases hst : stat st.1 (joinPath dest [f.path]) with
          | none => rfl
          | some n => rw [hst] at he; cases he
        have hb : (backupIf sha f.hash (joinPath dest [f.path]) st).2 = .ok st := by unfold backupIf; rw [hn]
        simp only [Bool.and_false, Bool.false_eq_true, if_false, if_true]
        rw [bind_ok hb]
        exact backupNew_upg sha dest L st
      | true =>
        simp only [Bool.and_self, if_true]
        cases hb : (backupIf sha f.hash (joinPath dest [f.path]) st).2 with
        | ok st' => rw [bind_ok hb, bind_ok hb]; exact backupNew_upg sha dest L st'
        | error e => unfold Tr.bind; simp only [hb]

/-- The first installation of a package over whatever is there does the same: the members are in place, changed configuration files are
kept with those of the package beside them, and nothing else changes. -/
theorem install_over (hw : WF s) (hs : Sound is) (hl : Lists dest l is) (ho : Open is s) (hk : Keepable sha dest l is s) :
    ∃ t, (extractInstall sha dest none l (is.map Item.entry) s).2 = .ok t ∧ Reinstalled sha dest l is s t := by
  obtain ⟨s1, P, t1, t, h1, e1, u1, hr⟩ := install_steps hw hs hl ho hk l (fun _ h => h) (fun _ h _ => h)
  refine ⟨t, ?_, hr⟩
  unfold extractInstall
  simp only
  rw [bind_ok (by rw [backupNew_upg]; exact h1), bind_ok e1, bind_ok u1]

/-- The first installation with `.old` files beside the changed configuration files. -/
theorem install_over_old (hw : WF s) (hs : Sound is) (hl : Lists dest l is) (ho : Open is s) (hk : KeepableOver sha dest l is s) :
    ∃ t, (extractInstall sha dest none l (is.map Item.entry) s).2 = .ok t ∧ ReinstalledOver sha dest l is s t := by
  obtain ⟨s1, P, t1, t, h1, e1, u1, hr⟩ := install_steps_over hw hs hl ho hk l (fun _ h => h) (fun _ h _ => h)
  refine ⟨t, ?_, hr⟩
  unfold extractInstall
  simp only
  rw [bind_ok (by rw [backupNew_upg]; exact h1), bind_ok e1, bind_ok u1]

/-- **C208.**  Installing an intact package again changes nothing. -/
theorem reinstall_same (hw : WF s) (hs : Sound is) (hl : Lists dest l is) (hin : ∀ i ∈ is, s.get (pathOf i.comps) = some i.node)
    (hc : ∀ f ∈ l, f.conf = true → ∃ c, s.get (joinPath dest [f.path]) = some (.file c) ∧ f.hash = some (sha c)) :
    ∃ t, (extractInstall sha dest (some l) l (is.map Item.entry) s).2 = .ok t ∧ Same t s := by
  have hno : ∀ p, ¬ Changed sha dest l s p := by
    rintro p ⟨f, hf, hcf, rfl, c, hg, hh⟩
    obtain ⟨c', hg', hh'⟩ := hc f hf hcf
    rw [hg] at hg'
    cases hg'
    exact hh hh'
  have hup : ∀ i ∈ is, ∀ q, q <+: i.comps → q ≠ i.comps → s.get (pathOf q) = some .dir := by
    intro i hi q hq hne
    obtain ⟨r, hr⟩ := hq
    have hrne : r ≠ [] := by
      rintro rfl
      exact hne (by simpa using hr)
    exact hw.dir_above r q hrne (by rw [hr]; exact hs.names i hi) (by rw [hr, hin i hi]; simp)
  obtain ⟨t, h1, h2⟩ := reinstall_partial (sha := sha) hw hs hl
    ⟨fun i hi hd => .inr (by rw [hin i hi, hd]), fun i hi hd e => hd (Option.some.inj ((hin i hi).symm.trans e)),
      fun i hi q hq hne => .inr (hup i hi q hq hne)⟩
    ⟨fun f hf hcf => by
      obtain ⟨c, hg, _⟩ := hc f hf hcf
      exact .inr ⟨c, hg⟩, fun p hp => absurd hp (hno p), fun p hp => absurd hp (hno p), fun p hp => absurd hp (hno p)⟩
  refine ⟨t, h1, fun k => ?_⟩
  by_cases hk : ∃ i ∈ is, ∃ q, q <+: i.comps ∧ k = pathOf q
  · obtain ⟨i, hi, q, hq, rfl⟩ := hk
    by_cases e : q = i.comps
    · rw [e, h2.repaired i hi (hno _), hin i hi]
    · rw [h2.dirs i hi q hq e, hup i hi q hq e]
  · exact h2.rest k (fun i hi q hq e => hk ⟨i, hi, q, hq, e⟩) (fun p hp => absurd hp (hno p))

end

/-- A package with a configuration file that the user has changed, a file that is missing and one that is broken. -/
def reIs : List Item := [⟨[['e'], ['c']], .file ['1']⟩, ⟨[['b'], ['x']], .file ['2']⟩, ⟨[['b'], ['y']], .link ['x']⟩]
def reL : List FileInfo := [⟨['e', '/', 'c'], true, some ['1'], false⟩, ⟨['b', '/', 'x'], false, some ['2'], false⟩,
  ⟨['b', '/', 'y'], false, none, false⟩]
def reFS : FS := [(['/'], .dir), (['/', 'e'], .dir), (['/', 'e', '/', 'c'], .file ['u']), (['/', 'b'], .dir),
  (['/', 'b', '/', 'y'], .file ['z']), (['/', 'o'], .file ['o'])]

theorem wf_check {s : FS} (hr : s.get ['/'] = some .dir)
    (h : ∀ k ∈ s.keys, k = ['/'] ∨ (s.get (dirname k) = some .dir ∧ (dirname k).length < k.length)) : WF s :=
  ⟨hr, fun k n hk => h k ((Dict.mem_keys _ _).mpr (by simp [hk]))⟩

theorem re_changed {p : Str} (h : Changed id exDest reL reFS p) : p = "/e/c".toList := by
  obtain ⟨f, hf, hc, rfl, _⟩ := h
  have : ∀ f ∈ reL, f.conf = true → joinPath exDest [f.path] = "/e/c".toList := by decide
  exact this f hf hc

/-- The hypotheses can be met. -/
example : ∃ t, (extractInstall id exDest (some reL) reL (reIs.map Item.entry) reFS).2 = .ok t ∧
    Reinstalled id exDest reL reIs reFS t := by
  refine reinstall_partial (wf_check (by decide) (by decide)) ⟨by decide, by unfold CompName; decide, by decide, by decide⟩
    ⟨by decide, by decide⟩ ⟨by decide, by decide, fun i hi q hq hne => ?_⟩ ⟨?_, fun p hp => ?_, fun p hp => ?_, fun p hp i hi q hq => ?_⟩
  · have : ∀ i ∈ reIs, ∀ n ≤ i.comps.length, i.comps.take n ≠ i.comps →
      reFS.get (pathOf (i.comps.take n)) = none ∨ reFS.get (pathOf (i.comps.take n)) = some .dir := by decide
    rw [List.prefix_iff_eq_take.mp hq] at hne ⊢
    exact this i hi _ hq.length_le hne
  · intro f hf hc
    have : ∀ f ∈ reL, f.conf = true → joinPath exDest [f.path] = "/e/c".toList := by decide
    rw [this f hf hc]
    exact .inr ⟨['u'], by decide⟩
  · rw [re_changed hp]; decide
  · rw [re_changed hp]; decide
  · rw [re_changed hp]
    have : ∀ i ∈ reIs, ∀ n ≤ i.comps.length, "/e/c".toList ++ ".old".toList ≠ pathOf (i.comps.take n) ∧
      "/e/c".toList ++ ".newconfig".toList ≠ pathOf (i.comps.take n) := by decide
    rw [List.prefix_iff_eq_take.mp hq]
    exact this i hi _ hq.length_le

/-- **C208 is false of the code**: a directory in the place of a file. -/
theorem reinstall_refuted : ¬ ReinstallFull := by
  intro h
  obtain ⟨t, ht, _⟩ := h id exDest rtL rtIs [(['/'], .dir), (['/', 'a'], .dir)] (wf_check (by decide) (by decide)) rt_sound rt_lists
  have : (extractInstall id exDest (some rtL) rtL (rtIs.map Item.entry) [(['/'], .dir), (['/', 'a'], .dir)]).2.toOption.isSome = false := by
    unfold extractInstall
    simp only [overlap_self]
    have : sortFiles rtL = rtL := by simp [sortFiles, rtL]
    rw [this]
    decide +kernel
  rw [ht] at this
  cases this

/-- **C208.**  The user's `.old` file beside a changed configuration file is deleted. -/
theorem old_deleted (s : FS) (p c o : Str) (hp : s.get p = some (.file c)) (ho : s.get (dotOld p) = some (.file o)) :
    (backup s p).2 = .ok (((s.del (dotOld p)).del p).put (dotOld p) (.file c)) := by
  have hne : dotOld p ≠ p := by
    intro e
    have := congrArg List.length e
    simp [dotOld] at this
  unfold backup
  rw [if_pos (by simp [existsP, stat, statN, ho]), bind_ok (b := s.del (dotOld p)) (by simp [unlink, ho, Tr.atomic])]
  have h1 : (s.del (dotOld p)).get p = some (.file c) := by rw [Dict.get_del, if_neg hne]; exact hp
  have h2 : (s.del (dotOld p)).get (dotOld p) = none := by rw [Dict.get_del, if_pos rfl]
  simp [rename, h1, h2, Tr.atomic]

end Pisi.FS
