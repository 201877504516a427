import Verif.Spec.Interrupted
import Verif.Props.FileHistory

/-!
# C222: interrupted installations
-/
namespace Pisi.FS
open Pisi.Path

/-- **C222, full statement.**  After any interruptions the next installation gives what the first one would have given. -/
def InterruptedFull : Prop := ∀ (sha : Str → Str) (dest : Str) (old : Option (List FileInfo)) (p : Pack) (s c : FS), WF s → Proper sha dest p →
  Room dest s p → (old = none ∨ old = some p.l) → Interrupted sha dest old p (fun _ => True) s c →
  ∃ t, (extractInstall sha dest old p.l (p.is.map Item.entry) c).2 = .ok t ∧ Reinstalled sha dest p.l p.is s t

/-! ## What can be changed by an installation -/

/-- What may be at a place in between. -/
def Allowed (dest : Str) (p : Pack) (k : Str) (v : Option Node) : Prop :=
  (∃ i ∈ p.is, ∃ q, q <+: i.comps ∧ (q ≠ i.comps ∨ i.node = .dir) ∧ k = pathOf q ∧ v = some .dir) ∨
  (∃ i ∈ p.is, i.node ≠ .dir ∧ k = pathOf i.comps ∧
    (v = none ∨ v = some i.node ∨ (∃ c, i.node = .file c) ∧ ∃ c, v = some (.file c))) ∨
  (∃ f ∈ p.l, f.conf = true ∧ (k = joinPath dest [f.path] ∨ k = dotOld (joinPath dest [f.path]) ∨ k = dotNew (joinPath dest [f.path])) ∧
    (v = none ∨ ∃ c, v = some (.file c)))

/-- Where there is room, nothing that was kept is in the way. -/
theorem Room.over {dest : Str} {s : FS} {p : Pack} (h : Room dest s p) : RoomOver dest s p :=
  ⟨h.isOpen, h.plain, fun f hf hc => .inl (h.oldFree f hf hc), h.newFree⟩

/-- What is left of `s`. -/
structure Mid (dest : Str) (p : Pack) (s c : FS) : Prop where
  wf : WF c
  at_ : ∀ k, c.get k = s.get k ∨ Allowed dest p k (c.get k)

theorem WF.put_over {s : FS} (h : WF s) {p : Str} {n : Node} (hg : s.get p ≠ some .dir) (hd : s.get (dirname p) = some .dir)
    (hl : (dirname p).length < p.length) : WF (s.put p n) := by
  refine ⟨?_, fun k m hk => ?_⟩
  · rw [Dict.get_put, if_neg]
    · exact h.root
    · rintro rfl; exact hg h.root
  · rw [Dict.get_put] at hk
    by_cases e : p = k
    · subst e
      refine .inr ⟨?_, hl⟩
      rw [Dict.get_put, if_neg]
      · exact hd
      · intro e; rw [← e] at hd; exact hg hd
    · rw [if_neg e] at hk
      rcases h.parent k m hk with h1 | ⟨h1, h2⟩
      · exact .inl h1
      · refine .inr ⟨?_, h2⟩
        rw [Dict.get_put, if_neg]
        · exact h1
        · intro e'; rw [← e'] at h1; exact hg h1

section
variable {sha : Str → Str} {dest : Str} {old : Option (List FileInfo)} {p : Pack} {s c c' : FS}

theorem Mid.start (hw : WF s) : Mid dest p s s := ⟨hw, fun _ => .inl rfl⟩

theorem Mid.trans (h : Mid dest p s c) (h' : Mid dest p c c') : Mid dest p s c' := by
  refine ⟨h'.wf, fun k => ?_⟩
  rcases h'.at_ k with e | e
  · rcases h.at_ k with e' | e'
    · exact .inl (e.trans e')
    · rw [e]; exact .inr e'
  · exact .inr e

theorem Mid.del (hw : WF c) {k : Str} {n : Node} (hg : c.get k = some n) (hn : n ≠ .dir) (ha : Allowed dest p k none) :
    Mid dest p c (c.del k) := by
  refine ⟨hw.del_nondir _ _ hg hn, fun k' => ?_⟩
  rw [Dict.get_del]
  by_cases e : k = k'
  · subst e; rw [if_pos rfl]; exact .inr ha
  · rw [if_neg e]; exact .inl rfl

theorem Mid.put (hw : WF c) {k : Str} {n : Node} (hg : c.get k ≠ some .dir) (hd : c.get (dirname k) = some .dir)
    (hl : (dirname k).length < k.length) (ha : Allowed dest p k (some n)) : Mid dest p c (c.put k n) := by
  refine ⟨hw.put_over hg hd hl, fun k' => ?_⟩
  rw [Dict.get_put]
  by_cases e : k = k'
  · subst e; rw [if_pos rfl]; exact .inr ha
  · rw [if_neg e]; exact .inl rfl

/-- The place of a configuration file is that of a member that is a file. -/
theorem Proper.member (hp : Proper sha dest p) {f : FileInfo} (hf : f ∈ p.l) (hc : f.conf = true) :
    ∃ i ∈ p.is, joinPath dest [f.path] = pathOf i.comps ∧ ∃ x, i.node = .file x ∧ f.hash = some (sha x) := by
  obtain ⟨i, hi, e⟩ := hp.lists.sub f hf
  exact ⟨i, hi, e, hp.conf f hf hc i hi e⟩

/-- What may be where a member or a directory of one belongs. -/
theorem Allowed.at_prefix (hp : Proper sha dest p) {i : Item} (hi : i ∈ p.is) {q : List Str} (hq : q <+: i.comps) {v : Option Node}
    (h : Allowed dest p (pathOf q) v) :
    ((q ≠ i.comps ∨ i.node = .dir) ∧ v = some .dir) ∨
    (q = i.comps ∧ i.node ≠ .dir ∧ (v = none ∨ v = some i.node ∨ (∃ c, i.node = .file c) ∧ ∃ c, v = some (.file c))) := by
  have hqn : ∀ x ∈ q, CompName x := fun x hx => hp.sound.names i hi x (hq.subset hx)
  have file : ∀ j ∈ p.is, pathOf q = pathOf j.comps → j.node ≠ .dir → q = i.comps ∧ j = i := by
    intro j hj e hn
    have e := pathOf_inj hqn (hp.sound.names j hj) e
    by_cases e' : q = i.comps
    · exact ⟨e', List.inj_on_of_nodup_map hp.sound.apart hj hi (e.symm.trans e')⟩
    · exact absurd (hp.sound.inDirs j hj i hi (e ▸ hq) (e ▸ e')) hn
  rcases h with ⟨j, hj, r, hr, hd, e, hv⟩ | ⟨j, hj, hn, e, hv⟩ | ⟨f, hf, hc, e, hv⟩
  · have e := pathOf_inj hqn (fun x hx => hp.sound.names j hj x (hr.subset hx)) e
    subst e
    refine .inl ⟨?_, hv⟩
    by_cases e' : q = i.comps
    · refine .inr ?_
      rcases hd with hd | hd
      · exact hp.sound.inDirs i hi j hj (e' ▸ hr) (e' ▸ hd)
      · by_cases e2 : q = j.comps
        · rw [← List.inj_on_of_nodup_map hp.sound.apart hj hi (e2.symm.trans e')]; exact hd
        · exact hp.sound.inDirs i hi j hj (e' ▸ hr) (e' ▸ e2)
    · exact .inl e'
  · obtain ⟨e1, rfl⟩ := file j hj e hn
    exact .inr ⟨e1, hn, hv⟩
  · have names := hp.names f hf hc i hi q hq
    rw [dotOld_eq, dotNew_eq] at names
    rcases e with e | e | e
    · obtain ⟨j, hj, ej, x, hx, _⟩ := hp.member hf hc
      obtain ⟨e1, rfl⟩ := file j hj (e.trans ej) (by rw [hx]; exact fun h => by cases h)
      refine .inr ⟨e1, (by rw [hx]; simp), ?_⟩
      rcases hv with hv | hv
      · exact .inl hv
      · exact .inr (.inr ⟨⟨x, hx⟩, hv⟩)
    · exact absurd e.symm names.1
    · exact absurd e.symm names.2

/-- What may be at the names under which configuration files are kept. -/
theorem Allowed.at_name (hp : Proper sha dest p) {f : FileInfo} (hf : f ∈ p.l) (hc : f.conf = true) {k : Str}
    (hk : k = dotOld (joinPath dest [f.path]) ∨ k = dotNew (joinPath dest [f.path])) {v : Option Node} (h : Allowed dest p k v) :
    v = none ∨ ∃ c, v = some (.file c) := by
  have names : ∀ i ∈ p.is, ∀ q, q <+: i.comps → k ≠ pathOf q := by
    intro i hi q hq
    have := hp.names f hf hc i hi q hq
    rcases hk with rfl | rfl
    · exact this.1
    · exact this.2
  rcases h with ⟨j, hj, r, hr, _, e, _⟩ | ⟨j, hj, _, e, _⟩ | ⟨_, _, _, _, hv⟩
  · exact absurd e (names j hj r hr)
  · exact absurd e (names j hj _ List.prefix_rfl)
  · exact hv

/-- There is room in between. -/
theorem Mid.open (hp : Proper sha dest p) (hr : RoomOver dest s p) (h : Mid dest p s c) : Open p.is c := by
  refine ⟨fun i hi hd => ?_, fun i hi hd => ?_, fun i hi q hq hne => ?_⟩
  · rcases h.at_ (pathOf i.comps) with e | e
    · rw [e]; exact hr.isOpen.dir i hi hd
    · rcases e.at_prefix hp hi List.prefix_rfl with ⟨_, e⟩ | ⟨_, hn, _⟩
      · exact .inr e
      · exact absurd hd hn
  · rcases h.at_ (pathOf i.comps) with e | e
    · rw [e]; exact hr.isOpen.nodir i hi hd
    · rcases e.at_prefix hp hi List.prefix_rfl with ⟨hx, _⟩ | ⟨_, _, e | e | ⟨_, x, e⟩⟩
      · rcases hx with hx | hx
        · exact absurd rfl hx
        · exact absurd hx hd
      · rw [e]; exact fun h => by cases h
      · rw [e]; exact fun h => hd (Option.some.inj h)
      · rw [e]; exact fun h => by cases h
  · rcases h.at_ (pathOf q) with e | e
    · rw [e]; exact hr.isOpen.way i hi q hq hne
    · rcases e.at_prefix hp hi hq with ⟨_, e⟩ | ⟨e, _⟩
      · exact .inr e
      · exact absurd e hne

theorem Mid.plain (hp : Proper sha dest p) (hr : RoomOver dest s p) (h : Mid dest p s c) {f : FileInfo} (hf : f ∈ p.l) (hc : f.conf = true) :
    c.get (joinPath dest [f.path]) = none ∨ ∃ x, c.get (joinPath dest [f.path]) = some (.file x) := by
  obtain ⟨i, hi, e, x, hx, _⟩ := hp.member hf hc
  rcases h.at_ (joinPath dest [f.path]) with e' | e'
  · rw [e']; exact hr.plain f hf hc
  · rw [e] at e' ⊢
    rcases e'.at_prefix hp hi List.prefix_rfl with ⟨hn, _⟩ | ⟨_, _, e | e | ⟨_, e⟩⟩
    · rcases hn with hn | hn
      · exact absurd rfl hn
      · rw [hx] at hn; cases hn
    · exact .inl e
    · exact .inr ⟨x, by rw [e, hx]⟩
    · exact .inr e

theorem Mid.oldFile (hp : Proper sha dest p) (hr : RoomOver dest s p) (h : Mid dest p s c) {f : FileInfo} (hf : f ∈ p.l) (hc : f.conf = true) :
    c.get (dotOld (joinPath dest [f.path])) = none ∨ ∃ x, c.get (dotOld (joinPath dest [f.path])) = some (.file x) := by
  rcases h.at_ (dotOld (joinPath dest [f.path])) with e | e
  · rw [e]; exact hr.oldFile f hf hc
  · exact e.at_name hp hf hc (.inl rfl)

theorem Mid.newFile (hp : Proper sha dest p) (hr : RoomOver dest s p) (h : Mid dest p s c) {f : FileInfo} (hf : f ∈ p.l) (hc : f.conf = true) :
    c.get (dotNew (joinPath dest [f.path])) ≠ some .dir := by
  rcases h.at_ (dotNew (joinPath dest [f.path])) with e | e
  · rw [e]; exact hr.newFree f hf hc
  · rcases e.at_name hp hf hc (.inr rfl) with e | ⟨x, e⟩ <;> rw [e] <;> exact fun h => by cases h

theorem Mid.keepable (hp : Proper sha dest p) (hr : RoomOver dest s p) (h : Mid dest p s c) : KeepableOver sha dest p.l p.is c := by
  refine ⟨fun f hf hc => h.plain hp hr hf hc, ?_, ?_, ?_⟩ <;> rintro _ ⟨f, hf, hc, rfl, _⟩
  · exact h.oldFile hp hr hf hc
  · exact h.newFile hp hr hf hc
  · exact hp.names f hf hc

/-- Nothing else has changed. -/
theorem Mid.rest (hp : Proper sha dest p) (h : Mid dest p s c) {k : Str} (hk : ¬ p.Own dest k) : c.get k = s.get k := by
  rcases h.at_ k with e | ⟨j, hj, r, hr, _, e, _⟩ | ⟨j, hj, _, e, _⟩ | ⟨f, hf, hc, e, _⟩
  · exact e
  · exact absurd (.inl ⟨j, hj, r, hr, e⟩) hk
  · exact absurd (.inl ⟨j, hj, _, List.prefix_rfl, e⟩) hk
  · refine absurd ?_ hk
    rcases e with e | e
    · obtain ⟨i, hi, e', _⟩ := hp.member hf hc
      exact .inl ⟨i, hi, _, List.prefix_rfl, e.trans e'⟩
    · exact .inr ⟨f, hf, hc, e⟩

/-! ## The steps -/

theorem dirname_names (hp : Proper sha dest p) {i : Item} (hi : i ∈ p.is) :
    dirname (dotOld (pathOf i.comps)) = dirname (pathOf i.comps) ∧ dirname (dotNew (pathOf i.comps)) = dirname (pathOf i.comps) ∧
      (dirname (pathOf i.comps)).length < (pathOf i.comps).length := by
  obtain ⟨b, c, hbc⟩ := (List.eq_nil_or_concat i.comps).resolve_left (hp.sound.ne i hi)
  rw [List.concat_eq_append] at hbc
  have hn := hp.sound.names i hi
  rw [hbc] at hn ⊢
  have hc : CompName c := hn c (by simp)
  have hd := dirname_pathOf hn
  have key : ∀ x : Str, x ≠ [] → '/' ∉ x → dirname (pathOf (b ++ [x])) = pathOf b := by
    intro x h1 h2
    refine dirname_pathOf fun y hy => ?_
    rcases List.mem_append.mp hy with hy | hy
    · exact hn y (List.mem_append_left _ hy)
    · rw [List.mem_singleton.mp hy]
      exact ⟨h1, h2⟩
  refine ⟨?_, ?_, ?_⟩
  · have e : dotOld (pathOf (b ++ [c])) = pathOf (b ++ [dotOld c]) := by
      rw [pathOf_snoc, pathOf_snoc]
      simp [dotOld]
    rw [e, hd]
    have := hc.2
    exact key _ (by simp [dotOld]) (by simp [dotOld, this])
  · have e : dotNew (pathOf (b ++ [c])) = pathOf (b ++ [dotNew c]) := by
      rw [pathOf_snoc, pathOf_snoc]
      simp [dotNew]
    rw [e, hd]
    have := hc.2
    exact key _ (by simp [dotNew]) (by simp [dotNew, this])
  · rw [hd]
    exact length_pathOf hc

theorem Mid.rename (hw : WF c) {a b x : Str} (ha : c.get a = some (.file x)) (hb : c.get b ≠ some .dir) (hab : a ≠ b)
    (hd : dirname b = dirname a) (hl : (dirname a).length < b.length) (h1 : Allowed dest p a none) (h2 : Allowed dest p b (some (.file x))) :
    Mid dest p c ((c.del a).put b (.file x)) := by
  have ne : a ≠ ['/'] := by
    rintro rfl
    rw [hw.root] at ha
    cases ha
  obtain ⟨g1, g2⟩ := (hw.parent a _ ha).resolve_left ne
  refine (Mid.del hw ha (by simp) h1).trans (Mid.put (hw.del_nondir _ _ ha (by simp)) ?_ ?_ ?_ h2)
  · rw [Dict.get_del, if_neg hab]; exact hb
  · rw [hd, Dict.get_del, if_neg (fun e => by rw [← e] at g2; omega)]; exact g1
  · rw [hd]; exact hl

theorem dot_ne (k : Str) : k ≠ dotOld k ∧ k ≠ dotNew k := by
  constructor <;> intro e <;> have := congrArg List.length e <;> simp [dotOld, dotNew] at this

/-- Moving a changed configuration file away. -/
theorem backup_mid (hp : Proper sha dest p) (hr : RoomOver dest s p) (h : Mid dest p s c) {f : FileInfo} (hf : f ∈ p.l) (hc : f.conf = true) :
    (backup c (joinPath dest [f.path])).Sat (Mid dest p s) (Mid dest p s) := by
  obtain ⟨i, hi, ei, _⟩ := hp.member hf hc
  obtain ⟨d1, _, d3⟩ := dirname_names hp hi
  rw [← ei] at d1 d3
  unfold backup
  refine Tr.Sat.bind (Q := Mid dest p s) ?_ fun c1 h1 => Tr.sat_atomic fun c2 e => ?_
  · by_cases hx : existsP c (dotOld (joinPath dest [f.path])) = true
    · rw [if_pos hx]
      refine Tr.sat_atomic fun c1 e => ?_
      obtain ⟨rfl, n, hn, hnd⟩ := unlink_ok e
      have := h.trans (Mid.del h.wf hn hnd (.inr (.inr ⟨f, hf, hc, .inr (.inl rfl), .inl rfl⟩)))
      exact ⟨this, this⟩
    · rw [if_neg hx]; exact Tr.sat_pure h
  · obtain ⟨n, hn, hnd, hb, rfl⟩ := rename_ok e
    rcases h1.plain hp hr hf hc with g | ⟨x, g⟩
    · rw [g] at hn; cases hn
    · rw [g] at hn
      cases hn
      have := h1.trans (Mid.rename h1.wf g hb (dot_ne _).1 d1 (by simp [dotOld]; omega) (.inr (.inr ⟨f, hf, hc, .inl rfl, .inl rfl⟩))
        (.inr (.inr ⟨f, hf, hc, .inr (.inl rfl), .inr ⟨x, rfl⟩⟩)))
      exact ⟨this, this⟩

/-- All of them. -/
theorem backupList_mid (hp : Proper sha dest p) (hr : RoomOver dest s p) : ∀ (L : List (Option Str × Str)) (st : FS × List Str),
    (∀ x ∈ L, p.Conf dest x.2) → Mid dest p s st.1 → (∀ q ∈ st.2, p.Conf dest q) →
    (backupList sha L st).Sat (Mid dest p s) (fun st' => Mid dest p s st'.1 ∧ ∀ q ∈ st'.2, p.Conf dest q)
  | [], _, _, h, hq => Tr.sat_pure ⟨h, hq⟩
  | (x, k) :: L, st, hL, h, hq => by
    obtain ⟨f, hf, hc, rfl⟩ := hL (x, k) (by simp)
    unfold backupList
    refine Tr.Sat.bind (Q := fun st' => Mid dest p s st'.1 ∧ ∀ q ∈ st'.2, p.Conf dest q) ?_ fun st' h' =>
      backupList_mid hp hr L st' (fun y hy => hL y (by simp [hy])) h'.1 h'.2
    unfold backupIf
    split
    · exact Tr.sat_pure ⟨h, hq⟩
    · split
      · refine Tr.Sat.bind (backup_mid hp hr h hf hc) fun c1 h1 => Tr.sat_pure ⟨h1, fun q hq' => ?_⟩
        rcases List.mem_append.mp hq' with g | g
        · exact hq q g
        · rw [List.mem_singleton.mp g]; exact ⟨f, hf, hc, rfl⟩
      · exact Tr.sat_pure ⟨h, hq⟩

/-- Putting them back. -/
theorem restore_mid (hp : Proper sha dest p) (hr : RoomOver dest s p) : ∀ (P : List Str) (c : FS), (∀ q ∈ P, p.Conf dest q) → Mid dest p s c →
    (restore c P).Sat (Mid dest p s) (Mid dest p s)
  | [], _, _, h => Tr.sat_pure h
  | k :: P, c, hP, h => by
    obtain ⟨f, hf, hc, rfl⟩ := hP k (by simp)
    obtain ⟨i, hi, ei, _⟩ := hp.member hf hc
    obtain ⟨d1, d2, d3⟩ := dirname_names hp hi
    rw [← ei] at d1 d2 d3
    unfold restore
    refine Tr.Sat.bind (Q := Mid dest p s) ?_ fun c1 h1 => Tr.Sat.bind (Q := Mid dest p s) (Tr.sat_atomic fun c2 e => ?_) fun c2 h2 =>
      Tr.Sat.bind (Q := Mid dest p s) (Tr.sat_atomic fun c3 e => ?_) fun c3 h3 => restore_mid hp hr P c3 (fun q hq => hP q (by simp [hq])) h3
    · by_cases hx : existsP c (dotNew (joinPath dest [f.path])) = true
      · rw [if_pos hx]
        refine Tr.sat_atomic fun c1 e => ?_
        obtain ⟨rfl, n, hn, hnd⟩ := unlink_ok e
        have := h.trans (Mid.del h.wf hn hnd (.inr (.inr ⟨f, hf, hc, .inr (.inr rfl), .inl rfl⟩)))
        exact ⟨this, this⟩
      · rw [if_neg hx]; exact Tr.sat_pure h
    · obtain ⟨n, hn, hnd, hb, rfl⟩ := rename_ok e
      rcases h1.plain hp hr hf hc with g | ⟨x, g⟩
      · rw [g] at hn; cases hn
      · rw [g] at hn
        cases hn
        have := h1.trans (Mid.rename h1.wf g hb (dot_ne _).2 d2 (by simp [dotNew]; omega) (.inr (.inr ⟨f, hf, hc, .inl rfl, .inl rfl⟩))
          (.inr (.inr ⟨f, hf, hc, .inr (.inr rfl), .inr ⟨x, rfl⟩⟩)))
        exact ⟨this, this⟩
    · obtain ⟨n, hn, hnd, hb, rfl⟩ := rename_ok e
      rcases h2.oldFile hp hr hf hc with g | ⟨x, g⟩
      · rw [g] at hn; cases hn
      · rw [g] at hn
        cases hn
        have := h2.trans (Mid.rename h2.wf g hb (Ne.symm (dot_ne _).1) d1.symm (by rw [d1]; exact d3)
          (.inr (.inr ⟨f, hf, hc, .inr (.inl rfl), .inl rfl⟩)) (.inr (.inr ⟨f, hf, hc, .inl rfl, .inr ⟨x, rfl⟩⟩)))
        exact ⟨this, this⟩

/-- Where a directory belongs. -/
theorem Mid.dirs (hp : Proper sha dest p) (hr : RoomOver dest s p) (h : Mid dest p s c) {i : Item} (hi : i ∈ p.is) {q : List Str} (hq : q <+: i.comps)
    (hd : q ≠ i.comps ∨ i.node = .dir) : c.get (pathOf q) = none ∨ c.get (pathOf q) = some .dir := by
  by_cases e : q = i.comps
  · subst e
    exact (h.open hp hr).dir i hi (hd.resolve_left (fun h => h rfl))
  · exact (h.open hp hr).way i hi q hq e

theorem mkdirs_mid (hp : Proper sha dest p) (hr : RoomOver dest s p) {i : Item} (hi : i ∈ p.is) : ∀ (ds as : List Str) (c : FS), as ≠ [] →
    as ++ ds <+: i.comps → (as ++ ds ≠ i.comps ∨ i.node = .dir) → Mid dest p s c → c.get (pathOf as.dropLast) = some .dir →
    (mkdirs c (chain as ds)).Sat (Mid dest p s) (Mid dest p s) := by
  -- one directory
  have one : ∀ (rest : List Str) (q : List Str) (c : FS), q ≠ [] → q <+: i.comps → (q ≠ i.comps ∨ i.node = .dir) → Mid dest p s c →
      c.get (pathOf q.dropLast) = some .dir →
      (∀ c1, Mid dest p s c1 → c1.get (pathOf q) = some .dir → (mkdirs c1 rest).Sat (Mid dest p s) (Mid dest p s)) →
      (mkdirs c (pathOf q :: rest)).Sat (Mid dest p s) (Mid dest p s) := by
    intro rest q c hne hq hd h hpar k
    have hn : ∀ x ∈ q, CompName x := fun x hx => hp.sound.names i hi x (hq.subset hx)
    unfold mkdirs
    rcases h.dirs hp hr hi hq hd with e | e
    · rw [stat_none e]
      simp only [e]
      have : Mid dest p s (c.put (pathOf q) .dir) := by
        obtain ⟨b, x, rfl⟩ := (List.eq_nil_or_concat q).resolve_left hne
        rw [List.concat_eq_append] at *
        refine h.trans (Mid.put h.wf (by rw [e]; simp) ?_ ?_ (.inl ⟨i, hi, _, hq, hd, rfl, rfl⟩))
        · rw [dirname_pathOf hn]; simpa using hpar
        · rw [dirname_pathOf hn]; exact length_pathOf (hn x (by simp))
      refine Tr.Sat.bind (Q := fun c1 => c1 = c.put (pathOf q) .dir) (Tr.sat_atomic fun c1 e1 => ?_) fun c1 e1 => ?_
      · cases e1; exact ⟨this, rfl⟩
      · subst e1
        exact k _ this (by simp [Dict.get_put])
    · rw [stat_dir e]
      exact k c h e
  intro ds
  induction ds with
  | nil =>
    intro as c ha hpre hd h hpar
    rw [List.append_nil] at hpre hd
    exact one [] as c ha hpre hd h hpar fun c1 h1 _ => Tr.sat_pure h1
  | cons d ds ih =>
    intro as c ha hpre hd h hpar
    have happ : as ++ d :: ds = (as ++ [d]) ++ ds := by simp
    have hne : as ≠ i.comps := by
      rintro e
      have := hpre.length_le
      rw [← e, List.length_append, List.length_cons] at this
      omega
    refine one _ as c ha ((List.prefix_append as (d :: ds)).trans hpre) (.inl hne) h hpar fun c1 h1 g => ?_
    exact ih (as ++ [d]) c1 (by simp) (by rw [← happ]; exact hpre) (by rw [← happ]; exact hd) h1 (by simpa using g)

theorem makedirs_mid (hp : Proper sha dest p) (hr : RoomOver dest s p) {i : Item} (hi : i ∈ p.is) {q : List Str} (hq : q <+: i.comps)
    (hd : q ≠ i.comps ∨ i.node = .dir) (h : Mid dest p s c) : (makedirs c (pathOf q)).Sat (Mid dest p s) (Mid dest p s) := by
  unfold makedirs
  split
  · exact Tr.sat_fail
  · rename_i hx
    cases q with
    | nil => exact absurd (by rw [show pathOf [] = ['/'] from rfl, h.wf.root]; rfl) hx
    | cons a q =>
      rw [prefixes_pathOf a q (fun x hx => hp.sound.names i hi x (hq.subset hx))]
      exact mkdirs_mid hp hr hi q [a] c (by simp) hq hd h h.wf.root

/-- One member. -/
theorem extractEntry_mid (hp : Proper sha dest p) (hr : RoomOver dest s p) {i : Item} (hi : i ∈ p.is) (h : Mid dest p s c) :
    (extractEntry c i.entry).Sat (Mid dest p s) (Mid dest p s) := by
  obtain ⟨b, x, hbx⟩ := (List.eq_nil_or_concat i.comps).resolve_left (hp.sound.ne i hi)
  rw [List.concat_eq_append] at hbx
  have hn := hp.sound.names i hi
  have hdir : dirname (pathOf i.comps) = pathOf b := by rw [hbx] at hn ⊢; exact dirname_pathOf hn
  have hlen := (dirname_names hp hi).2.2
  have hb : b <+: i.comps := ⟨[x], hbx.symm⟩
  have hbne : b ≠ i.comps := fun e => by have := congrArg List.length hbx; rw [e] at this; simp at this
  have check : (checkDir c (dirname (pathOf i.comps))).Sat (Mid dest p s) (Mid dest p s) := by
    unfold checkDir
    split
    · exact Tr.sat_pure h
    · rw [hdir]
      exact makedirs_mid hp hr hi hb (.inl hbne) h
  have clear : i.node ≠ .dir → ∀ c1, Mid dest p s c1 → (clearWay c1 (pathOf i.comps)).Sat (Mid dest p s)
      (fun c2 => Mid dest p s c2 ∧ ∀ t, c2.get (pathOf i.comps) ≠ some (.link t)) := by
    intro hnd c1 h1
    unfold clearWay
    split
    · refine Tr.sat_atomic fun c2 e => ?_
      obtain ⟨rfl, n, hn, hnd'⟩ := unlink_ok e
      have := h1.trans (Mid.del h1.wf hn hnd' (.inr (.inl ⟨i, hi, hnd, rfl, .inl rfl⟩)))
      exact ⟨this, this, fun t => by rw [Dict.get_del, if_pos rfl]; simp⟩
    · rename_i hx
      refine Tr.sat_pure ⟨h1, fun t e => hx ?_⟩
      simp [isLink, e]
  have isdir : ∀ c1, Mid dest p s c1 → isDir c1 (dirname (pathOf i.comps)) = true → c1.get (dirname (pathOf i.comps)) = some .dir := by
    intro c1 h1 hx
    rw [hdir] at hx ⊢
    rcases h1.dirs hp hr hi hb (.inl hbne) with e | e
    · simp [isDir, stat_none e] at hx
    · exact e
  cases hnode : i.node with
  | dir =>
    have he : i.entry = .dir (pathOf i.comps) := by simp [Item.entry, hnode]
    rw [he]
    simp only [extractEntry]
    split
    · exact Tr.sat_pure h
    · exact makedirs_mid hp hr hi List.prefix_rfl (.inr hnode) h
  | file y =>
    have hnd : i.node ≠ .dir := by rw [hnode]; simp
    have he : i.entry = .file (pathOf i.comps) y := by simp [Item.entry, hnode]
    rw [he]
    unfold extractEntry
    refine Tr.Sat.bind check fun c1 h1 => Tr.Sat.bind (clear hnd c1 h1) fun c2 h2 => ?_
    have put : isDir c2 (dirname (pathOf i.comps)) = true → ∀ z, Mid dest p s (c2.put (pathOf i.comps) (.file z)) := fun hx z =>
      h2.1.trans (Mid.put h2.1.wf ((h2.1.open hp hr).nodir i hi hnd) (isdir c2 h2.1 hx) hlen
        (.inr (.inl ⟨i, hi, hnd, rfl, .inr (.inr ⟨⟨y, hnode⟩, z, rfl⟩)⟩)))
    unfold writeFile
    by_cases hx : isDir c2 (dirname (pathOf i.comps)) = true
    · rw [if_pos hx]
      have go : Tr.Sat (((List.range (y.length + 1)).map (fun k => c2.put (pathOf i.comps) (.file (y.take k))),
          .ok (c2.put (pathOf i.comps) (.file y))) : Tr FS) (Mid dest p s) (Mid dest p s) := by
        refine ⟨fun t ht => ?_, fun t ht => ?_⟩
        · obtain ⟨k, _, rfl⟩ := List.mem_map.mp ht
          exact put hx _
        · cases ht; exact put hx _
      split
      · exact go
      · exact go
      · exact Tr.sat_fail
    · rw [if_neg hx]; exact Tr.sat_fail
  | link y =>
    have hnd : i.node ≠ .dir := by rw [hnode]; simp
    have he : i.entry = .link (pathOf i.comps) y := by simp [Item.entry, hnode]
    rw [he]
    unfold extractEntry
    refine Tr.Sat.bind check fun c1 h1 => Tr.Sat.bind (clear hnd c1 h1) fun c2 h2 => Tr.Sat.bind (Q := Mid dest p s) ?_ fun c3 h3 => ?_
    · rw [if_neg]
      · exact Tr.sat_pure h2.1
      · intro hx
        have nd := (h2.1.open hp hr).nodir i hi hnd
        cases hg : c2.get (pathOf i.comps) with
        | none => simp [isDir, stat_none hg] at hx
        | some n =>
          cases n with
          | file z => simp [isDir, stat, statN, hg] at hx
          | link t => exact h2.2 t hg
          | dir => exact nd hg
    · split
      · rename_i hx
        simp only [Bool.and_eq_true] at hx
        refine Tr.sat_atomic fun c4 e => ?_
        cases e
        have := h3.trans (Mid.put (n := .link y) h3.wf ((h3.open hp hr).nodir i hi hnd) (isdir c3 h3 hx.1) hlen
          (.inr (.inl ⟨i, hi, hnd, rfl, .inr (.inl (by rw [hnode]))⟩)))
        exact ⟨this, this⟩
      · exact Tr.sat_fail

theorem extractAll_mid (hp : Proper sha dest p) (hr : RoomOver dest s p) : ∀ (is : List Item) (c : FS), (∀ i ∈ is, i ∈ p.is) → Mid dest p s c →
    (extractAll c (is.map Item.entry)).Sat (Mid dest p s) (Mid dest p s)
  | [], _, _, h => Tr.sat_pure h
  | i :: is, c, hi, h => by
    rw [List.map_cons]
    unfold extractAll
    exact Tr.Sat.bind (extractEntry_mid hp hr (hi i (by simp)) h) fun c1 h1 => extractAll_mid hp hr is c1 (fun j hj => hi j (by simp [hj])) h1

/-! ## Whole installations -/

/-- An installation of the package over nothing or over itself. -/
theorem install_eq (sha : Str → Str) (dest : Str) (p : Pack) (ho : old = none ∨ old = some p.l) : ∃ M : List FileInfo, M.Perm (p.l.filter FileInfo.conf) ∧
    ∀ c es, extractInstall sha dest old p.l es c =
      Tr.bind (backupList sha (M.map (fun f => (f.hash, joinPath dest [f.path]))) (c, [])) fun st =>
      Tr.bind (extractAll st.1 es) fun fs => Tr.bind (restore fs st.2) fun fs => ([], .ok fs) := by
  rcases ho with rfl | rfl
  · refine ⟨_, List.Perm.refl _, fun c es => ?_⟩
    unfold extractInstall
    simp only [backupNew_eq]
  · refine ⟨(sortFiles p.l).filter FileInfo.conf, (List.mergeSort_perm p.l _).filter _, fun c es => ?_⟩
    unfold extractInstall
    simp only
    rw [overlap_self, backupUpg_eq _ _ _ _ (by intro x hx; obtain ⟨f, _, rfl⟩ := List.mem_map.mp hx; rfl)]
    have all : (p.l.all fun f => decide (f.path ∈ List.map FileInfo.path p.l)) = true := by
      rw [List.all_eq_true]
      intro f hf
      simpa using ⟨f, hf, rfl⟩
    have list : List.map (fun x : FileInfo × FileInfo => (x.2.hash, joinPath dest [x.2.path]))
        (List.filter (fun x => x.1.conf && x.2.conf) (List.map (fun f => (f, f)) (sortFiles p.l))) =
        List.map (fun f => (f.hash, joinPath dest [f.path])) (List.filter FileInfo.conf (sortFiles p.l)) := by
      rw [List.filter_map, List.map_map]
      have : ((fun x : FileInfo × FileInfo => x.1.conf && x.2.conf) ∘ fun f => (f, f)) = FileInfo.conf := by
        funext f
        simp
      rw [this]
      rfl
    simp only [all, list, if_true]

theorem conf_of {M : List FileInfo} (hM : M.Perm (p.l.filter FileInfo.conf)) :
    ∀ x ∈ M.map (fun f => (f.hash, joinPath dest [f.path])), p.Conf dest x.2 := by
  intro x hx
  obtain ⟨f, hf, rfl⟩ := List.mem_map.mp hx
  obtain ⟨h1, h2⟩ := List.mem_filter.mp (hM.mem_iff.mp hf)
  exact ⟨f, h1, h2, rfl⟩

theorem install_mid (hp : Proper sha dest p) (hr : RoomOver dest s p) (ho : old = none ∨ old = some p.l) (h : Mid dest p s c) :
    (extractInstall sha dest old p.l (p.is.map Item.entry) c).Sat (Mid dest p s) (Mid dest p s) := by
  obtain ⟨M, hM, e⟩ := install_eq sha dest p ho
  rw [e]
  refine Tr.Sat.bind (backupList_mid hp hr _ (c, []) (conf_of hM) h (by simp)) fun st h1 => ?_
  refine Tr.Sat.bind (extractAll_mid hp hr p.is st.1 (fun _ h => h) h1.1) fun c1 h2 => ?_
  exact Tr.Sat.bind (restore_mid hp hr st.2 c1 h1.2 h2) fun c2 h3 => Tr.sat_pure h3

theorem interrupted_mid (hw : WF s) (hp : Proper sha dest p) (hr : RoomOver dest s p) (ho : old = none ∨ old = some p.l) {ok : FS → Prop}
    (h : Interrupted sha dest old p ok s c) : Mid dest p s c := by
  induction h with
  | start => exact Mid.start hw
  | again _ hc _ ih => exact (install_mid hp hr ho ih).1 _ hc

/-- The next installation succeeds. -/
theorem Mid.install (hp : Proper sha dest p) (hr : RoomOver dest s p) (ho : old = none ∨ old = some p.l) (h : Mid dest p s c) :
    ∃ t, (extractInstall sha dest old p.l (p.is.map Item.entry) c).2 = .ok t ∧ ReinstalledOver sha dest p.l p.is c t := by
  rcases ho with rfl | rfl
  · exact install_over_old h.wf hp.sound hp.lists (h.open hp hr) (h.keepable hp hr)
  · exact reinstall_over h.wf hp.sound hp.lists (h.open hp hr) (h.keepable hp hr)

/-- **C222.**  However often and wherever installing was interrupted, the next installation succeeds, gives what installing over the
remains has to give, puts all members that are no configuration files in place and changes nothing that is not of the package.  Missing
for the full statement: configuration files. -/
theorem interrupted_partial (hw : WF s) (hp : Proper sha dest p) (hr : RoomOver dest s p) (ho : old = none ∨ old = some p.l) {ok : FS → Prop}
    (h : Interrupted sha dest old p ok s c) : ∃ t, (extractInstall sha dest old p.l (p.is.map Item.entry) c).2 = .ok t ∧
      ReinstalledOver sha dest p.l p.is c t ∧ (∀ i ∈ p.is, ¬ p.Conf dest (pathOf i.comps) → t.get (pathOf i.comps) = some i.node) ∧
      ∀ k, ¬ p.Own dest k → t.get k = s.get k := by
  have hm := interrupted_mid hw hp hr ho h
  obtain ⟨t, ht, hr'⟩ := hm.install hp hr ho
  refine ⟨t, ht, hr', fun i hi hc => hr'.repaired i hi ?_, fun k hk => ?_⟩
  · rintro ⟨f, hf, hcf, e, _⟩
    exact hc ⟨f, hf, hcf, e⟩
  · exact ((install_mid hp hr ho hm).2 t ht).rest hp hk

/-! ## Configuration files -/

/-- The package as far as its members are concerned. -/
def Pack.plain (p : Pack) : Pack := { p with l := p.l.map (fun f => { f with conf := false }) }

theorem plain_noconf {f : FileInfo} (hf : f ∈ p.plain.l) : f.conf = false := by
  obtain ⟨g, _, rfl⟩ := List.mem_map.mp hf
  rfl

theorem plain_proper (hp : Proper sha dest p) : Proper sha dest p.plain := by
  refine ⟨hp.sound, ⟨fun f hf => ?_, fun i hi => ?_⟩, fun f hf g hg e => ?_, fun f hf hc => ?_, fun f hf hc => ?_⟩
  · obtain ⟨g, hg, rfl⟩ := List.mem_map.mp hf
    exact hp.lists.sub g hg
  · rcases hp.lists.all i hi with ⟨f, hf, e⟩ | h
    · exact .inl ⟨_, List.mem_map.mpr ⟨f, hf, rfl⟩, e⟩
    · exact .inr h
  · obtain ⟨f', hf', rfl⟩ := List.mem_map.mp hf
    obtain ⟨g', hg', rfl⟩ := List.mem_map.mp hg
    rw [hp.once f' hf' g' hg' e]
  · rw [plain_noconf hf] at hc; cases hc
  · rw [plain_noconf hf] at hc; cases hc

theorem plain_room (hw : Mid dest p s c) (hp : Proper sha dest p) (hr : RoomOver dest s p) : RoomOver dest c p.plain := by
  have := hw.open hp hr
  refine ⟨this, fun f hf hc => ?_, fun f hf hc => ?_, fun f hf hc => ?_⟩ <;> rw [plain_noconf hf] at hc <;> cases hc

/-- What is no place of a member or above one. -/
theorem plain_rest (h : Mid dest p.plain s c) {k : Str} (hk : ∀ i ∈ p.is, ∀ q, q <+: i.comps → k ≠ pathOf q) : c.get k = s.get k := by
  rcases h.at_ k with e | ⟨i, hi, q, hq, _, e, _⟩ | ⟨i, hi, _, e, _⟩ | ⟨f, hf, hc, _⟩
  · exact e
  · exact absurd e (hk i hi q hq)
  · exact absurd e (hk i hi _ List.prefix_rfl)
  · rw [plain_noconf hf] at hc; cases hc

/-- Extraction keeps everything else, at each step. -/
theorem extract_rest (hp : Proper sha dest p) (hr : RoomOver dest s p) (h : Mid dest p s c) :
    (extractAll c (p.is.map Item.entry)).Sat (Mid dest p.plain c) (Mid dest p.plain c) :=
  extractAll_mid (plain_proper hp) (plain_room h hp hr) p.is c (fun _ h => h) (Mid.start h.wf)

theorem conf_names (hp : Proper sha dest p) {k : Str} (hk : p.Conf dest k) : ∀ i ∈ p.is, ∀ q, q <+: i.comps → dotOld k ≠ pathOf q ∧ dotNew k ≠ pathOf q := by
  obtain ⟨f, hf, hc, rfl⟩ := hk
  exact hp.names f hf hc

theorem conf_apart (hp : Proper sha dest p) {k k' : Str} (hk : p.Conf dest k) (hk' : p.Conf dest k') : k ≠ dotOld k' ∧ k ≠ dotNew k' := by
  obtain ⟨f, hf, hc, rfl⟩ := hk
  obtain ⟨i, hi, e, _⟩ := hp.member hf hc
  have := conf_names hp hk' i hi _ List.prefix_rfl
  rw [e]
  exact ⟨Ne.symm this.1, Ne.symm this.2⟩

/-- A configuration file that is not there or as in the package is not moved, and what is kept beside it stays. -/
theorem backupList_still (hp : Proper sha dest p) {k : Str} (hk : p.Conf dest k) : ∀ (L : List FileInfo) (st : FS × List Str),
    (∀ f ∈ L, f ∈ p.l ∧ f.conf = true) → (∀ f ∈ L, joinPath dest [f.path] = k → st.1.get k = none ∨ ∃ x, st.1.get k = some (.file x) ∧ some (sha x) = f.hash) →
    k ∉ st.2 → (backupList sha (L.map (fun f => (f.hash, joinPath dest [f.path]))) st).Sat (fun t => t.get (dotOld k) = st.1.get (dotOld k))
      (fun st' => st'.1.get (dotOld k) = st.1.get (dotOld k) ∧ k ∉ st'.2)
  | [], st, _, _, hn => Tr.sat_pure ⟨rfl, hn⟩
  | f :: L, st, hL, hq, hn => by
    rw [List.map_cons]
    unfold backupList
    have hf := hL f (by simp)
    have hcf : p.Conf dest (joinPath dest [f.path]) := ⟨f, hf.1, hf.2, rfl⟩
    have next : ∀ st' : FS × List Str, st'.1.get (dotOld k) = st.1.get (dotOld k) ∧ st'.1.get k = st.1.get k ∧ k ∉ st'.2 →
        (backupList sha (L.map (fun f => (f.hash, joinPath dest [f.path]))) st').Sat (fun t => t.get (dotOld k) = st.1.get (dotOld k))
          (fun st' => st'.1.get (dotOld k) = st.1.get (dotOld k) ∧ k ∉ st'.2) := by
      rintro st' ⟨h1, h2, h3⟩
      have := backupList_still hp hk L st' (fun g hg => hL g (by simp [hg])) (fun g hg e => by rw [h2]; exact hq g (by simp [hg]) e) h3
      rw [h1] at this
      exact this
    refine Tr.Sat.bind (Q := fun st' => st'.1.get (dotOld k) = st.1.get (dotOld k) ∧ st'.1.get k = st.1.get k ∧ k ∉ st'.2) ?_ next
    have same : Tr.Sat (([], .ok st) : Tr (FS × List Str)) (fun t => t.get (dotOld k) = st.1.get (dotOld k))
      (fun st' => st'.1.get (dotOld k) = st.1.get (dotOld k) ∧ st'.1.get k = st.1.get k ∧ k ∉ st'.2) := Tr.sat_pure ⟨rfl, rfl, hn⟩
    unfold backupIf
    by_cases e : joinPath dest [f.path] = k
    · rcases hq f (by simp) e with h0 | ⟨x, h0, h1⟩
      · have : sha1File sha st.1 (joinPath dest [f.path]) = none := by rw [e]; simp [sha1File, stat_none h0]
        rw [this]; exact same
      · have : sha1File sha st.1 (joinPath dest [f.path]) = some (sha x) := by rw [e]; simp [sha1File, stat, statN, h0]
        rw [this]
        simp only [h1, ne_eq, not_true_eq_false, if_false]
        exact same
    · split
      · exact same
      · split
        · have a1 := backup_keeps st.1 (joinPath dest [f.path]) k (Ne.symm e) (conf_apart hp hk hcf).1
          have a2 := backup_keeps st.1 (joinPath dest [f.path]) (dotOld k) (Ne.symm (conf_apart hp hcf hk).1) (fun h => e (dotOld_inj h).symm)
          refine Tr.Sat.bind (Tr.Sat.mono (a2.and a1) (fun _ h => h.1) fun _ h => h) fun c1 h1 => Tr.sat_pure ⟨h1.1, h1.2, ?_⟩
          intro h
          rcases List.mem_append.mp h with h | h
          · exact hn h
          · exact e (List.mem_singleton.mp h).symm
        · exact same

/-- The user's file is where it was, or kept beside while there is none or that of the package. -/
def Kept (p : Pack) (k u : Str) (c : FS) : Prop :=
  c.get k = some (.file u) ∨ (c.get (dotOld k) = some (.file u) ∧ (c.get k = none ∨ ∃ i ∈ p.is, k = pathOf i.comps ∧ c.get k = some i.node))

theorem Kept.step (hp : Proper sha dest p) (hr : RoomOver dest s p) (ho : old = none ∨ old = some p.l) (hn : p.l.Nodup) (hm : Mid dest p s c)
    {k u : Str} (hk : Changed sha dest p.l s k) (hu : s.get k = some (.file u)) (hj : Kept p k u c) :
    ∀ c' ∈ (extractInstall sha dest old p.l (p.is.map Item.entry) c).1, p.Uncut s k c' → Kept p k u c' := by
  obtain ⟨f, hf, hc, e, x, hx, hh⟩ := hk
  rw [hu] at hx
  cases hx
  have hconf : p.Conf dest k := ⟨f, hf, hc, e⟩
  obtain ⟨M, hM, he⟩ := install_eq sha dest p ho
  have hMm : ∀ g ∈ M, g ∈ p.l ∧ g.conf = true := fun g hg => List.mem_filter.mp (hM.mem_iff.mp hg)
  have final : ∀ c', Safe k (.file u) c' → p.Uncut s k c' → Kept p k u c' := by
    intro c' hs hun
    by_cases e' : c'.get k = some (.file u)
    · exact .inl e'
    · refine .inr ⟨hs.resolve_left e', ?_⟩
      rcases hun with h | h | h
      · exact .inl h
      · exact absurd (h.trans hu) e'
      · exact .inr h
  have bm := backupList_mid (sha := sha) hp hr _ (c, []) (conf_of hM) hm (by simp)
  have pres : ∀ (c1 : FS), Mid dest p s c1 → c1.get (dotOld k) = some (.file u) →
      (extractAll c1 (p.is.map Item.entry)).Sat (Safe k (.file u)) (fun t => t.get (dotOld k) = some (.file u)) := by
    intro c1 h1 h2
    have key : ∀ t, Mid dest p.plain c1 t → t.get (dotOld k) = some (.file u) := fun t ht =>
      (plain_rest ht fun i hi q hq => (conf_names hp hconf i hi q hq).1).trans h2
    exact (extract_rest hp hr h1).mono (fun t ht => .inr (key t ht)) key
  intro c' hc' hun
  refine final c' ?_ hun
  rw [he] at hc'
  rcases hj with hj | ⟨hj, hj'⟩
  · -- changed
    have hap : Apart ((M.map (fun f => (f.hash, joinPath dest [f.path]))).map Prod.snd) := by
      refine ⟨?_, fun a ha b hb => ?_⟩
      · rw [List.map_map]
        refine List.Nodup.map_on (fun a ha b hb h => hp.once a (hMm a ha).1 b (hMm b hb).1 h) ?_
        exact hM.nodup_iff.mpr (hn.filter _)
      · obtain ⟨x, hx, rfl⟩ := List.mem_map.mp ha
        obtain ⟨y, hy, rfl⟩ := List.mem_map.mp hb
        exact conf_apart hp (conf_of hM x hx) (conf_of hM y hy)
    have hmem : (f.hash, k) ∈ M.map (fun f => (f.hash, joinPath dest [f.path])) :=
      List.mem_map.mpr ⟨f, hM.mem_iff.mpr (List.mem_filter.mpr ⟨hf, hc⟩), by rw [e]⟩
    have b1 := backupList_changed sha k u f.hash (Ne.symm hh) _ (c, []) hap hmem hj
    refine (Tr.Sat.bind (R := fun _ => True) (Tr.Sat.mono (b1.and bm) (fun _ h => h.1) fun _ h => h) fun st h1 => ?_).1 c' hc'
    obtain ⟨⟨h1, l, hl, hsub, hpl⟩, h2, _⟩ := h1
    have hl : st.2 = l := by simpa using hl
    refine Tr.Sat.bind (pres st.1 h2 h1) fun t ht => ?_
    have r := restore_safe k (.file u) st.2 t (hl ▸ hap.sublist hsub) (hl ▸ hpl) ht
    exact Tr.Sat.bind (Tr.Sat.mono r (fun _ h => h) (fun _ _ => trivial)) fun _ _ => Tr.sat_pure trivial
  · -- kept beside
    have quiet : ∀ g ∈ M, joinPath dest [g.path] = k → c.get k = none ∨ ∃ x, c.get k = some (.file x) ∧ some (sha x) = g.hash := by
      intro g hg eg
      rcases hj' with h | ⟨i, hi, ei, h⟩
      · exact .inl h
      · obtain ⟨x, hx, hxh⟩ := hp.conf g (hMm g hg).1 (hMm g hg).2 i hi (eg.trans ei)
        exact .inr ⟨x, by rw [h, hx], hxh.symm⟩
    have b1 := backupList_still hp hconf M (c, []) hMm quiet (by simp)
    refine (Tr.Sat.bind (R := fun _ => True) (Tr.Sat.mono (b1.and bm) (fun _ h => .inr (h.1.trans hj)) fun _ h => h) fun st h1 => ?_).1 c' hc'
    obtain ⟨⟨h1, h3⟩, h2, h4⟩ := h1
    refine Tr.Sat.bind (pres st.1 h2 (h1.trans hj)) fun t ht => ?_
    have r := restore_keeps st.2 (dotOld k) t (fun q hq => ⟨Ne.symm (conf_apart hp (h4 q hq) hconf).1,
      fun h => h3 (by rw [dotOld_inj h]; exact hq), dotOld_ne_dotNew k q⟩)
    exact Tr.Sat.bind (Tr.Sat.mono r (fun _ h => .inr (h.trans ht)) (fun _ _ => trivial)) fun _ _ => Tr.sat_pure trivial

/-- **C222, configuration files.**  If at none of the interruptions the configuration file was cut off, then afterwards the file that the
user has changed is in its place or beside it with `.old`. -/
theorem interrupted_conf (hw : WF s) (hp : Proper sha dest p) (hr : RoomOver dest s p) (ho : old = none ∨ old = some p.l) (hn : p.l.Nodup)
    {k u : Str} (hk : Changed sha dest p.l s k) (hu : s.get k = some (.file u)) (h : Interrupted sha dest old p (p.Uncut s k) s c) :
    ∃ t, (extractInstall sha dest old p.l (p.is.map Item.entry) c).2 = .ok t ∧
      (t.get k = some (.file u) ∨ t.get (k ++ ".old".toList) = some (.file u)) := by
  have hj : Kept p k u c := by
    induction h with
    | start => exact .inl hu
    | again h1 h2 h3 ih => exact Kept.step hp hr ho hn (interrupted_mid hw hp hr ho h1) hk hu ih _ h2 h3
  have hm := interrupted_mid hw hp hr ho h
  obtain ⟨t, ht, ho'⟩ := hm.install hp hr ho
  refine ⟨t, ht, ?_⟩
  obtain ⟨f, hf, hc, e, x, hx, hh⟩ := hk
  rw [hu] at hx
  cases hx
  rcases hj with hj | ⟨hj, hj'⟩
  · left
    rw [ho'.kept k ⟨f, hf, hc, e, u, hj, hh⟩, hj]
  · right
    have hno : ¬ Changed sha dest p.l c k := by
      rintro ⟨g, hg, hgc, eg, x, hx, hne⟩
      rcases hj' with h | ⟨i, hi, ei, h⟩
      · rw [h] at hx; cases hx
      · obtain ⟨y, hy, hyh⟩ := hp.conf g hg hgc i hi (eg.trans ei)
        rw [h, hy] at hx
        cases hx
        exact hne hyh
    rw [dotOld_eq, ho'.rest (dotOld k) (fun i hi q hq => (conf_names hp ⟨f, hf, hc, e⟩ i hi q hq).1), hj]
    intro q hq
    rw [dotOld_eq, dotNew_eq]
    exact ⟨dotOld_ne_dotNew k q, fun h => hno (by rw [dotOld_inj h]; exact hq)⟩

theorem backupList_none : ∀ (L : List FileInfo) (st : FS × List Str),
    (∀ f ∈ L, st.1.get (joinPath dest [f.path]) = none ∨ ∃ x, st.1.get (joinPath dest [f.path]) = some (.file x) ∧ some (sha x) = f.hash) →
    backupList sha (L.map (fun f => (f.hash, joinPath dest [f.path]))) st = ([], .ok st)
  | [], _, _ => rfl
  | f :: L, st, h => by
    have ih := backupList_none L st fun g hg => h g (by simp [hg])
    have one : backupIf sha f.hash (joinPath dest [f.path]) st = ([], .ok st) := by
      unfold backupIf
      rcases h f (by simp) with h0 | ⟨x, h0, h1⟩
      · have : sha1File sha st.1 (joinPath dest [f.path]) = none := by simp [sha1File, stat_none h0]
        rw [this]
      · have : sha1File sha st.1 (joinPath dest [f.path]) = some (sha x) := by simp [sha1File, stat, statN, h0]
        rw [this]
        simp [h1]
    rw [List.map_cons]
    unfold backupList
    rw [one]
    simp only [Tr.bind, ih]
    rfl

/-- **C222, no changed configuration file.**  If the user has changed none of the configuration files and none was cut off at an
interruption, then the next installation gives what the first one would have given. -/
theorem interrupted_unchanged (hw : WF s) (hp : Proper sha dest p) (hr : RoomOver dest s p) (ho : old = none ∨ old = some p.l)
    (hno : ∀ k, ¬ Changed sha dest p.l s k) (h : Interrupted sha dest old p (fun c' => ∀ k, p.Conf dest k → p.Uncut s k c') s c) :
    ∃ t, (extractInstall sha dest old p.l (p.is.map Item.entry) c).2 = .ok t ∧ Reinstalled sha dest p.l p.is s t := by
  have uncut : ∀ c, (∀ k, p.Conf dest k → p.Uncut s k c) → ∀ k, ¬ Changed sha dest p.l c k := by
    rintro c hc k ⟨f, hf, hcf, e, x, hx, hne⟩
    rcases hc k ⟨f, hf, hcf, e⟩ with h | h | ⟨i, hi, ei, h⟩
    · rw [h] at hx; cases hx
    · exact hno k ⟨f, hf, hcf, e, x, h ▸ hx, hne⟩
    · obtain ⟨y, hy, hyh⟩ := hp.conf f hf hcf i hi (e.trans ei)
      rw [h, hy] at hx
      cases hx
      exact hne hyh
  obtain ⟨M, hM, he⟩ := install_eq sha dest p ho
  have hMm : ∀ g ∈ M, g ∈ p.l ∧ g.conf = true := fun g hg => List.mem_filter.mp (hM.mem_iff.mp hg)
  have inv : Mid dest p.plain s c ∧ ∀ k, ¬ Changed sha dest p.l c k := by
    induction h with
    | start => exact ⟨Mid.start hw, hno⟩
    | @again c1 c2 h1 h2 h3 ih =>
      refine ⟨?_, uncut _ h3⟩
      have hm := interrupted_mid hw hp hr ho h1
      have quiet : ∀ f ∈ M, c1.get (joinPath dest [f.path]) = none ∨
          ∃ x, c1.get (joinPath dest [f.path]) = some (.file x) ∧ some (sha x) = f.hash := by
        intro f hf
        rcases hm.plain hp hr (hMm f hf).1 (hMm f hf).2 with e | ⟨x, e⟩
        · exact .inl e
        · refine .inr ⟨x, e, Classical.byContradiction fun hne => ih.2 _ ⟨f, (hMm f hf).1, (hMm f hf).2, rfl, x, e, Ne.symm hne⟩⟩
      rw [he, backupList_none M (c1, []) quiet] at h2
      have step := Tr.Sat.bind (R := fun _ => True) (f := fun fs => Tr.bind (restore fs []) fun fs => (([], .ok fs) : Tr FS))
        (extract_rest hp hr hm) fun t _ => ⟨fun _ h => by simp [restore, Tr.bind] at h, fun _ _ => trivial⟩
      have h2' : c2 ∈ (Tr.bind (extractAll c1 (p.is.map Item.entry)) fun fs => Tr.bind (restore fs []) fun fs => (([], .ok fs) : Tr FS)).1 := by
        simpa [Tr.bind] using h2
      exact ih.1.trans (step.1 c2 h2')
  obtain ⟨t, ht, hr'⟩ := (interrupted_mid hw hp hr ho h).install hp hr ho
  refine ⟨t, ht, fun k hk => absurd hk (hno k), fun i _ hk => absurd hk (hno _), fun i hi _ => hr'.repaired i hi (inv.2 _), hr'.dirs, fun k hk _ => ?_⟩
  rw [hr'.rest k hk (fun q hq => absurd hq (inv.2 q)), plain_rest inv.1 hk]

end

/-- A file system with a configuration file that the user has changed. -/
def itFS : FS := [(['/'], .dir), ("/e".toList, .dir), ("/e/c".toList, .file ['u'])]
def itAside : FS := Dict.put (Dict.del itFS "/e/c".toList) "/e/c.old".toList (.file ['u'])
def itCut : FS := Dict.put itAside "/e/c".toList (.file [])

theorem it_wf : WF itFS := wf_check (by decide) (by decide)

theorem it_room : Room ['/'] itFS hiA := by
  refine ⟨⟨by decide, by decide, fun i hi q hq hne => ?_⟩, fun f hf hc => .inr ⟨['u'], ?_⟩, by decide, by decide⟩
  · have : ∀ i ∈ hiA.is, ∀ n ≤ i.comps.length, i.comps.take n ≠ i.comps →
      itFS.get (pathOf (i.comps.take n)) = none ∨ itFS.get (pathOf (i.comps.take n)) = some .dir := by decide
    exact hi_take (P := fun q => q ≠ i.comps → itFS.get (pathOf q) = none ∨ itFS.get (pathOf q) = some .dir) (this i hi) hq hne
  · have : ∀ f ∈ hiA.l, f.conf = true → itFS.get (joinPath ['/'] [f.path]) = some (.file ['u']) := by decide
    exact this f hf hc

theorem it_changed : Changed id ['/'] hiA.l itFS "/e/c".toList :=
  ⟨⟨"e/c".toList, true, some ['1'], false⟩, by decide, rfl, by decide, ['u'], by decide, by decide⟩

/-- Both are left by an interrupted installation. -/
theorem it_aside {ok : FS → Prop} (h : ok itAside) : Interrupted id ['/'] none hiA ok itFS itAside :=
  .again .start (by decide +kernel) h

theorem it_cut : Interrupted id ['/'] none hiA (fun _ => True) itFS itCut := .again .start (by decide +kernel) trivial

/-- The hypotheses can be met. -/
example : ∃ t, (extractInstall id ['/'] none hiA.l (hiA.is.map Item.entry) itCut).2 = .ok t ∧
    ReinstalledOver id ['/'] hiA.l hiA.is itCut t ∧ (∀ i ∈ hiA.is, ¬ hiA.Conf ['/'] (pathOf i.comps) → t.get (pathOf i.comps) = some i.node) ∧
      ∀ k, ¬ hiA.Own ['/'] k → t.get k = itFS.get k :=
  interrupted_partial it_wf hiA_proper it_room.over (.inl rfl) it_cut

example : ∃ t, (extractInstall id ['/'] none hiA.l (hiA.is.map Item.entry) itAside).2 = .ok t ∧
    (t.get "/e/c".toList = some (.file ['u']) ∨ t.get ("/e/c".toList ++ ".old".toList) = some (.file ['u'])) :=
  interrupted_conf it_wf hiA_proper it_room.over (.inl rfl) (by decide) it_changed (by decide) (it_aside (.inl (by decide)))

example : ∃ t, (extractInstall id ['/'] none hiA.l (hiA.is.map Item.entry) (Dict.put hiFS "/e".toList .dir)).2 = .ok t ∧
    Reinstalled id ['/'] hiA.l hiA.is hiFS t := by
  refine interrupted_unchanged (wf_check (by decide) (by decide)) hiA_proper hiA_room.over (.inl rfl) ?_ (.again .start (by decide +kernel) ?_)
  · rintro k ⟨f, hf, hc, rfl, x, hx, _⟩
    have : ∀ f ∈ hiA.l, f.conf = true → hiFS.get (joinPath ['/'] [f.path]) = none := by decide
    rw [this f hf hc] at hx
    cases hx
  · rintro k ⟨f, hf, hc, rfl⟩
    have : ∀ f ∈ hiA.l, f.conf = true → Dict.get (Dict.put hiFS "/e".toList .dir) (joinPath ['/'] [f.path]) = none := by decide
    exact .inl (this f hf hc)

/-- After an interruption between moving the user's file away and writing that of the package, the latter is taken for the one in use, and
the user's stays aside. -/
theorem interrupted_aside : ∃ t, Interrupted id ['/'] none hiA (hiA.Uncut itFS "/e/c".toList) itFS itAside ∧
    (extractInstall id ['/'] none hiA.l (hiA.is.map Item.entry) itAside).2 = .ok t ∧
    t.get "/e/c".toList = some (.file ['1']) ∧ t.get "/e/c.old".toList = some (.file ['u']) := by
  cases h : (extractInstall id ['/'] none hiA.l (hiA.is.map Item.entry) itAside).2 with
  | error e =>
    have : (extractInstall id ['/'] none hiA.l (hiA.is.map Item.entry) itAside).2.toOption.isSome = true := by decide +kernel
    rw [h] at this; cases this
  | ok t =>
    have : (extractInstall id ['/'] none hiA.l (hiA.is.map Item.entry) itAside).2.toOption.any (fun t =>
      decide (t.get "/e/c".toList = some (.file ['1']) ∧ t.get "/e/c.old".toList = some (.file ['u']))) = true := by decide +kernel
    rw [h] at this
    simp only [Except.toOption, Option.any_some, decide_eq_true_eq] at this
    exact ⟨t, it_aside (.inl (by decide)), rfl, this⟩

/-- After an interruption while the configuration file of the package is written, what there is of it is taken for the user's, and the
user's is nowhere any more. -/
theorem interrupted_lost : ∃ t, Interrupted id ['/'] none hiA (fun _ => True) itFS itCut ∧
    (extractInstall id ['/'] none hiA.l (hiA.is.map Item.entry) itCut).2 = .ok t ∧
    t.get "/e/c".toList = some (.file []) ∧ ∀ k, t.get k ≠ some (.file ['u']) := by
  cases h : (extractInstall id ['/'] none hiA.l (hiA.is.map Item.entry) itCut).2 with
  | error e =>
    have : (extractInstall id ['/'] none hiA.l (hiA.is.map Item.entry) itCut).2.toOption.isSome = true := by decide +kernel
    rw [h] at this; cases this
  | ok t =>
    have : (extractInstall id ['/'] none hiA.l (hiA.is.map Item.entry) itCut).2.toOption.any (fun t =>
      decide (t.get "/e/c".toList = some (.file []) ∧ ∀ k ∈ t.keys, t.get k ≠ some (.file ['u']))) = true := by decide +kernel
    rw [h] at this
    simp only [Except.toOption, Option.any_some, decide_eq_true_eq] at this
    refine ⟨t, it_cut, rfl, this.1, fun k hk => this.2 k ?_ hk⟩
    exact (Dict.mem_keys _ _).mpr (by simp [hk])

/-- **C222 is false of the code.** -/
theorem interrupted_refuted : ¬ InterruptedFull := by
  intro h
  obtain ⟨t, _, ht, hc, _⟩ := interrupted_lost
  obtain ⟨t', ht', hr⟩ := h id ['/'] none hiA itFS itCut it_wf hiA_proper it_room (.inl rfl) it_cut
  rw [ht] at ht'
  cases ht'
  have := hr.kept _ it_changed
  rw [hc] at this
  revert this
  decide

end Pisi.FS
