import Verif.Model.InstallFiles

/-! # Reasoning about traces of file system states -/
namespace Pisi.FS
open Pisi.Path

/-- All states passed satisfy `P`, the result satisfies `Q`. -/
def Tr.Sat {β : Type} (x : Tr β) (P : FS → Prop) (Q : β → Prop) : Prop :=
  (∀ s ∈ x.1, P s) ∧ ∀ b, x.2 = .ok b → Q b

variable {β γ : Type}

theorem Tr.Sat.bind {x : Tr β} {f : β → Tr γ} {P : FS → Prop} {Q : β → Prop} {R : γ → Prop}
    (hx : x.Sat P Q) (hf : ∀ b, Q b → (f b).Sat P R) : (x.bind f).Sat P R := by
  unfold Tr.bind
  cases h : x.2 with
  | error e => exact ⟨hx.1, fun b hb => by cases hb⟩
  | ok b =>
    have := hf b (hx.2 b h)
    refine ⟨fun s hs => ?_, this.2⟩
    rcases List.mem_append.mp hs with hs | hs
    · exact hx.1 s hs
    · exact this.1 s hs

theorem Tr.Sat.mono {x : Tr β} {P P' : FS → Prop} {Q Q' : β → Prop} (h : x.Sat P Q)
    (hP : ∀ s, P s → P' s) (hQ : ∀ b, Q b → Q' b) : x.Sat P' Q' :=
  ⟨fun s hs => hP s (h.1 s hs), fun b hb => hQ b (h.2 b hb)⟩

theorem Tr.Sat.and {x : Tr β} {P P' : FS → Prop} {Q Q' : β → Prop} (h : x.Sat P Q) (h' : x.Sat P' Q') :
    x.Sat (fun s => P s ∧ P' s) (fun b => Q b ∧ Q' b) :=
  ⟨fun s hs => ⟨h.1 s hs, h'.1 s hs⟩, fun b hb => ⟨h.2 b hb, h'.2 b hb⟩⟩

theorem Tr.sat_pure {P : FS → Prop} {Q : β → Prop} {b : β} (h : Q b) : Tr.Sat (([], .ok b) : Tr β) P Q :=
  ⟨fun _ hs => by simp at hs, fun b' hb => by simp only [Except.ok.injEq] at hb; exact hb ▸ h⟩

theorem Tr.sat_fail {P : FS → Prop} {Q : β → Prop} {e : FErr} : Tr.Sat (([], .error e) : Tr β) P Q :=
  ⟨fun _ hs => by simp at hs, fun _ hb => by cases hb⟩

theorem Tr.sat_atomic {P Q : FS → Prop} {r : Except FErr FS} (h : ∀ s, r = .ok s → P s ∧ Q s) :
    (Tr.atomic r).Sat P Q := by
  unfold Tr.atomic
  cases r with
  | error e => exact Tr.sat_fail
  | ok s =>
    refine ⟨fun s' hs => ?_, fun s' hs => ?_⟩
    · simp only [List.mem_singleton] at hs; subst hs; exact (h _ rfl).1
    · simp only [Except.ok.injEq] at hs; subst hs; exact (h _ rfl).2

theorem unlink_ok {fs fs' : FS} {p : Str} (h : unlink fs p = .ok fs') :
    fs' = fs.del p ∧ ∃ n, fs.get p = some n ∧ n ≠ .dir := by
  unfold unlink at h
  cases hg : fs.get p with
  | none => rw [hg] at h; cases h
  | some n =>
    rw [hg] at h
    cases n with
    | file c => simp only [Except.ok.injEq] at h; exact ⟨h.symm, _, rfl, by simp⟩
    | link c => simp only [Except.ok.injEq] at h; exact ⟨h.symm, _, rfl, by simp⟩
    | dir => cases h

theorem rename_ok {fs fs' : FS} {a b : Str} (h : rename fs a b = .ok fs') :
    ∃ n, fs.get a = some n ∧ n ≠ .dir ∧ fs.get b ≠ some .dir ∧ fs' = (fs.del a).put b n := by
  unfold rename at h
  cases hg : fs.get a with
  | none => rw [hg] at h; cases h
  | some n =>
    rw [hg] at h
    cases n with
    | dir => cases h
    | file c =>
      by_cases hb : fs.get b = some .dir
      · simp [hb] at h
      · simp only [hb, if_false, Except.ok.injEq] at h; exact ⟨_, rfl, by simp, hb, h.symm⟩
    | link c =>
      by_cases hb : fs.get b = some .dir
      · simp [hb] at h
      · simp only [hb, if_false, Except.ok.injEq] at h; exact ⟨_, rfl, by simp, hb, h.symm⟩

/-- The node at `k` stays. -/
def Tr.Keeps (x : Tr FS) (s : FS) (k : Str) : Prop :=
  x.Sat (fun t => t.get k = s.get k) (fun t => t.get k = s.get k)

theorem unlink_keeps (s : FS) (p k : Str) (h : k ≠ p) : (Tr.atomic (unlink s p)).Keeps s k := by
  refine Tr.sat_atomic fun t ht => ?_
  obtain ⟨rfl, _⟩ := unlink_ok ht
  have : (s.del p).get k = s.get k := by rw [Dict.get_del, if_neg (Ne.symm h)]
  exact ⟨this, this⟩

theorem rename_keeps (s : FS) (a b k : Str) (ha : k ≠ a) (hb : k ≠ b) :
    (Tr.atomic (rename s a b)).Keeps s k := by
  refine Tr.sat_atomic fun t ht => ?_
  obtain ⟨n, _, _, _, rfl⟩ := rename_ok ht
  have : ((s.del a).put b n).get k = s.get k := by
    rw [Dict.get_put, if_neg (Ne.symm hb), Dict.get_del, if_neg (Ne.symm ha)]
  exact ⟨this, this⟩

theorem Tr.Keeps.bind {x : Tr FS} {f : FS → Tr FS} {s : FS} {k : Str} (hx : x.Keeps s k)
    (hf : ∀ t, t.get k = s.get k → (f t).Keeps t k) : (x.bind f).Keeps s k :=
  Tr.Sat.bind hx fun t ht => Tr.Sat.mono (hf t ht) (fun _ h => h.trans ht) (fun _ h => h.trans ht)

theorem keeps_pure (s : FS) (k : Str) : Tr.Keeps ([], .ok s) s k := Tr.sat_pure rfl
theorem keeps_fail (s : FS) (k : Str) (e : FErr) : Tr.Keeps ([], .error e) s k := Tr.sat_fail

theorem keeps_ite {b : Bool} {x y : Tr FS} {s : FS} {k : Str} (hx : b = true → x.Keeps s k) (hy : b = false → y.Keeps s k) :
    (if b = true then x else y).Keeps s k := by
  cases b with
  | true => exact hx rfl
  | false => exact hy rfl

theorem put_keeps (s : FS) (p k : Str) (n : Node) (h : k ≠ p) : (Tr.atomic (.ok (s.put p n))).Keeps s k := by
  refine Tr.sat_atomic fun t ht => ?_
  simp only [Except.ok.injEq] at ht
  subst ht
  have : (s.put p n).get k = s.get k := by rw [Dict.get_put, if_neg (Ne.symm h)]
  exact ⟨this, this⟩

theorem mkdirs_keeps (ds : List Str) : ∀ (s : FS) (k : Str), s.get k ≠ none → (mkdirs s ds).Keeps s k := by
  induction ds with
  | nil => intro s k _; exact keeps_pure s k
  | cons d ds ih =>
    intro s k hk
    unfold mkdirs
    cases hs : stat s d with
    | some n => cases n with
      | dir => exact ih s k hk
      | file _ => exact keeps_fail _ _ _
      | link _ => exact keeps_fail _ _ _
    | none =>
      cases hg : s.get d with
      | some n => exact keeps_fail _ _ _
      | none =>
        refine Tr.Keeps.bind (put_keeps s d k .dir ?_) fun t ht => ih t k (by rw [ht]; exact hk)
        rintro rfl; exact hk hg

theorem makedirs_keeps (s : FS) (d k : Str) (hk : s.get k ≠ none) : (makedirs s d).Keeps s k := by
  unfold makedirs
  exact keeps_ite (fun _ => keeps_fail _ _ _) (fun _ => mkdirs_keeps _ _ _ hk)

theorem checkDir_keeps (s : FS) (d k : Str) (hk : s.get k ≠ none) : (checkDir s d).Keeps s k := by
  unfold checkDir
  exact keeps_ite (fun _ => keeps_pure _ _) (fun _ => makedirs_keeps _ _ _ hk)

theorem clearWay_keeps (s : FS) (p k : Str) (h : k ≠ p) : (clearWay s p).Keeps s k := by
  unfold clearWay
  exact keeps_ite (fun _ => unlink_keeps _ _ _ h) (fun _ => keeps_pure _ _)

theorem writeFile_keeps (s : FS) (p c k : Str) (h : k ≠ p) : (writeFile s p c).Keeps s k := by
  have g : ∀ n : Node, (s.put p n).get k = s.get k := fun n => by rw [Dict.get_put, if_neg (Ne.symm h)]
  have go : Tr.Keeps ((List.range (c.length + 1)).map (fun k => s.put p (.file (c.take k))), .ok (s.put p (.file c))) s k := by
    refine ⟨fun t ht => ?_, fun t ht => ?_⟩
    · obtain ⟨j, _, rfl⟩ := List.mem_map.mp ht; exact g _
    · simp only [Except.ok.injEq] at ht; subst ht; exact g _
  unfold writeFile
  refine keeps_ite (fun _ => ?_) (fun _ => keeps_fail _ _ _)
  cases s.get p with
  | none => exact go
  | some n => cases n with
    | file _ => exact go
    | link _ => exact keeps_fail _ _ _
    | dir => exact keeps_fail _ _ _

theorem writeFile_at (s : FS) (p c : Str) : (writeFile s p c).Sat (fun _ => True) (fun t => t.get p = some (.file c)) := by
  have go : Tr.Sat ((List.range (c.length + 1)).map (fun k => s.put p (.file (c.take k))), .ok (s.put p (.file c)))
      (fun _ => True) (fun t : FS => t.get p = some (.file c)) := by
    refine ⟨fun _ _ => trivial, fun t ht => ?_⟩
    simp only [Except.ok.injEq] at ht; subst ht; rw [Dict.get_put, if_pos rfl]
  unfold writeFile
  split
  · cases s.get p with
    | none => exact go
    | some n => cases n with
      | file _ => exact go
      | link _ => exact Tr.sat_fail
      | dir => exact Tr.sat_fail
  · exact Tr.sat_fail

theorem get_rmtree (s : FS) (d k : Str) : (rmtree s d).get k = if k = d ∨ Below d k then none else s.get k := by
  induction s with
  | nil => simp [rmtree]
  | cons e s ih =>
    obtain ⟨a, v⟩ := e
    simp only [rmtree, List.filter_cons, decide_not] at ih ⊢
    by_cases ha : a = d ∨ Below d a
    · simp only [ha, decide_true, Bool.not_true, Bool.false_eq_true, if_false]
      rw [ih]
      by_cases hk : k = d ∨ Below d k
      · simp [hk]
      · rw [if_neg hk, if_neg hk]
        have : a ≠ k := by rintro rfl; exact hk ha
        simp [Dict.get, this]
    · simp only [ha, decide_false, Bool.not_false, if_true, Dict.get]
      by_cases e : a = k
      · subst e; simp [ha]
      · simp only [e, if_false]; exact ih

/-- An archive member may touch what is at or (a link) below its path. -/
def Entry.Spares (e : Entry) (k : Str) : Prop := e.path ≠ k ∧ ∀ p t, e = .link p t → ¬ Below p k

theorem extractEntry_keeps (e : Entry) (s : FS) (k : Str) (hk : s.get k ≠ none) (h : e.Spares k) :
    (extractEntry s e).Keeps s k := by
  obtain ⟨h1, h2⟩ := h
  cases e with
  | dir p =>
    unfold extractEntry
    exact keeps_ite (fun _ => keeps_pure _ _) (fun _ => makedirs_keeps _ _ _ hk)
  | file p c =>
    unfold extractEntry
    refine Tr.Keeps.bind (checkDir_keeps _ _ _ hk) fun s1 _ => ?_
    refine Tr.Keeps.bind (clearWay_keeps _ _ _ (Ne.symm h1)) fun s2 _ => ?_
    exact writeFile_keeps _ _ _ _ (Ne.symm h1)
  | link p t =>
    unfold extractEntry
    refine Tr.Keeps.bind (checkDir_keeps _ _ _ hk) fun s1 _ => ?_
    refine Tr.Keeps.bind (clearWay_keeps _ _ _ (Ne.symm h1)) fun s2 _ => ?_
    refine Tr.Keeps.bind ?_ fun s3 _ => ?_
    · refine keeps_ite (fun _ => ?_) (fun _ => keeps_pure _ _)
      refine Tr.sat_atomic fun t' ht => ?_
      simp only [Except.ok.injEq] at ht
      subst ht
      have : (rmtree s2 p).get k = s2.get k := by
        rw [get_rmtree, if_neg]
        rintro (rfl | hb)
        · exact h1 rfl
        · exact h2 p t rfl hb
      exact ⟨this, this⟩
    · exact keeps_ite (fun _ => put_keeps _ _ _ _ (Ne.symm h1)) (fun _ => keeps_fail _ _ _)

theorem extractAll_keeps (es : List Entry) : ∀ (s : FS) (k : Str), s.get k ≠ none → (∀ e ∈ es, e.Spares k) →
    (extractAll s es).Keeps s k := by
  induction es with
  | nil => intro s k _ _; exact keeps_pure s k
  | cons e es ih =>
    intro s k hk h
    unfold extractAll
    refine Tr.Keeps.bind (extractEntry_keeps e s k hk (h e (by simp))) fun t ht => ?_
    exact ih t k (by rw [ht]; exact hk) fun e' he' => h e' (by simp [he'])

theorem extractEntry_file_at (s : FS) (p c : Str) :
    (extractEntry s (.file p c)).Sat (fun _ => True) (fun t => t.get p = some (.file c)) := by
  unfold extractEntry
  refine Tr.Sat.bind (Q := fun _ => True) ⟨fun _ _ => trivial, fun _ _ => trivial⟩ fun s1 _ => ?_
  refine Tr.Sat.bind (Q := fun _ => True) ⟨fun _ _ => trivial, fun _ _ => trivial⟩ fun s2 _ => ?_
  exact writeFile_at _ _ _

/-- The packaged file is there after the extraction. -/
theorem extractAll_file_at (es : List Entry) (p c : Str) : ∀ (s : FS), Entry.file p c ∈ es → (es.map Entry.path).Nodup →
    (∀ e ∈ es, ∀ q t, e = .link q t → ¬ Below q p) →
    (extractAll s es).Sat (fun _ => True) (fun t => t.get p = some (.file c)) := by
  induction es with
  | nil => intro s h; simp at h
  | cons e es ih =>
    intro s h hnd hl
    rw [List.map_cons, List.nodup_cons] at hnd
    unfold extractAll
    rcases List.mem_cons.mp h with rfl | h
    · refine Tr.Sat.bind (extractEntry_file_at s p c) fun t ht => ?_
      have := extractAll_keeps es t p (by rw [ht]; simp) fun e' he' =>
        ⟨fun e => hnd.1 (List.mem_map.mpr ⟨e', he', e⟩),
          hl e' (by simp [he'])⟩
      exact Tr.Sat.mono this (fun _ _ => trivial) (fun t' h' => h'.trans ht)
    · refine Tr.Sat.bind (Q := fun _ => True) ⟨fun _ _ => trivial, fun _ _ => trivial⟩ fun t _ => ?_
      exact ih t h hnd.2 fun e' he' => hl e' (by simp [he'])

/-! ## Backups -/

theorem dotOld_ne (p : Str) : dotOld p ≠ p := by
  intro h; have := congrArg List.length h; simp [dotOld] at this
theorem dotNew_ne (p : Str) : dotNew p ≠ p := by
  intro h; have := congrArg List.length h; simp [dotNew] at this
theorem dotOld_inj {p q : Str} (h : dotOld p = dotOld q) : p = q := List.append_cancel_right h
theorem dotNew_inj {p q : Str} (h : dotNew p = dotNew q) : p = q := List.append_cancel_right h
theorem dotOld_ne_dotNew (p q : Str) : dotOld p ≠ dotNew q := by
  intro h
  have := congrArg List.getLast? h
  simp [dotOld, dotNew] at this

theorem backup_keeps (s : FS) (p k : Str) (h1 : k ≠ p) (h2 : k ≠ dotOld p) : (backup s p).Keeps s k := by
  unfold backup
  refine Tr.Keeps.bind (keeps_ite (fun _ => unlink_keeps _ _ _ h2) (fun _ => keeps_pure _ _)) fun t _ => ?_
  exact rename_keeps _ _ _ _ h1 h2

/-- The content is at the path or at the backup path. -/
def Safe (p : Str) (n : Node) (s : FS) : Prop := s.get p = some n ∨ s.get (dotOld p) = some n

theorem rename_at (s : FS) (a b : Str) (n : Node) (h : s.get a = some n) :
    (Tr.atomic (rename s a b)).Sat (fun t => t.get b = some n) (fun t => t.get b = some n) := by
  refine Tr.sat_atomic fun t ht => ?_
  obtain ⟨m, hm, _, _, rfl⟩ := rename_ok ht
  rw [h] at hm; cases hm
  have : ((s.del a).put b n).get b = some n := by rw [Dict.get_put, if_pos rfl]
  exact ⟨this, this⟩

theorem backup_at (s : FS) (p : Str) (n : Node) (h : s.get p = some n) :
    (backup s p).Sat (Safe p n) (fun t => t.get (dotOld p) = some n) := by
  unfold backup
  refine Tr.Sat.bind (Q := fun t => t.get p = some n) ?_ fun t ht => ?_
  · have : Tr.Keeps (if existsP s (dotOld p) = true then Tr.atomic (unlink s (dotOld p)) else ([], .ok s)) s p :=
      keeps_ite (fun _ => unlink_keeps _ _ _ (Ne.symm (dotOld_ne p))) (fun _ => keeps_pure _ _)
    exact Tr.Sat.mono this (fun t ht => .inl (ht.trans h)) (fun t ht => ht.trans h)
  · exact Tr.Sat.mono (rename_at t p (dotOld p) n ht) (fun _ h => .inr h) (fun _ h => h)

/-- The backup loops as one loop over (recorded hash, path). -/
def backupList (sha : Str → Str) : List (Option Str × Str) → FS × List Str → Tr (FS × List Str)
  | [], st => ([], .ok st)
  | (h, p) :: ps, st => Tr.bind (backupIf sha h p st) fun st => backupList sha ps st

theorem existsP_false_sha {sha : Str → Str} {s : FS} {p : Str} (h : existsP s p = false) : sha1File sha s p = none := by
  unfold existsP at h
  unfold sha1File
  cases hs : stat s p with
  | none => rfl
  | some n => rw [hs] at h; simp at h

theorem backupIf_skip {sha : Str → Str} {h : Option Str} {p : Str} {st : FS × List Str} (hs : sha1File sha st.1 p = none) :
    backupIf sha h p st = ([], .ok st) := by
  unfold backupIf; rw [hs]

theorem bind_pure_left (b : β) (f : β → Tr γ) : Tr.bind (([], .ok b) : Tr β) f = f b := by
  simp [Tr.bind]

theorem backupNew_eq (sha : Str → Str) (dest : Str) (fs : List FileInfo) (st : FS × List Str) :
    backupNew sha dest fs st = backupList sha ((fs.filter FileInfo.conf).map (fun f => (f.hash, joinPath dest [f.path]))) st := by
  induction fs generalizing st with
  | nil => rfl
  | cons f fs ih =>
    unfold backupNew
    by_cases hc : f.conf = true
    · rw [List.filter_cons_of_pos hc, List.map_cons]
      unfold backupList
      by_cases he : existsP st.1 (joinPath dest [f.path]) = true
      · simp only [hc, he, Bool.and_true, if_true]
        congr 1; funext st; exact ih st
      · rw [Bool.not_eq_true] at he
        rw [backupIf_skip (existsP_false_sha he), bind_pure_left]
        simp only [hc, he, Bool.and_false, Bool.false_eq_true, if_false]
        exact ih st
    · rw [List.filter_cons_of_neg hc]
      simp only [hc, Bool.false_and, Bool.false_eq_true, if_false]
      exact ih st

theorem backupUpg_eq (sha : Str → Str) (dest : Str) (l : List (FileInfo × FileInfo)) (st : FS × List Str)
    (h : ∀ x ∈ l, x.1.path = x.2.path) :
    backupUpg sha dest l st =
      backupList sha ((l.filter (fun x => x.1.conf && x.2.conf)).map (fun x => (x.2.hash, joinPath dest [x.2.path]))) st := by
  induction l generalizing st with
  | nil => rfl
  | cons x l ih =>
    obtain ⟨n, o⟩ := x
    have hp : n.path = o.path := h (n, o) (by simp)
    have ih := fun st => ih st (fun x hx => h x (by simp [hx]))
    unfold backupUpg
    rw [if_neg (by simpa using hp)]
    by_cases hc : (n.conf && o.conf) = true
    · rw [if_pos hc, List.filter_cons_of_pos (by exact hc), List.map_cons]
      unfold backupList
      congr 1; funext st; exact ih st
    · rw [if_neg hc, List.filter_cons_of_neg (by exact hc)]
      exact ih st

theorem backupIf_keeps (sha : Str → Str) (h : Option Str) (p k : Str) (st : FS × List Str) (h1 : k ≠ p) (h2 : k ≠ dotOld p) :
    (backupIf sha h p st).Sat (fun t => t.get k = st.1.get k)
      (fun st' => st'.1.get k = st.1.get k ∧ (st'.2 = st.2 ∨ st'.2 = st.2 ++ [p])) := by
  unfold backupIf
  cases sha1File sha st.1 p with
  | none => exact Tr.sat_pure ⟨rfl, .inl rfl⟩
  | some x =>
    show Tr.Sat (if some x ≠ h then _ else _) _ _
    split
    · refine Tr.Sat.bind (backup_keeps st.1 p k h1 h2) fun t ht => ?_
      exact Tr.sat_pure ⟨ht, .inr rfl⟩
    · exact Tr.sat_pure ⟨rfl, .inl rfl⟩

theorem backupList_keeps (sha : Str → Str) (ps : List (Option Str × Str)) (k : Str) : ∀ (st : FS × List Str),
    (∀ q ∈ ps, k ≠ q.2 ∧ k ≠ dotOld q.2) →
    (backupList sha ps st).Sat (fun t => t.get k = st.1.get k)
      (fun st' => st'.1.get k = st.1.get k ∧ ∃ l, st'.2 = st.2 ++ l ∧ l.Sublist (ps.map Prod.snd)) := by
  induction ps with
  | nil => intro st _; exact Tr.sat_pure ⟨rfl, [], by simp, by simp⟩
  | cons x ps ih =>
    obtain ⟨h, p⟩ := x
    intro st hk
    unfold backupList
    refine Tr.Sat.bind (backupIf_keeps sha h p k st (hk (h, p) (by simp)).1 (hk (h, p) (by simp)).2) fun st' ⟨e, hl⟩ => ?_
    refine Tr.Sat.mono (ih st' fun q hq => hk q (by simp [hq])) (fun t ht => ht.trans e) (fun st'' ⟨e', l, hl', hs⟩ => ?_)
    refine ⟨e'.trans e, ?_⟩
    rcases hl with hl | hl
    · exact ⟨l, by rw [hl', hl], hs.trans (by simp)⟩
    · exact ⟨p :: l, by rw [hl', hl]; simp, by simpa using hs⟩

/-- Conditions under which backup names do not clash among the paths. -/
def Apart (ps : List Str) : Prop := ps.Nodup ∧ ∀ p ∈ ps, ∀ q ∈ ps, p ≠ dotOld q ∧ p ≠ dotNew q

theorem Apart.tail {p : Str} {ps : List Str} (h : Apart (p :: ps)) : Apart ps :=
  ⟨(List.nodup_cons.mp h.1).2, fun a ha b hb => h.2 a (by simp [ha]) b (by simp [hb])⟩

theorem Apart.sublist {ps qs : List Str} (h : Apart ps) (hs : qs.Sublist ps) : Apart qs :=
  ⟨h.1.sublist hs, fun a ha b hb => h.2 a (hs.subset ha) b (hs.subset hb)⟩

theorem sha1File_file {sha : Str → Str} {s : FS} {p c : Str} (h : s.get p = some (.file c)) :
    sha1File sha s p = some (sha c) := by
  simp [sha1File, stat, statN, h]

theorem sha1File_none {sha : Str → Str} {s : FS} {p : Str} (h : s.get p = none) : sha1File sha s p = none := by
  simp [sha1File, stat, statN, h]

/-- A changed file is moved to its backup and listed. -/
theorem backupList_changed (sha : Str → Str) (p c : Str) (h : Option Str) (hc : some (sha c) ≠ h) :
    ∀ (ps : List (Option Str × Str)) (st : FS × List Str), Apart (ps.map Prod.snd) → (h, p) ∈ ps →
    st.1.get p = some (.file c) →
    (backupList sha ps st).Sat (Safe p (.file c))
      (fun st' => st'.1.get (dotOld p) = some (.file c) ∧ ∃ l, st'.2 = st.2 ++ l ∧ l.Sublist (ps.map Prod.snd) ∧ p ∈ l) := by
  intro ps
  induction ps with
  | nil => intro st _ hm; simp at hm
  | cons x ps ih =>
    obtain ⟨h', q⟩ := x
    intro st ha hm hg
    unfold backupList
    rcases List.mem_cons.mp hm with e | hm
    · cases e
      refine Tr.Sat.bind (Q := fun st' => st'.1.get (dotOld p) = some (.file c) ∧ st'.2 = st.2 ++ [p]) ?_ fun st' ⟨e1, e2⟩ => ?_
      · unfold backupIf
        rw [sha1File_file hg]
        show Tr.Sat (if some (sha c) ≠ h then _ else _) _ _
        rw [if_pos hc]
        refine Tr.Sat.bind (backup_at st.1 p (.file c) hg) fun t ht => ?_
        exact Tr.sat_pure ⟨ht, rfl⟩
      · refine Tr.Sat.mono (backupList_keeps sha ps (dotOld p) st' fun q hq => ?_) (fun t ht => .inr (ht.trans e1))
          fun st'' ⟨e', l, hl, hs⟩ => ⟨e'.trans e1, p :: l, by rw [hl, e2]; simp, by simpa using hs, by simp⟩
        have hq2 : q.2 ∈ ps.map Prod.snd := List.mem_map_of_mem hq
        refine ⟨fun e => (ha.2 q.2 (by simp [hq2]) p (by simp)).1 e.symm, fun e => ?_⟩
        rw [List.map_cons] at ha
        exact (List.nodup_cons.mp ha.1).1 (by rw [show p = q.2 from dotOld_inj e]; exact hq2)
    · have hp : p ∈ ps.map Prod.snd := List.mem_map.mpr ⟨_, hm, rfl⟩
      have hpq : p ≠ q := by
        rintro rfl
        rw [List.map_cons] at ha
        exact (List.nodup_cons.mp ha.1).1 hp
      refine Tr.Sat.bind (Tr.Sat.mono (backupIf_keeps sha h' q p st hpq (ha.2 p (by simp [hp]) q (by simp)).1)
        (fun t ht => .inl (ht.trans hg)) (fun _ h => h)) fun st' ⟨e, hl⟩ => ?_
      refine Tr.Sat.mono (ih st' ha.tail hm (e.trans hg)) (fun _ h => h) fun st'' ⟨e1, l, hl', hs, hpl⟩ => ⟨e1, ?_⟩
      rcases hl with hl | hl
      · exact ⟨l, by rw [hl', hl], hs.trans (by simp), hpl⟩
      · exact ⟨q :: l, by rw [hl', hl]; simp, by simpa using hs, by simp [hpl]⟩

/-- An unchanged or absent file is not listed. -/
theorem backupList_unchanged (sha : Str → Str) (p : Str) :
    ∀ (ps : List (Option Str × Str)) (st : FS × List Str), Apart (ps.map Prod.snd) →
    (∀ h, (h, p) ∈ ps → st.1.get p = none ∨ ∃ c, st.1.get p = some (.file c) ∧ some (sha c) = h) → p ∉ st.2 →
    (backupList sha ps st).Sat (fun _ => True)
      (fun st' => p ∉ st'.2 ∧ ∃ l, st'.2 = st.2 ++ l ∧ l.Sublist (ps.map Prod.snd)) := by
  intro ps
  induction ps with
  | nil => intro st _ _ hp; exact Tr.sat_pure ⟨hp, [], by simp, by simp⟩
  | cons x ps ih =>
    obtain ⟨h', q⟩ := x
    intro st ha hm hp
    unfold backupList
    by_cases hq : q = p
    · subst hq
      have e : backupIf sha h' q st = ([], .ok st) := by
        rcases hm h' (by simp) with h0 | ⟨c, h0, h1⟩
        · exact backupIf_skip (sha1File_none h0)
        · unfold backupIf; rw [sha1File_file h0]
          show (if some (sha c) ≠ h' then _ else _) = _
          rw [if_neg (by simpa using h1)]
      rw [e, bind_pure_left]
      refine Tr.Sat.mono (ih st ha.tail (fun h hh => hm h (by simp [hh])) hp) (fun _ _ => trivial)
        fun st' ⟨h1, l, hl, hs⟩ => ⟨h1, l, hl, hs.trans (by simp)⟩
    · by_cases hmem : p ∈ ps.map Prod.snd
      · refine Tr.Sat.bind (Tr.Sat.mono (backupIf_keeps sha h' q p st (Ne.symm hq) (ha.2 p (by simp [hmem]) q (by simp)).1)
          (fun t ht => trivial) (fun _ h => h)) fun st' ⟨e, hl⟩ => ?_
        have hp' : p ∉ st'.2 := by
          rcases hl with hl | hl
          · rw [hl]; exact hp
          · rw [hl]; simp [hp, Ne.symm hq]
        refine Tr.Sat.mono (ih st' ha.tail (fun h hh => by rw [e]; exact hm h (by simp [hh])) hp') (fun _ _ => trivial)
          fun st'' ⟨h1, l, hl', hs⟩ => ⟨h1, ?_⟩
        rcases hl with hl | hl
        · exact ⟨l, by rw [hl', hl], hs.trans (by simp)⟩
        · exact ⟨q :: l, by rw [hl', hl]; simp, by simpa using hs⟩
      · have key : ∀ (ps : List (Option Str × Str)) (st : FS × List Str), p ∉ ps.map Prod.snd → p ∉ st.2 →
            (backupList sha ps st).Sat (fun _ => True)
              (fun st' => p ∉ st'.2 ∧ ∃ l, st'.2 = st.2 ++ l ∧ l.Sublist (ps.map Prod.snd)) := by
          intro ps
          induction ps with
          | nil => intro st _ hp; exact Tr.sat_pure ⟨hp, [], by simp, by simp⟩
          | cons x ps ih =>
            obtain ⟨h', q⟩ := x
            intro st hn hp
            unfold backupList
            have hn' : p ≠ q ∧ p ∉ ps.map Prod.snd := by simpa using hn
            refine Tr.Sat.bind (Q := fun st' => st'.2 = st.2 ∨ st'.2 = st.2 ++ [q]) ?_ fun st' hl => ?_
            · unfold backupIf
              cases sha1File sha st.1 q with
              | none => exact Tr.sat_pure (.inl rfl)
              | some x =>
                show Tr.Sat (if some x ≠ h' then _ else _) _ _
                split
                · refine Tr.Sat.bind (Q := fun _ => True) ⟨fun _ _ => trivial, fun _ _ => trivial⟩ fun t _ => ?_
                  exact Tr.sat_pure (.inr rfl)
                · exact Tr.sat_pure (.inl rfl)
            · have hp' : p ∉ st'.2 := by
                rcases hl with hl | hl
                · rw [hl]; exact hp
                · rw [hl]; simp [hp, hn'.1]
              refine Tr.Sat.mono (ih st' hn'.2 hp') (fun _ _ => trivial) fun st'' ⟨h1, l, hl', hs⟩ => ⟨h1, ?_⟩
              rcases hl with hl | hl
              · exact ⟨l, by rw [hl', hl], hs.trans (by simp)⟩
              · exact ⟨q :: l, by rw [hl', hl]; simp, by simpa using hs⟩
        exact key ((h', q) :: ps) st (by simp [hmem, Ne.symm hq]) hp

/-! ## Putting the user's files back -/

theorem restore_keeps (ps : List Str) (k : Str) : ∀ s : FS, (∀ q ∈ ps, k ≠ q ∧ k ≠ dotOld q ∧ k ≠ dotNew q) →
    (restore s ps).Keeps s k := by
  induction ps with
  | nil => intro s _; exact keeps_pure s k
  | cons p ps ih =>
    intro s h
    obtain ⟨h1, h2, h3⟩ := h p (by simp)
    unfold restore
    refine Tr.Keeps.bind (keeps_ite (fun _ => unlink_keeps _ _ _ h3) (fun _ => keeps_pure _ _)) fun t _ => ?_
    refine Tr.Keeps.bind (rename_keeps _ _ _ _ h1 h3) fun t _ => ?_
    refine Tr.Keeps.bind (rename_keeps _ _ _ _ h2 h1) fun t _ => ?_
    exact ih t fun q hq => h q (by simp [hq])

/-- The user's content ends up at its path. -/
theorem restore_safe (p : Str) (n : Node) : ∀ (ps : List Str) (s : FS), Apart ps → p ∈ ps → s.get (dotOld p) = some n →
    (restore s ps).Sat (Safe p n) (fun t => t.get p = some n) := by
  intro ps
  induction ps with
  | nil => intro s _ h; simp at h
  | cons q ps ih =>
    intro s ha hm hg
    unfold restore
    by_cases hq : q = p
    · subst hq
      have hdn : dotOld q ≠ dotNew q := dotOld_ne_dotNew q q
      have k1 : Tr.Keeps (if existsP s (dotNew q) = true then Tr.atomic (unlink s (dotNew q)) else ([], .ok s)) s (dotOld q) :=
        keeps_ite (fun _ => unlink_keeps _ _ _ hdn) (fun _ => keeps_pure _ _)
      refine Tr.Sat.bind (Tr.Sat.mono k1 (fun t ht => .inr (ht.trans hg)) fun t ht => ht.trans hg) fun t ht => ?_
      refine Tr.Sat.bind (Tr.Sat.mono (rename_keeps t q (dotNew q) (dotOld q) (dotOld_ne q) hdn)
        (fun t' ht' => .inr (ht'.trans ht)) fun t' ht' => ht'.trans ht) fun t ht => ?_
      refine Tr.Sat.bind (Tr.Sat.mono (rename_at t (dotOld q) q n ht) (fun t' ht' => .inl ht') fun _ h => h) fun t ht => ?_
      refine Tr.Sat.mono (restore_keeps ps q t fun r hr => ?_) (fun t' ht' => .inl (ht'.trans ht)) fun t' ht' => ht'.trans ht
      refine ⟨?_, (ha.2 q (by simp) r (by simp [hr])).1, (ha.2 q (by simp) r (by simp [hr])).2⟩
      rintro rfl; exact (List.nodup_cons.mp ha.1).1 hr
    · have hm : p ∈ ps := by
        rcases List.mem_cons.mp hm with e | h
        · exact absurd e.symm hq
        · exact h
      have g : ∀ x : Tr FS, ∀ t : FS, t.get (dotOld p) = some n → x.Keeps t (dotOld p) →
          x.Sat (Safe p n) (fun t => t.get (dotOld p) = some n) := fun x t ht hx =>
        Tr.Sat.mono hx (fun t' h' => .inr (h'.trans ht)) fun t' h' => h'.trans ht
      have e1 : dotOld p ≠ q := fun e => (ha.2 q (by simp) p (by simp [hm])).1 e.symm
      have e2 : dotOld p ≠ dotOld q := fun e => hq (dotOld_inj e).symm
      have e3 : dotOld p ≠ dotNew q := dotOld_ne_dotNew p q
      refine Tr.Sat.bind (g _ s hg (keeps_ite (fun _ => unlink_keeps _ _ _ e3) (fun _ => keeps_pure _ _))) fun t ht => ?_
      refine Tr.Sat.bind (g _ t ht (rename_keeps _ _ _ _ e1 e3)) fun t ht => ?_
      refine Tr.Sat.bind (g _ t ht (rename_keeps _ _ _ _ e2 e1)) fun t ht => ?_
      exact ih t ha.tail hm ht

/-- The packaged version ends up at the `.newconfig` path. -/
theorem restore_new (p : Str) (n : Node) : ∀ (ps : List Str) (s : FS), Apart ps → p ∈ ps → s.get p = some n →
    (restore s ps).Sat (fun _ => True) (fun t => t.get (dotNew p) = some n) := by
  intro ps
  induction ps with
  | nil => intro s _ h; simp at h
  | cons q ps ih =>
    intro s ha hm hg
    unfold restore
    by_cases hq : q = p
    · subst hq
      have k1 : Tr.Keeps (if existsP s (dotNew q) = true then Tr.atomic (unlink s (dotNew q)) else ([], .ok s)) s q :=
        keeps_ite (fun _ => unlink_keeps _ _ _ (Ne.symm (dotNew_ne q))) (fun _ => keeps_pure _ _)
      refine Tr.Sat.bind (Tr.Sat.mono k1 (fun _ _ => trivial) fun t ht => ht.trans hg) fun t ht => ?_
      refine Tr.Sat.bind (Tr.Sat.mono (rename_at t q (dotNew q) n ht) (fun _ _ => trivial) fun _ h => h) fun t ht => ?_
      refine Tr.Sat.bind (Tr.Sat.mono (rename_keeps t (dotOld q) q (dotNew q) (Ne.symm (dotOld_ne_dotNew q q)) (dotNew_ne q))
        (fun _ _ => trivial) fun _ h => h.trans ht) fun t ht => ?_
      refine Tr.Sat.mono (restore_keeps ps (dotNew q) t fun r hr => ?_) (fun _ _ => trivial) fun t' ht' => ht'.trans ht
      refine ⟨fun e => (ha.2 r (by simp [hr]) q (by simp)).2 e.symm, Ne.symm (dotOld_ne_dotNew r q), fun e => ?_⟩
      have := dotNew_inj e
      subst this
      exact (List.nodup_cons.mp ha.1).1 hr
    · have hm : p ∈ ps := by
        rcases List.mem_cons.mp hm with e | h
        · exact absurd e.symm hq
        · exact h
      have g : ∀ x : Tr FS, ∀ t : FS, t.get p = some n → x.Keeps t p →
          x.Sat (fun _ => True) (fun t => t.get p = some n) := fun x t ht hx =>
        Tr.Sat.mono hx (fun t' h' => trivial) fun t' h' => h'.trans ht
      have e1 : p ≠ q := Ne.symm hq
      have e2 : p ≠ dotOld q := (ha.2 p (by simp [hm]) q (by simp)).1
      have e3 : p ≠ dotNew q := (ha.2 p (by simp [hm]) q (by simp)).2
      refine Tr.Sat.bind (g _ s hg (keeps_ite (fun _ => unlink_keeps _ _ _ e3) (fun _ => keeps_pure _ _))) fun t ht => ?_
      refine Tr.Sat.bind (g _ t ht (rename_keeps _ _ _ _ e1 e3)) fun t ht => ?_
      refine Tr.Sat.bind (g _ t ht (rename_keeps _ _ _ _ e2 e1)) fun t ht => ?_
      exact ih t ha.tail hm ht

end Pisi.FS
