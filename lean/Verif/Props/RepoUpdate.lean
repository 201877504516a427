import Verif.Lemmas.RepoUpdate
import Verif.Lemmas.ListAux

/-!
# Theorems about updating a repository
-/
namespace Pisi.Repo
variable {α : Type}

/-- What has been read when `update_repo` goes on. -/
theorem reading_some {T : Tools α} {net : Net} {F uri : Str} {force : Bool} {s : St α} {ix : α} (h : (reading T net F uri force s).2 = .ok (some ix)) :
    ∃ c, net.idx = some c ∧ IsIndex T F c ix ∧ (fin (reading T net F uri force) s).disk.get F = some c ∧
      (force = false → AnnouncesHash net (T.sha c)) := by
  rcases catch_cases (M.bind (readUri T net F uri false) fun ix => M.ret (some ix))
      (if force then M.bind (readUri T net F uri true) fun ix => M.ret (some ix) else M.ret none) s .alreadyHave with ⟨_, e2⟩ | ⟨_, e2, e3⟩
  · rw [reading, e2] at h
    obtain ⟨j, h1, h2, h3⟩ := bind_ok h
    simp only [M.ret, Except.ok.injEq, Option.some.injEq] at h2
    subst h2
    obtain ⟨c, g1, g2, g3, g4⟩ := readUri_ok h1
    refine ⟨c, g1, g2, ?_, fun _ => g4 rfl⟩
    rw [fin, reading, e2, ← fin, h3, fin_ret]
    exact g3
  · rw [reading, e2] at h
    rw [reading, e3]
    cases force with
    | false => cases h
    | true =>
      simp only [if_true] at h ⊢
      obtain ⟨j, h1, h2, h3⟩ := bind_ok h
      simp only [M.ret, Except.ok.injEq, Option.some.injEq] at h2
      subst h2
      obtain ⟨c, g1, g2, g3, _⟩ := readUri_ok h1
      refine ⟨c, g1, g2, ?_, by simp⟩
      rw [h3, fin_ret]
      exact g3

/-- When the index is there already. -/
theorem reading_none {T : Tools α} {net : Net} {F uri : Str} {force : Bool} {s : St α} (hF : F ≠ uriFile) (h : (reading T net F uri force s).2 = .ok none) :
    force = false ∧ (fin (reading T net F uri force) s).disk.get F = s.disk.get F ∧ ∃ c, s.disk.get F = some c ∧ AnnouncesHash net (T.sha c) := by
  rcases catch_cases (M.bind (readUri T net F uri false) fun ix => M.ret (some ix))
      (if force then M.bind (readUri T net F uri true) fun ix => M.ret (some ix) else M.ret none) s .alreadyHave with ⟨_, e2⟩ | ⟨e1, e2, e3⟩
  · rw [reading, e2] at h
    obtain ⟨j, h1, h2, h3⟩ := bind_ok h
    cases h2
  · rw [reading, e2] at h
    rw [reading, e3]
    cases force with
    | true =>
      simp only [if_true] at h
      obtain ⟨j, h1, h2, h3⟩ := bind_ok h
      cases h2
    | false =>
      rcases bind_error e1 with ⟨k1, k2⟩ | ⟨_, _, k2, _⟩
      · obtain ⟨_, r2, r3⟩ := (readUri_error k1 hF).2 rfl
        refine ⟨rfl, ?_, r3⟩
        simp only [Bool.false_eq_true, if_false, fin_ret]
        rw [k2, r2]
      · cases k2

theorem updateRepo_eq (T : Tools α) (net : Net) (F uri : Str) (force : Bool) : updateRepo T net F uri force =
    M.bind (reading T net F uri force) fun r => match r with
      | none => M.ret .noUpdates
      | some ix => enter T net F ix := rfl

/-- Every change of the database by `update_repo`, wherever it is killed. -/
theorem update_states {T : Tools α} {net : Net} {F uri : Str} {force : Bool} {s t : St α} (h : t ∈ (updateRepo T net F uri force s).1) :
    t.db = s.db ∨ ∃ c ix, net.idx = some c ∧ IsIndex T F c ix ∧ NotForged T net c ∧ (force = false → AnnouncesHash net (T.sha c)) ∧ t.db = some ix := by
  rw [updateRepo_eq] at h
  rcases bind_mem h with h | ⟨r, h1, h⟩
  · exact Or.inl (NoDb.reading T net F uri force s t h)
  · have hdb := (NoDb.reading T net F uri force).fin s
    cases r with
    | none => simp [M.ret] at h
    | some ix =>
      obtain ⟨c, g1, g2, g3, g4⟩ := reading_some h1
      rcases bind_mem h with h | ⟨_, h2, h⟩
      · left; rw [NoDb.checkSignature T net F _ t h, hdb]
      · obtain ⟨k1, _⟩ := checkSignature_ok g3 h2
        rcases bind_mem h with h | ⟨_, _, h⟩
        · simp only [M.step, List.mem_singleton] at h
          exact Or.inr ⟨c, ix, g1, g2, k1, g4, by rw [h]⟩
        · simp [M.ret] at h

/-- What `update_repo` has done when it ends without an exception. -/
theorem update_result {T : Tools α} {net : Net} {F uri : Str} {force : Bool} {s : St α} {r : Told} (hF : F ≠ uriFile)
    (h : (updateRepo T net F uri force s).2 = .ok r) :
    (r = .updated ∧ ∃ c ix, net.idx = some c ∧ IsIndex T F c ix ∧ NotForged T net c ∧ (force = false → AnnouncesHash net (T.sha c)) ∧
      (fin (updateRepo T net F uri force) s).db = some ix ∧ (fin (updateRepo T net F uri force) s).disk.get F = some c) ∨
    (r = .noUpdates ∧ force = false ∧ (fin (updateRepo T net F uri force) s).db = s.db ∧
      (fin (updateRepo T net F uri force) s).disk.get F = s.disk.get F ∧ ∃ c, s.disk.get F = some c ∧ AnnouncesHash net (T.sha c)) := by
  rw [updateRepo_eq] at h ⊢
  obtain ⟨o, h1, h2, h3⟩ := bind_ok h
  cases o with
  | none =>
    right
    simp only [M.ret, Except.ok.injEq] at h2
    obtain ⟨g1, g2, g3⟩ := reading_none hF h1
    rw [h3]
    simp only [fin_ret]
    exact ⟨h2.symm, g1, (NoDb.reading T net F uri force).fin s, g2, g3⟩
  | some ix =>
    left
    obtain ⟨c, g1, g2, g3, g4⟩ := reading_some h1
    obtain ⟨_, k1, k2, k3⟩ := bind_ok h2
    obtain ⟨n1, n2⟩ := checkSignature_ok g3 k1
    obtain ⟨_, _, l2, l3⟩ := bind_ok k2
    simp only [M.ret, Except.ok.injEq] at l2
    rw [h3]
    refine ⟨l2.symm, c, ix, g1, g2, n1, g4, ?_, ?_⟩
    · show (fin (enter T net F ix) _).db = some ix
      rw [enter, k3, l3, fin_ret, fin_step]
    · show (fin (enter T net F ix) _).disk.get F = some c
      rw [enter, k3, l3, fin_ret, fin_step]
      exact n2

/-! ## C109 -/

/-- What is wanted: at no point is there an index in the database that was not there before, unless it is the one served and has the
announced hash. -/
def IntegrityFull : Prop := ∀ (α : Type) (T : Tools α) (net : Net) (F uri : Str) (force : Bool) (s t : St α),
  t ∈ (updateRepo T net F uri force s).1 →
  t.db = s.db ∨ ∃ c ix, net.idx = some c ∧ IsIndex T F c ix ∧ AnnouncesHash net (T.sha c) ∧ t.db = some ix

/-- Tools for examples: the hash is the first two letters, bzip2 puts a letter in front, and an index is any text but `?`. -/
def toy : Tools Str where
  sha c := c.take 2
  bunzip c := match c with
    | 'B' :: d => some d
    | _ => none
  bzip d := 'B' :: d
  parse d := if d = ['?'] then none else some d
  verify c g := g = 'S' :: c
  sign c := 'S' :: c

/-- With `--force` the hash is not looked at. -/
theorem integrity_refuted : ¬ IntegrityFull := by
  intro h
  have := h Str toy ⟨some ['B', 'a'], some ['B', 'x'], none⟩ ['i', '.', 'b', 'z', '2'] [] true ⟨[(['i', '.', 'b', 'z', '2'], ['B', 'a'])], none⟩
    (fin (updateRepo toy ⟨some ['B', 'a'], some ['B', 'x'], none⟩ ['i', '.', 'b', 'z', '2'] [] true) ⟨[(['i', '.', 'b', 'z', '2'], ['B', 'a'])], none⟩) (by
      rcases lastOf_mem (⟨[(['i', '.', 'b', 'z', '2'], ['B', 'a'])], none⟩ : St Str)
        (updateRepo toy ⟨some ['B', 'a'], some ['B', 'x'], none⟩ ['i', '.', 'b', 'z', '2'] [] true ⟨[(['i', '.', 'b', 'z', '2'], ['B', 'a'])], none⟩).1 with e | e
      · exact absurd (congrArg St.db e) (by decide)
      · exact e)
  rcases this with e | ⟨c, ix, h1, _, ⟨a, h3, h4⟩, _⟩
  · exact absurd e (by decide)
  · simp only [Option.some.injEq] at h1 h3
    subst h1; subst h3
    rcases h4 with ⟨_, h4⟩ | ⟨l, r, h4, _⟩
    · exact absurd h4 (by decide)
    · have : '\n' ∈ (['B', 'a'] : Str) := by rw [h4]; simp
      exact absurd this (by decide)

/-- Without `--force`. -/
theorem integrity_partial {T : Tools α} {net : Net} {F uri : Str} {s t : St α} (h : t ∈ (updateRepo T net F uri false s).1) :
    t.db = s.db ∨ ∃ c ix, net.idx = some c ∧ IsIndex T F c ix ∧ AnnouncesHash net (T.sha c) ∧ t.db = some ix := by
  rcases update_states h with h | ⟨c, ix, h1, h2, _, h4, h5⟩
  · exact Or.inl h
  · exact Or.inr ⟨c, ix, h1, h2, h4 rfl, h5⟩

theorem after_mem (T : Tools α) (F uri : Str) (c : Cmd) (s : St α) :
    c.after T F uri s = s ∨ c.after T F uri s ∈ (updateRepo T c.net F uri c.force s).1 := by
  unfold Cmd.after
  cases c.cut with
  | none => exact lastOf_mem _ _
  | some k =>
    rcases lastOf_mem s ((c.run T F uri s).1.take k) with e | e
    · exact Or.inl e
    · exact Or.inr (List.mem_of_mem_take e)

/-- Whatever the server sends and wherever commands are killed: the index in the database is the first one or came with one of the
commands, which checked it. -/
theorem integrity_history (T : Tools α) (F uri : Str) (cs : List Cmd) (s : St α) :
    (hist T F uri cs s).db = s.db ∨ ∃ m ∈ cs, ∃ c ix, m.net.idx = some c ∧ IsIndex T F c ix ∧ NotForged T m.net c ∧
      (m.force = false → AnnouncesHash m.net (T.sha c)) ∧ (hist T F uri cs s).db = some ix := by
  induction cs using snoc_induction with
  | h0 => exact Or.inl rfl
  | hs cs m ih =>
    have e : hist T F uri (cs ++ [m]) s = m.after T F uri (hist T F uri cs s) := by simp [hist]
    rw [e]
    have key : (m.after T F uri (hist T F uri cs s)).db = (hist T F uri cs s).db ∨ ∃ c ix, m.net.idx = some c ∧ IsIndex T F c ix ∧
        NotForged T m.net c ∧ (m.force = false → AnnouncesHash m.net (T.sha c)) ∧ (m.after T F uri (hist T F uri cs s)).db = some ix := by
      rcases after_mem T F uri m (hist T F uri cs s) with h | h
      · exact Or.inl (by rw [h])
      · exact update_states h
    rcases key with h | ⟨c, ix, h⟩
    · rw [h]
      rcases ih with ih | ⟨m', hm', c, ix, ih⟩
      · exact Or.inl ih
      · exact Or.inr ⟨m', by simp [hm'], c, ix, ih⟩
    · exact Or.inr ⟨m, by simp, c, ix, h⟩

example : (fin (updateRepo toy ⟨some ['B', 'a'], some ['B', 'a', 'b'], none⟩ ['i', '.', 'b', 'z', '2'] [] false) ⟨[], none⟩).db = some ['a', 'b'] := by decide

/-! ## C111 -/

/-- An index with an invalid signature does not get into the database, with or without `--force`. -/
theorem forged_refused {T : Tools α} {net : Net} {F uri c g : Str} {force : Bool} {s t : St α} (hi : net.idx = some c) (hg : net.sig = some g)
    (hn : g ≠ []) (hv : T.verify c g = false) (h : t ∈ (updateRepo T net F uri force s).1) : t.db = s.db := by
  rcases update_states h with h | ⟨c', ix, h1, _, h3, _, _⟩
  · exact h
  · rw [hi, Option.some.injEq] at h1
    subst h1
    rcases h3 with h3 | h3 | ⟨g', h3, h4⟩
    · rw [hg] at h3; cases h3
    · rw [hg, Option.some.injEq] at h3; exact absurd h3 hn
    · rw [hg, Option.some.injEq] at h3
      subst h3
      rw [hv] at h4; cases h4

/-- And the command fails, unless there is nothing new. -/
theorem forged_fails {T : Tools α} {net : Net} {F uri c g : Str} {force : Bool} {s : St α} (hF : F ≠ uriFile) (hi : net.idx = some c) (hg : net.sig = some g)
    (hn : g ≠ []) (hv : T.verify c g = false) : (updateRepo T net F uri force s).2 ≠ .ok .updated := by
  intro h
  rcases update_result hF h with ⟨_, c', ix, h1, _, h3, _⟩ | ⟨h1, _⟩
  · rw [hi, Option.some.injEq] at h1
    subst h1
    rcases h3 with h3 | h3 | ⟨g', h3, h4⟩
    · rw [hg] at h3; cases h3
    · rw [hg, Option.some.injEq] at h3; exact absurd h3 hn
    · rw [hg, Option.some.injEq] at h3
      subst h3
      rw [hv] at h4; cases h4
  · cases h1

/-- What is wanted: commands with forged indices never bring one into the database, whatever else is done. -/
def ForgedFull : Prop := ∀ (α : Type) (T : Tools α) (F uri : Str) (cs : List Cmd),
  (∀ m ∈ cs, ∃ c g, m.net.idx = some c ∧ m.net.sig = some g ∧ g ≠ [] ∧ T.verify c g = false) →
  (hist T F uri cs ⟨[], none⟩).db = none ∧ (fin (rebuildRepo T F) (hist T F uri cs ⟨[], none⟩)).db = none

/-- A refused index stays in the directory, from which `rebuild_repo` reads it without a check. -/
theorem forged_refuted : ¬ ForgedFull := by
  intro h
  have := (h Str toy ['i'] [] [⟨⟨some ['a'], some ['a'], some ['X']⟩, false, none⟩] (by
    intro m hm
    rw [List.mem_singleton.mp hm]
    exact ⟨['a'], ['X'], rfl, rfl, by decide, by decide⟩)).2
  exact absurd this (by decide)

/-- Histories of `update_repo`. -/
theorem forged_partial (T : Tools α) (F uri : Str) (cs : List Cmd) (s : St α)
    (h : ∀ m ∈ cs, ∃ c g, m.net.idx = some c ∧ m.net.sig = some g ∧ g ≠ [] ∧ T.verify c g = false) : (hist T F uri cs s).db = s.db := by
  rcases integrity_history T F uri cs s with e | ⟨m, hm, c, ix, h1, _, h3, _⟩
  · exact e
  · obtain ⟨c', g, k1, k2, k3, k4⟩ := h m hm
    rw [k1, Option.some.injEq] at h1
    subst h1
    rcases h3 with h3 | h3 | ⟨g', h3, h4⟩
    · rw [k2] at h3; cases h3
    · rw [k2, Option.some.injEq] at h3; exact absurd h3 k3
    · rw [k2, Option.some.injEq] at h3
      subst h3
      rw [k4] at h4; cases h4

/-! ## C110 -/

/-- What is wanted: when the command says that there are no updates, the database has the index whose hash is announced. -/
def NoUpdatesFull : Prop := ∀ (α : Type) (T : Tools α) (F uri : Str) (cs : List Cmd) (m : Cmd), F ≠ uriFile →
  (m.run T F uri (hist T F uri cs ⟨[], none⟩)).2 = .ok .noUpdates →
  ∃ c ix, AnnouncesHash m.net (T.sha c) ∧ IsIndex T F c ix ∧ (hist T F uri cs ⟨[], none⟩).db = some ix

/-- An update of the server between the two requests of the first command: its index is refused, but the second command takes it for
known. -/
theorem no_updates_refuted : ¬ NoUpdatesFull := by
  intro h
  obtain ⟨c, ix, _, _, h3⟩ := h Str toy ['i'] [] [⟨⟨some ['a'], some ['b'], none⟩, false, none⟩] ⟨⟨some ['b'], some ['b'], none⟩, false, none⟩ (by decide) (by rfl)
  cases h3

/-- The same after a command that was killed before it changed the database. -/
theorem no_updates_refuted_killed : ¬ NoUpdatesFull := by
  intro h
  obtain ⟨c, ix, _, _, h3⟩ := h Str toy ['i'] [] [⟨⟨some ['b'], some ['b'], none⟩, false, some 3⟩] ⟨⟨some ['b'], some ['b'], none⟩, false, none⟩ (by decide) (by rfl)
  cases h3

/-- All commands of the history ran to their end without an exception, or could not reach the server. -/
def Smooth (T : Tools α) (F uri : Str) (cs : List Cmd) (s : St α) : Prop := ∀ cs1 m cs2, cs = cs1 ++ m :: cs2 →
  m.cut = none ∧ ((∃ r, (m.run T F uri (hist T F uri cs1 s)).2 = .ok r) ∨ (m.run T F uri (hist T F uri cs1 s)).2 = .error .fetch)

/-- If the index cannot be fetched, it stays as it was. -/
theorem update_fetch_error {T : Tools α} {net : Net} {F uri : Str} {force : Bool} {s : St α} (hF : F ≠ uriFile)
    (h : (updateRepo T net F uri force s).2 = .error .fetch) :
    (fin (updateRepo T net F uri force) s).disk.get F = s.disk.get F ∧ (fin (updateRepo T net F uri force) s).db = s.db := by
  rw [updateRepo_eq] at h ⊢
  rcases bind_error h with ⟨h1, h2⟩ | ⟨o, h1, h2, _⟩
  · rw [h2]
    refine ⟨?_, (NoDb.reading T net F uri force).fin s⟩
    rcases catch_cases (M.bind (readUri T net F uri false) fun ix => M.ret (some ix))
        (if force then M.bind (readUri T net F uri true) fun ix => M.ret (some ix) else M.ret none) s .alreadyHave with ⟨_, e2⟩ | ⟨e1, e2, e3⟩
    · rw [reading, e2] at h1
      rw [fin, reading, e2, ← fin]
      rcases bind_error h1 with ⟨k1, k2⟩ | ⟨_, _, k2, _⟩
      · rw [k2]; exact (readUri_error k1 hF).1 rfl
      · cases k2
    · have hk : (fin (M.bind (readUri T net F uri false) fun ix => M.ret (some ix)) s).disk.get F = s.disk.get F := by
        rcases bind_error e1 with ⟨k1, k2⟩ | ⟨_, _, k2, _⟩
        · rw [k2]; exact ((readUri_error k1 hF).2 rfl).2.1
        · cases k2
      rw [reading, e2] at h1
      rw [reading, e3]
      cases force with
      | false => cases h1
      | true =>
        simp only [if_true] at h1 ⊢
        rcases bind_error h1 with ⟨k1, k2⟩ | ⟨_, _, k2, _⟩
        · rw [k2, (readUri_error k1 hF).1 rfl, hk]
        · cases k2
  · exfalso
    cases o with
    | none => cases h2
    | some ix =>
      rcases bind_error h2 with ⟨k1, _⟩ | ⟨_, _, k2, _⟩
      · rcases bind_error k1 with ⟨l1, _⟩ | ⟨got, _, l2, _⟩
        · rcases catch_cases (M.bind (fetch (F ++ dotSig) net.sig) fun _ => M.ret true) (M.ret false) (fin (reading T net F uri force) s) .fetch with ⟨e1, e2⟩ | ⟨e1, e2, e3⟩
          · rw [e2] at l1; exact e1 l1
          · rw [e2] at l1; cases l1
        · simp only [M.look] at l2
          split at l2
          · cases l2
          · cases l2
      · rcases bind_error k2 with ⟨l1, _⟩ | ⟨_, _, l2, _⟩
        · cases l1
        · cases l2

/-- After a smooth history the index in the directory, if any, is the one in the database. -/
theorem smooth_invariant {T : Tools α} {F uri : Str} {cs : List Cmd} (hF : F ≠ uriFile) (h : Smooth T F uri cs ⟨[], none⟩) :
    ∀ c, (hist T F uri cs ⟨[], none⟩).disk.get F = some c → ∃ ix, IsIndex T F c ix ∧ (hist T F uri cs ⟨[], none⟩).db = some ix := by
  induction cs using snoc_induction with
  | h0 => intro c hc; simp [hist] at hc
  | hs cs m ih =>
    have hs' : Smooth T F uri cs ⟨[], none⟩ := by
      intro cs1 m' cs2 e
      exact h cs1 m' (cs2 ++ [m]) (by rw [e]; simp)
    have e : hist T F uri (cs ++ [m]) ⟨[], none⟩ = m.after T F uri (hist T F uri cs ⟨[], none⟩) := by simp [hist]
    obtain ⟨hcut, hres⟩ := h cs m [] rfl
    have hfin : m.after T F uri (hist T F uri cs ⟨[], none⟩) = fin (updateRepo T m.net F uri m.force) (hist T F uri cs ⟨[], none⟩) := by
      unfold Cmd.after
      rw [hcut]; rfl
    rw [e, hfin]
    intro c hc
    rcases hres with ⟨r, hr⟩ | hr
    · rcases update_result hF hr with ⟨_, c', ix, _, h2, _, _, h5, h6⟩ | ⟨_, _, h3, h4, _⟩
      · rw [h6, Option.some.injEq] at hc
        subst hc
        exact ⟨ix, h2, h5⟩
      · rw [h4] at hc
        rw [h3]
        exact ih hs' c hc
    · obtain ⟨h1, h2⟩ := update_fetch_error hF hr
      rw [h1] at hc
      rw [h2]
      exact ih hs' c hc

/-- After smooth histories. -/
theorem no_updates_partial {T : Tools α} {F uri : Str} {cs : List Cmd} {m : Cmd} (hF : F ≠ uriFile) (hs : Smooth T F uri cs ⟨[], none⟩)
    (h : (m.run T F uri (hist T F uri cs ⟨[], none⟩)).2 = .ok .noUpdates) :
    ∃ c ix, AnnouncesHash m.net (T.sha c) ∧ IsIndex T F c ix ∧ (hist T F uri cs ⟨[], none⟩).db = some ix := by
  rcases update_result hF h with ⟨h1, _⟩ | ⟨_, _, _, _, c, hc, ha⟩
  · cases h1
  · obtain ⟨ix, h1, h2⟩ := smooth_invariant hF hs c hc
    exact ⟨c, ix, ha, h1, h2⟩

/-- A smooth history after which there are no updates. -/
example : Smooth toy ['i'] [] [⟨⟨some ['a'], some ['a'], none⟩, false, none⟩] ⟨[], none⟩ ∧
    (Cmd.run toy ['i'] [] ⟨⟨some ['a'], none, none⟩, false, none⟩ (hist toy ['i'] [] [⟨⟨some ['a'], some ['a'], none⟩, false, none⟩] ⟨[], none⟩)).2 = .ok .noUpdates := by
  refine ⟨?_, by rfl⟩
  intro cs1 m cs2 e
  cases cs1 with
  | nil =>
    simp only [List.nil_append, List.cons.injEq] at e
    rw [← e.1]
    exact ⟨rfl, Or.inl ⟨.updated, by rfl⟩⟩
  | cons a l => simp at e

/-! ## C112 -/

/-- The other programs do what they should on the text `x`. -/
structure Sane (T : Tools α) (x : Str) : Prop where
  unzip : T.bunzip (T.bzip x) = some x
  verify : ∀ c, T.verify c (T.sign c) = true
  sha : ∀ c, T.sha c ≠ [] ∧ '\n' ∉ T.sha c
  nonempty : x ≠ [] ∧ T.bzip x ≠ []

/-- The file `F` of the client, if it has one, does not have the hash of the new one by accident. -/
def NoCollision (T : Tools α) (out x F : Str) (s : St α) : Prop :=
  ∀ c, s.disk.get F = some c → T.sha c = T.sha (if F = out then x else T.bzip x) → c = if F = out then x else T.bzip x

/-- What is wanted: whatever has been published before and whatever has happened at the client, when the index `x` is published the
next update of the client from either of its files brings it into the database. -/
def ArrivesFull : Prop := ∀ (α : Type) (T : Tools α) (out x F uri : Str) (signing force : Bool) (srv : Dict Str Str) (ix : α) (cs : List Cmd),
  Sane T x → T.parse x = some ix → (F = out ∨ F = out ++ dotBz2) → F ≠ uriFile →
  NoCollision T out x F (hist T F uri cs ⟨[], none⟩) →
  (∃ r, (updateRepo T (serve (publish T out x signing srv) F) F uri force (hist T F uri cs ⟨[], none⟩)).2 = .ok r) ∧
  (fin (updateRepo T (serve (publish T out x signing srv) F) F uri force) (hist T F uri cs ⟨[], none⟩)).db = some ix

/-- Tools for examples; the hash leaves out line ends. -/
def toy2 : Tools Str where
  sha c := 'h' :: c.filter (· ≠ '\n')
  bunzip c := match c with
    | 'B' :: d => some d
    | _ => none
  bzip d := 'B' :: d
  parse d := if d = ['?'] then none else some d
  verify c g := g = 'S' :: c
  sign c := 'S' :: c

theorem serve_publish (T : Tools α) (out x F : Str) (signing : Bool) (srv : Dict Str Str) (hF : F = out ∨ F = out ++ dotBz2)
    (hs : signing = false → srv.get (F ++ dotSig) = none) :
    ∃ c, (c = if F = out then x else T.bzip x) ∧ serve (publish T out x signing srv) F = ⟨some (T.sha c), some c, if signing then some (T.sign c) else none⟩ := by
  refine ⟨_, rfl, ?_⟩
  rcases hF with rfl | rfl
  · cases signing with
    | true => simp [serve, publish, Dict.get_put, dotBz2, dotSha, dotSig]
    | false =>
      have h := hs rfl
      simp only [dotSig] at h
      simp [serve, publish, Dict.get_put, dotBz2, dotSha, dotSig, h]
  · cases signing with
    | true => simp [serve, publish, Dict.get_put, dotBz2, dotSha, dotSig]
    | false =>
      have h := hs rfl
      simp only [dotSig, dotBz2, List.append_assoc, List.cons_append, List.nil_append] at h
      simp [serve, publish, Dict.get_put, dotBz2, dotSha, dotSig, h]

/-- From a directory name without `.bz2` and `.gz`, on a server without an outdated signature, to clients without interrupted
commands. -/
theorem arrives_partial {T : Tools α} {out x F uri : Str} {signing force : Bool} {srv : Dict Str Str} {ix : α} {cs : List Cmd}
    (hT : Sane T x) (hx : T.parse x = some ix) (hF : (F = out ∧ ¬ IsBz2 out ∧ ¬ ∃ n, out = n ++ ".gz".toList) ∨ (F = out ++ dotBz2 ∧ out ≠ []))
    (hu : F ≠ uriFile) (hs : signing = false → srv.get (F ++ dotSig) = none) (hc : Smooth T F uri cs ⟨[], none⟩)
    (hnc : NoCollision T out x F (hist T F uri cs ⟨[], none⟩)) :
    (∃ r, (updateRepo T (serve (publish T out x signing srv) F) F uri force (hist T F uri cs ⟨[], none⟩)).2 = .ok r) ∧
    (fin (updateRepo T (serve (publish T out x signing srv) F) F uri force) (hist T F uri cs ⟨[], none⟩)).db = some ix := by
  obtain ⟨c, hcd, hnet⟩ := serve_publish T out x F signing srv (hF.imp And.left And.left) hs
  unfold NoCollision at hnc
  rw [← hcd] at hnc
  generalize hs0 : hist T F uri cs ⟨[], none⟩ = s at hnc ⊢
  rw [hnet]
  have hplain : Plain T F c x ∧ Unpackable F := by
    rcases hF with ⟨rfl, h1, h2⟩ | ⟨rfl, h1⟩
    · rw [if_pos rfl] at hcd
      exact ⟨Or.inr ⟨h1, hcd.symm⟩, Or.inr ⟨h1, h2⟩⟩
    · rw [if_neg (append_ne (by decide))] at hcd
      have hz : IsBz2 (out ++ dotBz2) := ⟨out, rfl⟩
      exact ⟨Or.inl ⟨hz, by rw [hcd, hT.unzip]⟩, Or.inl ⟨hz, by rw [dropBz2_append]; exact h1⟩⟩
  have hix : IsIndex T F c ix := ⟨x, hplain.1, hx⟩
  have hcn : c ≠ [] := by
    rw [hcd]
    by_cases e : F = out
    · rw [if_pos e]; exact hT.nonempty.1
    · rw [if_neg e]; exact hT.nonempty.2
  generalize hn : (⟨some (T.sha c), some c, if signing then some (T.sign c) else none⟩ : Net) = net
  have hi : net.idx = some c := by rw [← hn]
  have ha : AnnouncesHash net (T.sha c) := ⟨T.sha c, by rw [← hn], Or.inl ⟨(hT.sha c).2, rfl⟩⟩
  have hh : net.hash ≠ some [] := by
    rw [← hn]
    simpa using (hT.sha c).1
  have hf : NotForged T net c := by
    cases signing with
    | false => left; rw [← hn]; rfl
    | true => right; right; exact ⟨T.sign c, by rw [← hn]; rfl, hT.verify c⟩
  have hok : ∃ r, (updateRepo T net F uri force s).2 = .ok r := by
    rw [updateRepo_eq]
    have hread : ∃ o, (reading T net F uri force s).2 = .ok o := by
      rcases readUri_succeeds (uri := uri) (b := false) (s := s) hplain.2 hi hcn hix ha hh with ⟨j, hj⟩ | ⟨_, hj⟩
      · refine ⟨some j, ?_⟩
        have : (M.bind (readUri T net F uri false) (fun ix => (M.ret (some ix) : M α (Option α))) s).2 = .ok (some j) := by rw [bind_ok_of hj]; rfl
        rw [reading, catch_eq_ok this]; exact this
      · have : (M.bind (readUri T net F uri false) (fun ix => (M.ret (some ix) : M α (Option α))) s).2 = .error .alreadyHave := bind_error_of hj
        rw [reading, catch_eq_caught this]
        cases force with
        | false => exact ⟨none, rfl⟩
        | true =>
          rcases readUri_succeeds (uri := uri) (b := true)
            (s := fin (M.bind (readUri T net F uri false) fun ix => M.ret (some ix)) s) hplain.2 hi hcn hix ha hh with ⟨j, hj'⟩ | ⟨hb, _⟩
          · refine ⟨some j, ?_⟩
            simp only [if_true]
            rw [bind_ok_of hj']; rfl
          · cases hb
    obtain ⟨o, ho⟩ := hread
    rw [bind_ok_of ho]
    cases o with
    | none => exact ⟨_, rfl⟩
    | some j =>
      obtain ⟨c', g1, _, g3, _⟩ := reading_some ho
      rw [hi, Option.some.injEq] at g1
      subst g1
      refine ⟨.updated, ?_⟩
      show (enter T net F j _).2 = _
      rw [enter, bind_ok_of (checkSignature_succeeds g3 hf)]
      rfl
  refine ⟨hok, ?_⟩
  obtain ⟨r, hr⟩ := hok
  rcases update_result hu hr with ⟨_, c', ix', h1, h2, _, _, h5, _⟩ | ⟨_, _, h3, _, c', hc', a, ha1, ha2⟩
  · rw [hi, Option.some.injEq] at h1
    subst h1
    rw [h5, isIndex_unique h2 hix]
  · obtain ⟨a', hb1, hb2⟩ := ha
    rw [ha1, Option.some.injEq] at hb1
    subst hb1
    have := hnc _ hc' (announces_unique ha2 hb2)
    subst this
    subst hs0
    obtain ⟨ix', k1, k2⟩ := smooth_invariant hu hc _ hc'
    rw [h3, k2, isIndex_unique k1 hix]

theorem toy2_sane (x : Str) (hx : x ≠ []) : Sane toy2 x :=
  ⟨rfl, fun c => by simp [toy2], fun c => ⟨by simp [toy2], by simp [toy2]⟩, hx, by simp [toy2]⟩

theorem noCollision_empty (T : Tools α) (out x F : Str) : NoCollision T out x F ⟨[], none⟩ := by
  intro c hc
  simp at hc

/-- An index published without a signature where an older one had been signed: the clients find the old signature and refuse it. -/
theorem arrives_refuted : ¬ ArrivesFull := by
  intro h
  obtain ⟨r, hr⟩ := (h Str toy2 ['i'] ['b'] ['i'] [] false false (publish toy2 ['i'] ['a'] true []) ['b'] [] (toy2_sane _ (by decide)) (by decide)
    (Or.inl rfl) (by decide) (noCollision_empty _ _ _ _)).1
  have : (updateRepo toy2 (serve (publish toy2 ['i'] ['b'] false (publish toy2 ['i'] ['a'] true [])) ['i']) ['i'] [] false ⟨[], none⟩).2 =
    .error .invalidSignature := by rfl
  rw [hist, List.foldl_nil, this] at hr
  cases hr

/-- An index written to a name for bzip2 is not compressed, but is unpacked by the clients. -/
theorem arrives_refuted_name : ¬ ArrivesFull := by
  intro h
  obtain ⟨r, hr⟩ := (h Str toy2 ['i', '.', 'b', 'z', '2'] ['b'] ['i', '.', 'b', 'z', '2'] [] false false [] ['b'] [] (toy2_sane _ (by decide)) (by decide)
    (Or.inl rfl) (by decide) (noCollision_empty _ _ _ _)).1
  have : (updateRepo toy2 (serve (publish toy2 ['i', '.', 'b', 'z', '2'] ['b'] false []) ['i', '.', 'b', 'z', '2']) ['i', '.', 'b', 'z', '2'] [] false ⟨[], none⟩).2 =
    .error .io := by rfl
  rw [hist, List.foldl_nil, this] at hr
  cases hr

example : (fin (updateRepo toy2 (serve (publish toy2 ['i'] ['b'] true []) ['i', '.', 'b', 'z', '2']) ['i', '.', 'b', 'z', '2'] [] false) ⟨[], none⟩).db = some ['b'] := by
  refine (arrives_partial (cs := []) (toy2_sane ['b'] (by decide)) (by decide) (Or.inr ⟨rfl, by decide⟩) (by decide) (by simp) ?_ (noCollision_empty _ _ _ _)).2
  intro cs1 m cs2 e
  simp at e

/-- C112: which files of a published index hold which checksums. -/
theorem publish_sums {α : Type} (T : Tools α) (out x : Str) (signing : Bool) (srv : Dict Str Str) :
    (publish T out x signing srv).get (out ++ ".sha1sum".toList) = some (T.sha x) ∧
    (publish T out x signing srv).get (out ++ ".bz2.sha1sum".toList) = some (T.sha (T.bzip x)) ∧
    (serve (publish T out x signing srv) out).hash = some (T.sha x) ∧
    (serve (publish T out x signing srv) (out ++ ".bz2".toList)).hash = some (T.sha (T.bzip x)) := by
  cases signing <;> simp [serve, publish, Dict.get_put, dotBz2, dotSha, dotSig]

end Pisi.Repo
