import Verif.Spec.RepoUpdate
import Verif.Props.Path

/-!
# Lemmas about updating a repository
-/
namespace Pisi.Repo
variable {α β γ : Type}

/-- The state in which a computation ends. -/
def fin (x : M α β) (s : St α) : St α := lastOf s (x s).1

theorem lastOf_append {σ : Type} (s : σ) (l l' : List σ) : lastOf s (l ++ l') = lastOf (lastOf s l) l' := by
  simp only [lastOf, List.getLast?_append]
  cases l'.getLast? <;> simp

theorem lastOf_mem {σ : Type} (s : σ) (l : List σ) : lastOf s l = s ∨ lastOf s l ∈ l := by
  simp only [lastOf]
  cases h : l.getLast? with
  | none => exact Or.inl rfl
  | some a => exact Or.inr (List.mem_of_getLast? h)

theorem bind_eq_error {x : M α β} {f : β → M α γ} {s : St α} {e : UErr} (h : (x s).2 = .error e) : M.bind x f s = ((x s).1, .error e) := by
  unfold M.bind
  rw [show x s = ((x s).1, .error e) from Prod.ext rfl h]

theorem bind_eq_ok {x : M α β} {f : β → M α γ} {s : St α} {b : β} (h : (x s).2 = .ok b) :
    M.bind x f s = ((x s).1 ++ (f b (fin x s)).1, (f b (fin x s)).2) := by
  unfold M.bind fin
  rw [show x s = ((x s).1, .ok b) from Prod.ext rfl h]

theorem bind_ok {x : M α β} {f : β → M α γ} {s : St α} {c : γ} (h : (M.bind x f s).2 = .ok c) :
    ∃ b, (x s).2 = .ok b ∧ (f b (fin x s)).2 = .ok c ∧ fin (M.bind x f) s = fin (f b) (fin x s) := by
  cases hx : (x s).2 with
  | error e => rw [bind_eq_error hx] at h; cases h
  | ok b =>
    rw [bind_eq_ok hx] at h
    refine ⟨b, rfl, h, ?_⟩
    rw [fin, bind_eq_ok hx, lastOf_append]; rfl

theorem bind_error {x : M α β} {f : β → M α γ} {s : St α} {e : UErr} (h : (M.bind x f s).2 = .error e) :
    ((x s).2 = .error e ∧ fin (M.bind x f) s = fin x s) ∨
    ∃ b, (x s).2 = .ok b ∧ (f b (fin x s)).2 = .error e ∧ fin (M.bind x f) s = fin (f b) (fin x s) := by
  cases hx : (x s).2 with
  | error e' =>
    rw [bind_eq_error hx] at h
    simp only [Except.error.injEq] at h
    subst h
    exact Or.inl ⟨rfl, by rw [fin, bind_eq_error hx, fin]⟩
  | ok b =>
    rw [bind_eq_ok hx] at h
    refine Or.inr ⟨b, rfl, h, ?_⟩
    rw [fin, bind_eq_ok hx, lastOf_append]; rfl

theorem bind_mem {x : M α β} {f : β → M α γ} {s t : St α} (h : t ∈ (M.bind x f s).1) :
    t ∈ (x s).1 ∨ ∃ b, (x s).2 = .ok b ∧ t ∈ (f b (fin x s)).1 := by
  cases hx : (x s).2 with
  | error e => rw [bind_eq_error hx] at h; exact Or.inl h
  | ok b =>
    rw [bind_eq_ok hx] at h
    rcases List.mem_append.mp h with h | h
    · exact Or.inl h
    · exact Or.inr ⟨b, rfl, h⟩

theorem catch_eq_ok {x y : M α β} {s : St α} {e : UErr} {b : β} (h : (x s).2 = .ok b) : M.catch x e y s = x s := by
  unfold M.catch
  rw [show x s = ((x s).1, .ok b) from Prod.ext rfl h]

theorem catch_eq_other {x y : M α β} {s : St α} {e e' : UErr} (h : (x s).2 = .error e') (he : e' ≠ e) : M.catch x e y s = x s := by
  unfold M.catch
  rw [show x s = ((x s).1, .error e') from Prod.ext rfl h]
  simp only [if_neg he]

theorem catch_eq_caught {x y : M α β} {s : St α} {e : UErr} (h : (x s).2 = .error e) :
    M.catch x e y s = ((x s).1 ++ (y (fin x s)).1, (y (fin x s)).2) := by
  unfold M.catch fin
  rw [show x s = ((x s).1, .error e) from Prod.ext rfl h]
  simp

theorem catch_cases (x y : M α β) (s : St α) (e : UErr) :
    ((x s).2 ≠ .error e ∧ M.catch x e y s = x s) ∨
    ((x s).2 = .error e ∧ M.catch x e y s = ((x s).1 ++ (y (fin x s)).1, (y (fin x s)).2) ∧ fin (M.catch x e y) s = fin y (fin x s)) := by
  cases h : (x s).2 with
  | ok b => exact Or.inl ⟨by simp, catch_eq_ok h⟩
  | error e' =>
    by_cases he : e' = e
    · subst he
      refine Or.inr ⟨rfl, catch_eq_caught h, ?_⟩
      rw [fin, catch_eq_caught h, lastOf_append]; rfl
    · exact Or.inl ⟨by simpa using he, catch_eq_other h he⟩

/-! ## The database is left alone -/

/-- The computation never changes the database. -/
def NoDb (x : M α β) : Prop := ∀ s, ∀ t ∈ (x s).1, t.db = s.db

theorem NoDb.fin {x : M α β} (h : NoDb x) (s : St α) : (fin x s).db = s.db := by
  rcases lastOf_mem s (x s).1 with e | e
  · rw [Repo.fin, e]
  · exact h s _ e

theorem NoDb.bind {x : M α β} {f : β → M α γ} (hx : NoDb x) (hf : ∀ b, NoDb (f b)) : NoDb (M.bind x f) := by
  intro s t ht
  rcases bind_mem ht with h | ⟨b, _, h⟩
  · exact hx s t h
  · rw [hf b _ t h, hx.fin]

theorem NoDb.catch {x y : M α β} {e : UErr} (hx : NoDb x) (hy : NoDb y) : NoDb (M.catch x e y) := by
  intro s t ht
  rcases catch_cases x y s e with ⟨_, h⟩ | ⟨_, h, _⟩
  · rw [h] at ht; exact hx s t ht
  · rw [h] at ht
    rcases List.mem_append.mp ht with ht | ht
    · exact hx s t ht
    · rw [hy _ t ht, hx.fin]

theorem NoDb.look {f : St α → M α β} (h : ∀ s, NoDb (f s)) : NoDb (M.look f) := fun s t ht => h s s t ht
theorem NoDb.ret (b : β) : NoDb (M.ret b : M α β) := by intro s t ht; simp [M.ret] at ht
theorem NoDb.throw (e : UErr) : NoDb (M.throw e : M α β) := by intro s t ht; simp [M.throw] at ht
theorem NoDb.put (n c : Str) : NoDb (M.step (put n c) : M α Unit) := by
  intro s t ht
  simp only [M.step, List.mem_singleton] at ht
  rw [ht]; rfl
theorem NoDb.writeFile (n c : Str) : NoDb (writeFile n c : M α Unit) := by
  intro s t ht
  simp only [Repo.writeFile, List.mem_map] at ht
  obtain ⟨k, _, rfl⟩ := ht
  rfl
theorem NoDb.fetch (n : Str) (r : Option Str) : NoDb (fetch n r : M α Unit) := by
  cases r with
  | none => exact NoDb.throw _
  | some c =>
    cases c with
    | nil => exact NoDb.throw _
    | cons a c => exact NoDb.put _ _

theorem NoDb.decompress (T : Tools α) (F : Str) : NoDb (decompress T F) := by
  unfold Repo.decompress
  by_cases h1 : Path.suffix dotBz2 F = true
  · rw [if_pos h1]
    by_cases h2 : dropBz2 F = []
    · rw [if_pos h2]; exact NoDb.throw _
    · rw [if_neg h2]
      refine NoDb.look fun s => ?_
      cases (s.disk.get F).bind T.bunzip with
      | none => exact (NoDb.put _ _).bind fun _ => NoDb.throw _
      | some c => exact (NoDb.writeFile _ _).bind fun _ => NoDb.ret _
  · rw [if_neg h1]
    by_cases h2 : Path.suffix dotGz F = true
    · rw [if_pos h2]; exact NoDb.throw _
    · rw [if_neg h2]; exact NoDb.ret _

theorem NoDb.fetchChecked (T : Tools α) (net : Net) (F : Str) (h : Option Str) : NoDb (fetchChecked T net F h) := by
  refine (NoDb.fetch _ _).bind fun _ => NoDb.look fun s => ?_
  cases h with
  | none => exact NoDb.ret _
  | some h =>
    dsimp only
    by_cases hc : (s.disk.get F).map T.sha = some h
    · rw [if_pos hc]; exact NoDb.ret _
    · rw [if_neg hc]; exact NoDb.throw _

theorem NoDb.download (T : Tools α) (net : Net) (F : Str) (b : Bool) : NoDb (download T net F b) := by
  cases b with
  | false => exact (NoDb.fetchChecked _ _ _ _).bind fun _ => NoDb.decompress _ _
  | true =>
    refine (NoDb.fetch _ _).bind fun _ => NoDb.look fun s => ?_
    dsimp only
    by_cases hc : (s.disk.get F).map T.sha = some (firstLine ((s.disk.get (F ++ dotSha)).getD []))
    · rw [if_pos hc]; exact NoDb.throw _
    · rw [if_neg hc]; exact (NoDb.fetchChecked _ _ _ _).bind fun _ => NoDb.decompress _ _

theorem NoDb.readUri (T : Tools α) (net : Net) (F uri : Str) (b : Bool) : NoDb (readUri T net F uri b) := by
  refine (NoDb.writeFile _ _).bind fun _ => (NoDb.download _ _ _ _).bind fun n => NoDb.look fun s => ?_
  cases (s.disk.get n).bind T.parse with
  | none => exact NoDb.throw _
  | some c => exact NoDb.ret _

theorem NoDb.checkSignature (T : Tools α) (net : Net) (F : Str) : NoDb (checkSignature T net F) := by
  refine (NoDb.catch ((NoDb.fetch _ _).bind fun _ => NoDb.ret _) (NoDb.ret _)).bind fun got => NoDb.look fun s => ?_
  by_cases hc : (got && !T.verify ((s.disk.get F).getD []) ((s.disk.get (F ++ dotSig)).getD [])) = true
  · rw [if_pos hc]; exact NoDb.throw _
  · rw [if_neg hc]; exact NoDb.ret _

/-- Reading in `update_repo`, once or twice. -/
def reading (T : Tools α) (net : Net) (F uri : Str) (force : Bool) : M α (Option α) :=
  M.catch (M.bind (readUri T net F uri false) fun ix => M.ret (some ix)) .alreadyHave
      (if force then M.bind (readUri T net F uri true) fun ix => M.ret (some ix) else M.ret none)

theorem NoDb.reading (T : Tools α) (net : Net) (F uri : Str) (force : Bool) : NoDb (reading T net F uri force) := by
  refine NoDb.catch ((NoDb.readUri _ _ _ _ _).bind fun _ => NoDb.ret _) ?_
  cases force with
  | true => exact (NoDb.readUri _ _ _ _ _).bind fun _ => NoDb.ret _
  | false => exact NoDb.ret _

/-! ## Names -/

theorem isBz2_iff (F : Str) : Path.suffix dotBz2 F = true ↔ IsBz2 F := by
  rw [Path.suffix_iff]
  constructor
  · rintro ⟨q, hq⟩; exact ⟨q, hq.symm⟩
  · rintro ⟨q, hq⟩; exact ⟨q, hq.symm⟩

theorem append_ne {a b : Str} (hb : b ≠ []) : a ++ b ≠ a := by
  intro h
  have := congrArg List.length h
  simp only [List.length_append] at this
  cases b with
  | nil => exact hb rfl
  | cons x b => simp at this

theorem dropBz2_ne {F : Str} (h : IsBz2 F) : dropBz2 F ≠ F := by
  obtain ⟨n, rfl⟩ := h
  intro e
  have := congrArg List.length e
  simp [dropBz2] at this

theorem dropBz2_append (n : Str) : dropBz2 (n ++ dotBz2) = n := by simp [dropBz2, dotBz2]

theorem announces_firstLine (a : Str) : Announces a (firstLine a) := by
  by_cases h : '\n' ∈ a
  · right
    refine ⟨a.takeWhile (· ≠ '\n'), (a.dropWhile (· ≠ '\n')).drop 1, ?_, ?_, by simp [firstLine, h]⟩
    · have hd : a.dropWhile (· ≠ '\n') = '\n' :: (a.dropWhile (· ≠ '\n')).drop 1 := by
        induction a with
        | nil => simp at h
        | cons c a ih =>
          by_cases hc : c = '\n'
          · simp [hc]
          · rw [List.dropWhile_cons_of_pos (by simpa using hc)]
            refine ih ?_
            rcases List.mem_cons.mp h with h | h
            · exact absurd h.symm hc
            · exact h
      rw [← hd, List.takeWhile_append_dropWhile]
    · clear h
      induction a with
      | nil => simp
      | cons c a ih =>
        by_cases hc : c = '\n'
        · simp [hc]
        · rw [List.takeWhile_cons_of_pos (by simpa using hc)]
          intro hm
          rcases List.mem_cons.mp hm with hm | hm
          · exact hc hm.symm
          · exact ih hm
  · left
    refine ⟨h, ?_⟩
    have : a.takeWhile (· ≠ '\n') = a := by
      induction a with
      | nil => rfl
      | cons c a ih =>
        simp only [List.mem_cons, not_or] at h
        rw [List.takeWhile_cons_of_pos (by simpa using fun e : c = '\n' => h.1 e.symm), ih h.2]
    rw [firstLine, if_neg h, this, List.append_nil]

/-! ## What the steps do -/

theorem fin_ret (b : β) (s : St α) : fin (M.ret b) s = s := rfl
theorem fin_throw (e : UErr) (s : St α) : fin (M.throw e : M α β) s = s := rfl
theorem fin_step (f : St α → St α) (s : St α) : fin (M.step f) s = f s := rfl
theorem fin_look (f : St α → M α β) (s : St α) : fin (M.look f) s = fin (f s) s := rfl

theorem fin_writeFile (n c : Str) (s : St α) : fin (writeFile n c) s = put n c s := by
  simp [fin, lastOf, writeFile, List.range_succ]

theorem get_put_disk (n c m : Str) (s : St α) : (put n c s).disk.get m = if n = m then some c else s.disk.get m := by
  rw [put, Dict.get_put]

theorem fetch_ok {n : Str} {r : Option Str} {s : St α} {u : Unit} (h : (fetch n r s).2 = .ok u) :
    ∃ c, r = some c ∧ c ≠ [] ∧ fin (fetch n r) s = put n c s := by
  match r, h with
  | none, h => cases h
  | some [], h => cases h
  | some (a :: c), _ => exact ⟨a :: c, rfl, by simp, rfl⟩

theorem fetch_error {n : Str} {r : Option Str} {s : St α} {e : UErr} (h : (fetch n r s).2 = .error e) :
    e = .fetch ∧ (r = none ∨ r = some []) ∧ fin (fetch n r) s = s := by
  match r, h with
  | none, h => cases h; exact ⟨rfl, Or.inl rfl, rfl⟩
  | some [], h => cases h; exact ⟨rfl, Or.inr rfl, rfl⟩
  | some (a :: c), h => cases h

theorem decompress_ok {T : Tools α} {F n : Str} {s : St α} (h : (decompress T F s).2 = .ok n) :
    ∀ c, s.disk.get F = some c → ∃ d, Plain T F c d ∧ (fin (decompress T F) s).disk.get n = some d ∧
      (fin (decompress T F) s).disk.get F = some c := by
  intro c hc
  unfold decompress at h ⊢
  by_cases h1 : Path.suffix dotBz2 F = true
  · rw [if_pos h1] at h ⊢
    by_cases h2 : dropBz2 F = []
    · rw [if_pos h2] at h; cases h
    · rw [if_neg h2] at h ⊢
      simp only [M.look, fin_look, hc, Option.bind_some] at h ⊢
      cases hb : T.bunzip c with
      | none => rw [hb] at h; cases h
      | some d =>
        rw [hb] at h
        dsimp only at h ⊢
        obtain ⟨_, _, h3, h4⟩ := bind_ok h
        simp only [M.ret, Except.ok.injEq] at h3
        subst h3
        have hz := (isBz2_iff F).mp h1
        rw [h4, fin_ret, fin_writeFile]
        refine ⟨d, Or.inl ⟨hz, hb⟩, by rw [get_put_disk, if_pos rfl], by rw [get_put_disk, if_neg (dropBz2_ne hz), hc]⟩
  · rw [if_neg h1] at h ⊢
    by_cases h2 : Path.suffix dotGz F = true
    · rw [if_pos h2] at h; cases h
    · rw [if_neg h2] at h ⊢
      simp only [M.ret, Except.ok.injEq] at h
      subst h
      rw [fin_ret]
      exact ⟨c, Or.inr ⟨fun hz => h1 ((isBz2_iff F).mpr hz), rfl⟩, hc, hc⟩

theorem decompress_error {T : Tools α} {F : Str} {s : St α} {e : UErr} (h : (decompress T F s).2 = .error e) : e = .io ∨ e = .gzip := by
  unfold decompress at h
  by_cases h1 : Path.suffix dotBz2 F = true
  · rw [if_pos h1] at h
    by_cases h2 : dropBz2 F = []
    · rw [if_pos h2] at h; cases h; exact Or.inl rfl
    · rw [if_neg h2] at h
      simp only [M.look] at h
      cases hb : (s.disk.get F).bind T.bunzip with
      | none =>
        rw [hb] at h
        cases h; exact Or.inl rfl
      | some d =>
        rw [hb] at h
        cases h
  · rw [if_neg h1] at h
    by_cases h2 : Path.suffix dotGz F = true
    · rw [if_pos h2] at h; cases h; exact Or.inr rfl
    · rw [if_neg h2] at h; cases h

theorem fetchChecked_ok {T : Tools α} {net : Net} {F : Str} {o : Option Str} {s : St α} {u : Unit} (h : (fetchChecked T net F o s).2 = .ok u) :
    ∃ c, net.idx = some c ∧ c ≠ [] ∧ fin (fetchChecked T net F o) s = put F c s ∧ ∀ x, o = some x → T.sha c = x := by
  obtain ⟨_, h1, h2, h3⟩ := bind_ok h
  obtain ⟨c, hc, hn, hf⟩ := fetch_ok h1
  refine ⟨c, hc, hn, ?_, ?_⟩
  · rw [fetchChecked, h3, fin_look, hf]
    cases o with
    | none => rfl
    | some x =>
      dsimp only
      by_cases hx : ((put F c s).disk.get F).map T.sha = some x
      · rw [if_pos hx]; rfl
      · rw [if_neg hx]; rfl
  · rintro x rfl
    rw [hf] at h2
    simp only [M.look] at h2
    by_cases hx : ((put F c s).disk.get F).map T.sha = some x
    · rw [get_put_disk, if_pos rfl] at hx
      simpa using hx
    · rw [if_neg hx] at h2; cases h2

theorem fetchChecked_error {T : Tools α} {net : Net} {F : Str} {o : Option Str} {s : St α} {e : UErr} (h : (fetchChecked T net F o s).2 = .error e) :
    e = .integrity ∨ (e = .fetch ∧ fin (fetchChecked T net F o) s = s) := by
  rcases bind_error h with ⟨h1, h2⟩ | ⟨_, h1, h2, h3⟩
  · obtain ⟨rfl, _, h4⟩ := fetch_error h1
    exact Or.inr ⟨rfl, by rw [fetchChecked, h2, h4]⟩
  · left
    simp only [M.look] at h2
    cases o with
    | none => cases h2
    | some x =>
      dsimp only at h2
      by_cases hx : ((fin (fetch F net.idx) s).disk.get F).map T.sha = some x
      · rw [if_pos hx] at h2; cases h2
      · rw [if_neg hx] at h2; cases h2; rfl

/-- After a download the file and what it stands for are in the directory. -/
theorem download_ok {T : Tools α} {net : Net} {F n : Str} {b : Bool} {s : St α} (h : (download T net F b s).2 = .ok n) :
    ∃ c d, net.idx = some c ∧ Plain T F c d ∧ (fin (download T net F b) s).disk.get n = some d ∧
      (fin (download T net F b) s).disk.get F = some c ∧ (b = true → AnnouncesHash net (T.sha c)) := by
  cases b with
  | false =>
    simp only [download, Bool.false_eq_true, if_false] at h ⊢
    obtain ⟨_, h1, h2, h3⟩ := bind_ok h
    obtain ⟨c, hc, _, hf, _⟩ := fetchChecked_ok h1
    obtain ⟨d, g1, g2, g3⟩ := decompress_ok h2 c (by rw [hf, get_put_disk, if_pos rfl])
    rw [h3]
    exact ⟨c, d, hc, g1, g2, g3, by simp⟩
  | true =>
    simp only [download, if_true] at h ⊢
    obtain ⟨_, h1, h2, h3⟩ := bind_ok h
    obtain ⟨a, ha, _, hf⟩ := fetch_ok h1
    rw [h3, fin_look]
    simp only [M.look] at h2
    rw [hf] at h2 ⊢
    generalize hs : put (F ++ dotSha) a s = s1 at *
    have hl : firstLine ((s1.disk.get (F ++ dotSha)).getD []) = firstLine a := by rw [← hs, get_put_disk, if_pos rfl]; rfl
    rw [hl] at h2 ⊢
    by_cases hx : (s1.disk.get F).map T.sha = some (firstLine a)
    · rw [if_pos hx] at h2; cases h2
    · rw [if_neg hx] at h2 ⊢
      obtain ⟨_, k1, k2, k3⟩ := bind_ok h2
      obtain ⟨c, hc, _, hf', hsha⟩ := fetchChecked_ok k1
      obtain ⟨d, g1, g2, g3⟩ := decompress_ok k2 c (by rw [hf', get_put_disk, if_pos rfl])
      rw [k3]
      exact ⟨c, d, hc, g1, g2, g3, fun _ => ⟨a, ha, by rw [hsha _ rfl]; exact announces_firstLine a⟩⟩

/-- If a download fails because nothing is sent, or because nothing is to be done, the file is as before. -/
theorem download_error {T : Tools α} {net : Net} {F : Str} {b : Bool} {s : St α} {e : UErr} (h : (download T net F b s).2 = .error e) :
    (e = .fetch → (fin (download T net F b) s).disk.get F = s.disk.get F) ∧
    (e = .alreadyHave → b = true ∧ (fin (download T net F b) s).disk.get F = s.disk.get F ∧
      ∃ c, s.disk.get F = some c ∧ AnnouncesHash net (T.sha c)) := by
  cases b with
  | false =>
    simp only [download, Bool.false_eq_true, if_false] at h ⊢
    rcases bind_error h with ⟨h1, h2⟩ | ⟨_, h1, h2, h3⟩
    · rw [h2]
      rcases fetchChecked_error h1 with rfl | ⟨rfl, h4⟩
      · simp
      · rw [h4]; simp
    · rcases decompress_error h2 with rfl | rfl <;> simp
  | true =>
    simp only [download, if_true] at h ⊢
    rcases bind_error h with ⟨h1, h2⟩ | ⟨_, h1, h2, h3⟩
    · rw [h2]
      obtain ⟨rfl, _, h4⟩ := fetch_error h1
      rw [h4]; simp
    · obtain ⟨a, ha, _, hf⟩ := fetch_ok h1
      rw [h3, fin_look]
      simp only [M.look] at h2
      rw [hf] at h2 ⊢
      have hF : (put (F ++ dotSha) a s).disk.get F = s.disk.get F := by rw [get_put_disk, if_neg (append_ne (by decide))]
      generalize hs : put (F ++ dotSha) a s = s1 at *
      have hl : firstLine ((s1.disk.get (F ++ dotSha)).getD []) = firstLine a := by rw [← hs, get_put_disk, if_pos rfl]; rfl
      rw [hl] at h2 ⊢
      by_cases hx : (s1.disk.get F).map T.sha = some (firstLine a)
      · rw [if_pos hx] at h2 ⊢
        cases h2
        refine ⟨by simp, fun _ => ⟨trivial, hF, ?_⟩⟩
        rw [hF] at hx
        cases hg : s.disk.get F with
        | none => rw [hg] at hx; cases hx
        | some c =>
          rw [hg] at hx
          simp only [Option.map_some, Option.some.injEq] at hx
          exact ⟨c, rfl, a, ha, by rw [hx]; exact announces_firstLine a⟩
      · rw [if_neg hx] at h2 ⊢
        rcases bind_error h2 with ⟨k1, k2⟩ | ⟨_, k1, k2, k3⟩
        · rw [k2]
          rcases fetchChecked_error k1 with rfl | ⟨rfl, h4⟩
          · simp
          · rw [h4]; simp [hF]
        · rcases decompress_error k2 with rfl | rfl <;> simp

theorem readUri_ok {T : Tools α} {net : Net} {F uri : Str} {b : Bool} {s : St α} {ix : α} (h : (readUri T net F uri b s).2 = .ok ix) :
    ∃ c, net.idx = some c ∧ IsIndex T F c ix ∧ (fin (readUri T net F uri b) s).disk.get F = some c ∧
      (b = false → AnnouncesHash net (T.sha c)) := by
  obtain ⟨_, h1, h2, h3⟩ := bind_ok h
  obtain ⟨n, h4, h5, h6⟩ := bind_ok h2
  obtain ⟨c, d, g1, g2, g3, g4, g5⟩ := download_ok h4
  simp only [M.look, g3, Option.bind_some] at h5
  cases hp : T.parse d with
  | none => rw [hp] at h5; cases h5
  | some i =>
    rw [hp] at h5
    simp only [M.ret, Except.ok.injEq] at h5
    subst h5
    refine ⟨c, g1, ⟨d, g2, hp⟩, ?_, fun hb => g5 (by rw [hb]; rfl)⟩
    rw [readUri, h3, h6, fin_look, g3]
    simp only [Option.bind_some, hp, fin_ret]
    exact g4

theorem readUri_error {T : Tools α} {net : Net} {F uri : Str} {b : Bool} {s : St α} {e : UErr} (h : (readUri T net F uri b s).2 = .error e)
    (hF : F ≠ uriFile) :
    (e = .fetch → (fin (readUri T net F uri b) s).disk.get F = s.disk.get F) ∧
    (e = .alreadyHave → b = false ∧ (fin (readUri T net F uri b) s).disk.get F = s.disk.get F ∧
      ∃ c, s.disk.get F = some c ∧ AnnouncesHash net (T.sha c)) := by
  rcases bind_error h with ⟨h1, h2⟩ | ⟨_, h1, h2, h3⟩
  · cases h1
  · rw [readUri, h3, fin_writeFile]
    rw [fin_writeFile] at h2
    have hg : (put uriFile uri s).disk.get F = s.disk.get F := by rw [get_put_disk, if_neg hF.symm]
    rcases bind_error h2 with ⟨k1, k2⟩ | ⟨n, k1, k2, k3⟩
    · rw [k2]
      obtain ⟨d1, d2⟩ := download_error k1
      rw [hg] at d1 d2
      refine ⟨d1, fun he => ?_⟩
      obtain ⟨e1, e2, e3⟩ := d2 he
      exact ⟨by simpa using e1, e2, e3⟩
    · simp only [M.look] at k2
      cases hp : ((fin (download T net F !b) (put uriFile uri s)).disk.get n).bind T.parse with
      | none => rw [hp] at k2; cases k2; simp
      | some i => rw [hp] at k2; cases k2

/-- `update_repo` after the first attempt to read. -/
theorem checkSignature_ok {T : Tools α} {net : Net} {F c : Str} {s : St α} {u : Unit} (hc : s.disk.get F = some c)
    (h : (checkSignature T net F s).2 = .ok u) : NotForged T net c ∧ (fin (checkSignature T net F) s).disk.get F = some c := by
  obtain ⟨got, h1, h2, h3⟩ := bind_ok h
  have hend : ∀ t, fin (checkSignature T net F) s = t → t.disk.get F = some c → (fin (checkSignature T net F) s).disk.get F = some c := by
    rintro t rfl ht; exact ht
  rcases catch_cases (M.bind (fetch (F ++ dotSig) net.sig) fun _ => M.ret true) (M.ret false) s .fetch with ⟨e1, e2⟩ | ⟨e1, e2, e3⟩
  · rw [e2] at h1
    obtain ⟨_, k1, k2, k3⟩ := bind_ok h1
    obtain ⟨g, hg, hgn, hgf⟩ := fetch_ok k1
    simp only [M.ret, Except.ok.injEq] at k2
    subst k2
    have hfin : fin (M.catch (M.bind (fetch (F ++ dotSig) net.sig) fun _ => M.ret true) .fetch (M.ret false)) s = put (F ++ dotSig) g s := by
      rw [fin, e2, ← fin, k3, fin_ret, hgf]
    rw [hfin] at h2 h3
    simp only [M.look, Bool.true_and] at h2
    have hF : (put (F ++ dotSig) g s).disk.get F = some c := by rw [get_put_disk, if_neg (append_ne (by decide)), hc]
    have hS : (put (F ++ dotSig) g s).disk.get (F ++ dotSig) = some g := by rw [get_put_disk, if_pos rfl]
    rw [hF, hS, Option.getD_some, Option.getD_some] at h2
    cases hv : T.verify c g with
    | false => rw [hv] at h2; cases h2
    | true =>
      refine ⟨Or.inr (Or.inr ⟨g, hg, hv⟩), hend _ h3 ?_⟩
      rw [fin_look, hF, hS, Option.getD_some, Option.getD_some, hv]
      exact hF
  · rcases bind_error e1 with ⟨k1, k2⟩ | ⟨_, _, k2, _⟩
    · obtain ⟨_, k3, k4⟩ := fetch_error k1
      refine ⟨?_, hend _ h3 ?_⟩
      · rcases k3 with k3 | k3
        · exact Or.inl k3
        · exact Or.inr (Or.inl k3)
      · rw [e2] at h1
        simp only [M.ret, Except.ok.injEq] at h1
        subst h1
        rw [e3, k2, k4, fin_look]
        exact hc
    · cases k2

/-! ## When the steps succeed -/

theorem bind_ok_of {x : M α β} {f : β → M α γ} {s : St α} {b : β} (h : (x s).2 = .ok b) : (M.bind x f s).2 = (f b (fin x s)).2 := by
  rw [bind_eq_ok h]

theorem bind_error_of {x : M α β} {f : β → M α γ} {s : St α} {e : UErr} (h : (x s).2 = .error e) : (M.bind x f s).2 = .error e := by
  rw [bind_eq_error h]

theorem fetch_some {n c : Str} {s : St α} (hc : c ≠ []) : (fetch n (some c) s).2 = .ok () ∧ fin (fetch n (some c)) s = put n c s := by
  cases c with
  | nil => exact absurd rfl hc
  | cons a c => exact ⟨rfl, rfl⟩

/-- The file name is one that can be unpacked. -/
def Unpackable (F : Str) : Prop := (IsBz2 F ∧ dropBz2 F ≠ []) ∨ (¬ IsBz2 F ∧ ¬ ∃ n, F = n ++ ".gz".toList)

theorem decompress_succeeds {T : Tools α} {F c d : Str} {s : St α} (hu : Unpackable F) (hc : s.disk.get F = some c) (hp : Plain T F c d) :
    ∃ n, (decompress T F s).2 = .ok n := by
  unfold decompress
  by_cases h1 : IsBz2 F
  · rw [if_pos ((isBz2_iff F).mpr h1)]
    have h2 : dropBz2 F ≠ [] := by
      rcases hu with h | h
      · exact h.2
      · exact absurd h1 h.1
    rw [if_neg h2]
    have h3 : T.bunzip c = some d := by
      rcases hp with h | h
      · exact h.2
      · exact absurd h1 h.1
    refine ⟨dropBz2 F, ?_⟩
    simp only [M.look, hc, Option.bind_some, h3]
    rw [bind_ok_of (b := ()) rfl]; rfl
  · rw [if_neg (fun h => h1 ((isBz2_iff F).mp h))]
    have h2 : ¬ Path.suffix dotGz F = true := by
      rw [Path.suffix_iff]
      rintro ⟨q, hq⟩
      rcases hu with h | h
      · exact h1 h.1
      · exact h.2 ⟨q, hq.symm⟩
    rw [if_neg h2]
    exact ⟨F, rfl⟩

theorem fetchChecked_succeeds {T : Tools α} {net : Net} {F c : Str} {o : Option Str} {s : St α} (hi : net.idx = some c) (hc : c ≠ [])
    (ho : ∀ x, o = some x → T.sha c = x) : (fetchChecked T net F o s).2 = .ok () := by
  unfold fetchChecked
  rw [hi, bind_ok_of (fetch_some hc).1, (fetch_some hc).2]
  simp only [M.look]
  cases o with
  | none => rfl
  | some x =>
    dsimp only
    rw [get_put_disk, if_pos rfl, Option.map_some, ho x rfl, if_pos rfl]; rfl

theorem plain_unique {T : Tools α} {F c d d' : Str} (h : Plain T F c d) (h' : Plain T F c d') : d = d' := by
  rcases h with ⟨h1, h2⟩ | ⟨h1, h2⟩ <;> rcases h' with ⟨h3, h4⟩ | ⟨h3, h4⟩
  · rw [h2] at h4; exact Option.some.inj h4
  · exact absurd h1 h3
  · exact absurd h3 h1
  · rw [h2, h4]

theorem isIndex_unique {T : Tools α} {F c : Str} {i j : α} (h : IsIndex T F c i) (h' : IsIndex T F c j) : i = j := by
  obtain ⟨d, h1, h2⟩ := h
  obtain ⟨d', h3, h4⟩ := h'
  rw [plain_unique h1 h3, h4] at h2
  exact (Option.some.inj h2).symm

theorem announces_unique {a h h' : Str} (h1 : Announces a h) (h2 : Announces a h') : h = h' := by
  have key : ∀ l l' r r' : Str, l ++ '\n' :: r = l' ++ '\n' :: r' → '\n' ∉ l → '\n' ∉ l' → l = l' := by
    intro l
    induction l with
    | nil =>
      intro l' r r' e _ h2
      cases l' with
      | nil => rfl
      | cons c l' =>
        simp only [List.nil_append, List.cons_append, List.cons.injEq] at e
        exact absurd (e.1 ▸ List.mem_cons_self) h2
    | cons c l ih =>
      intro l' r r' e h1 h2
      cases l' with
      | nil =>
        simp only [List.nil_append, List.cons_append, List.cons.injEq] at e
        exact absurd (e.1 ▸ List.mem_cons_self) h1
      | cons c' l' =>
        simp only [List.cons_append, List.cons.injEq] at e
        rw [e.1, ih l' r r' e.2 (fun h => h1 (List.mem_cons_of_mem _ h)) (fun h => h2 (List.mem_cons_of_mem _ h))]
  rcases h1 with ⟨a1, a2⟩ | ⟨l, r, a1, a2, a3⟩ <;> rcases h2 with ⟨b1, b2⟩ | ⟨l', r', b1, b2, b3⟩
  · rw [a2, b2]
  · exact absurd (by rw [b1]; simp) a1
  · exact absurd (by rw [a1]; simp) b1
  · rw [a3, b3, key l l' r r' (a1.symm.trans b1) a2 b2]

/-- Reading from a server whose files fit together: the index is read, or is there already. -/
theorem readUri_succeeds {T : Tools α} {net : Net} {F uri c : Str} {ix : α} {b : Bool} {s : St α} (hu : Unpackable F) (hi : net.idx = some c)
    (hc : c ≠ []) (hx : IsIndex T F c ix) (ha : AnnouncesHash net (T.sha c)) (hn : net.hash ≠ some []) :
    (∃ j, (readUri T net F uri b s).2 = .ok j) ∨ (b = false ∧ (readUri T net F uri b s).2 = .error .alreadyHave) := by
  obtain ⟨d, hp, hpp⟩ := hx
  have hdl : (∃ n, (download T net F (!b) (put uriFile uri s)).2 = .ok n) ∨ (b = false ∧ (download T net F (!b) (put uriFile uri s)).2 = .error .alreadyHave) := by
    cases b with
    | true =>
      left
      simp only [download, Bool.not_true, Bool.false_eq_true, if_false]
      have h1 := fetchChecked_succeeds (T := T) (F := F) (o := none) (s := put uriFile uri s) hi hc (by simp)
      rw [bind_ok_of h1]
      obtain ⟨c', hi', _, hf, _⟩ := fetchChecked_ok h1
      rw [hi, Option.some.injEq] at hi'
      subst hi'
      exact decompress_succeeds hu (by rw [hf, get_put_disk, if_pos rfl]) hp
    | false =>
      simp only [download, Bool.not_false, if_true]
      obtain ⟨a, ha1, ha2⟩ := ha
      have han : a ≠ [] := fun e => hn (by rw [ha1, e])
      rw [ha1, bind_ok_of (fetch_some han).1, (fetch_some han).2]
      simp only [M.look]
      generalize hs : put (F ++ dotSha) a (put uriFile uri s) = s1
      have hl : firstLine ((s1.disk.get (F ++ dotSha)).getD []) = firstLine a := by rw [← hs, get_put_disk, if_pos rfl]; rfl
      rw [hl]
      by_cases hy : (s1.disk.get F).map T.sha = some (firstLine a)
      · rw [if_pos hy]; exact Or.inr ⟨trivial, rfl⟩
      · rw [if_neg hy]
        left
        have h1 := fetchChecked_succeeds (T := T) (F := F) (o := some (firstLine a)) (s := s1) hi hc
          (by rintro x hx; rw [Option.some.injEq] at hx; rw [← hx]; exact announces_unique ha2 (announces_firstLine a))
        rw [bind_ok_of h1]
        obtain ⟨c', hi', _, hf, _⟩ := fetchChecked_ok h1
        rw [hi, Option.some.injEq] at hi'
        subst hi'
        exact decompress_succeeds hu (by rw [hf, get_put_disk, if_pos rfl]) hp
  unfold readUri
  rw [bind_ok_of (b := ()) rfl, fin_writeFile]
  rcases hdl with ⟨n, h⟩ | ⟨hb, h⟩
  · left
    rw [bind_ok_of h]
    obtain ⟨c', d', g1, g2, g3, _, _⟩ := download_ok h
    rw [hi, Option.some.injEq] at g1
    subst g1
    rw [plain_unique g2 hp] at g3
    refine ⟨ix, ?_⟩
    simp only [M.look, g3, Option.bind_some, hpp]; rfl
  · right
    exact ⟨hb, bind_error_of h⟩

theorem checkSignature_succeeds {T : Tools α} {net : Net} {F c : Str} {s : St α} (hc : s.disk.get F = some c) (h : NotForged T net c) :
    (checkSignature T net F s).2 = .ok () := by
  unfold checkSignature
  by_cases hn : net.sig = none ∨ net.sig = some []
  · have h1 : (fetch (F ++ dotSig) net.sig s).2 = .error .fetch ∧ (fetch (F ++ dotSig) net.sig s).1 = [] := by
      rcases hn with hn | hn <;> rw [hn] <;> exact ⟨rfl, rfl⟩
    have h2 : M.catch (M.bind (fetch (F ++ dotSig) net.sig) fun _ => M.ret true) .fetch (M.ret false) s = ([], .ok false) := by
      rw [catch_eq_caught (bind_error_of h1.1), bind_eq_error h1.1, h1.2]; rfl
    rw [bind_ok_of (b := false) (by rw [h2])]
    rfl
  · rcases h with h | h | ⟨g, hg, hv⟩
    · exact absurd (Or.inl h) hn
    · exact absurd (Or.inr h) hn
    · have hgn : g ≠ [] := fun e => hn (Or.inr (by rw [hg, e]))
      have h1 : (M.bind (fetch (F ++ dotSig) net.sig) (fun _ => (M.ret true : M α Bool)) s).2 = .ok true := by
        rw [hg, bind_ok_of (fetch_some hgn).1]; rfl
      have h2 : fin (M.bind (fetch (F ++ dotSig) net.sig) (fun _ => (M.ret true : M α Bool))) s = put (F ++ dotSig) g s := by
        obtain ⟨_, k1, _, k3⟩ := bind_ok h1
        rw [k3, fin_ret, hg, (fetch_some hgn).2]
      have h3 : (M.catch (M.bind (fetch (F ++ dotSig) net.sig) fun _ => M.ret true) .fetch (M.ret false) s).2 = .ok true := by
        rw [catch_eq_ok h1]; exact h1
      have h4 : fin (M.catch (M.bind (fetch (F ++ dotSig) net.sig) fun _ => M.ret true) .fetch (M.ret false)) s = put (F ++ dotSig) g s := by
        rw [fin, catch_eq_ok h1, ← fin, h2]
      rw [bind_ok_of h3, h4]
      simp only [M.look, Bool.true_and]
      rw [get_put_disk, if_neg (append_ne (by decide)), hc, get_put_disk, if_pos rfl, Option.getD_some, Option.getD_some, hv]
      rfl

end Pisi.Repo
