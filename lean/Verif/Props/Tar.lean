import Verif.Spec.Tar
import Verif.Props.UnpackSucceeds

/-!
# Installing the files of a package
-/
namespace Pisi.Tar
open Pisi.Path Pisi.PathSpec Pisi.Unpack Pisi.TarSpec

/-! ## Names -/

theorem lstrip_cons (p : Str) : lstripSlash ('/' :: p) = lstripSlash p := by simp [lstripSlash]

theorem join_install (path : Str) : joinPath installName [path] = installName ++ '/' :: lstripSlash path := by
  simp [joinPath, joinStep, installName]

theorem arcname_eq (path : Str) : arcname path = '/' :: lstripSlash path := by
  unfold arcname
  rw [join_install]
  simp [lstripChars, installName]

/-- C140: stripping the characters of `install` from `install/path` leaves the path, whatever it is. -/
theorem memberName_eq (path : Str) : memberName (arcname path) = lstripSlash path := by
  rw [arcname_eq]
  unfold memberName lstripSlash
  induction path with
  | nil => simp
  | cons c p ih =>
    by_cases h : c = '/'
    · subst h; simpa using ih
    · simp [h]

theorem memberName_segs (path : Str) : segs (memberName (arcname path)) = segs path := by
  rw [memberName_eq, segs_lstrip]

theorem lstrip_rel (path : Str) : isAbs (lstripSlash path) = false := by
  unfold isAbs lstripSlash
  induction path with
  | nil => rfl
  | cons c p ih =>
    by_cases h : c = '/'
    · subst h; simpa using ih
    · simp [h]

theorem norm_clean (abs : Bool) (ns acc : List Str) (h : CleanNames ns) : ns.foldl (normStep abs) acc = acc ++ ns := by
  induction ns generalizing acc with
  | nil => simp
  | cons c ns ih =>
    obtain ⟨h1, h2⟩ := h c (by simp)
    rw [List.foldl_cons, ih _ (fun x hx => h x (by simp [hx]))]
    simp [normStep, h1, h2]

theorem normNames_clean (name : Str) (h : CleanNames (segs name)) : normNames name = segs name := by
  unfold normNames
  rw [names_segs, norm_clean _ _ _ h]; simp

/-! ## One member -/

/-- What holds between the members: the places `D` are missing or directories, the places `F` are not directories. -/
theorem inv_makes' {T : Loc} {D F : List Str → Prop} {s s' : St} (hF0 : ∀ q, F q → q ≠ []) (hDF : ∀ q, F q → ¬ D q)
    (hD : ∀ q r, D q → r ≠ [] → r <+: q → D r)
    (h : Inv T D F s) {q : List Str} (hq : D q) (hm : Makes (T ++ q) s s') (ha : AllDirs s'.fs (T ++ q)) :
    Inv T D F s' := by
  refine ⟨allDirs_mono hm h.real, fun r c hr hs => ?_, fun r hr => ?_, fun r hr x hx => ?_⟩
  · rcases hm (T ++ (r ++ [c])) with e | ⟨hp, _, _⟩
    · rw [e] at hs
      obtain ⟨m, hd⟩ := h.tree r c hr hs
      rcases hm (T ++ r) with e' | ⟨_, e', _⟩
      · exact ⟨m, e'.trans hd⟩
      · rw [e'] at hd; cases hd
    · refine ha (T ++ r) (by simp [hr]) ?_
      exact (show T ++ r <+: T ++ (r ++ [c]) by
        rw [← List.append_assoc]; exact List.prefix_append _ _).trans hp
  · rcases hm (T ++ r) with e | ⟨_, _, e⟩
    · rw [e]; exact h.dirs r hr
    · exact .inr e
  · rcases hm (T ++ r) with e | ⟨hp, h0, _⟩
    · rw [e] at hx; exact h.files r hr x hx
    · exact hDF r hr (hD q r hq (hF0 r hr) ((List.prefix_append_right_inj T).1 hp))

section Steps
variable {T : Loc} {D F : List Str → Prop}

theorem allDirs_of_some {s : St} (h : Inv T D F s) {q : List Str} (hq : q = [] ∨ D q)
    (hsome : (s.fs (T ++ q)).isSome ∨ q = []) : AllDirs s.fs (T ++ q) := by
  by_cases e : q = []
  · subst e; simpa using h.real
  · have hsome : (s.fs (T ++ q)).isSome := hsome.resolve_right e
    have hq : D q := hq.resolve_left e
    have hup := tree_up h q hsome
    rcases List.eq_nil_or_concat q with e | ⟨r, c, e⟩
    · subst e; simpa using hup
    · rw [List.concat_eq_append] at e
      subst e
      rcases h.dirs _ hq with e | hdir
      · rw [e] at hsome; cases hsome
      · rw [List.dropLast_concat] at hup
        have := allDirs_snoc hup (c := c) (by simpa using hdir)
        simpa using this

/-- The paths on the way to a place `D` are plain. -/
theorem plain_of_inv {s : St} (hT : CleanNames T) (hD : ∀ q r, D q → r ≠ [] → r <+: q → D r)
    (hDc : ∀ q, D q → CleanNames q) (h : Inv T D F s) {q : List Str} (hq : q = [] ∨ D q) : Plain s.fs (T ++ q) := by
  refine ⟨fun c hc => ?_, fun r hr hp t ht => ?_⟩
  · rcases List.mem_append.1 hc with hc | hc
    · exact hT c hc
    · rcases hq with rfl | hq
      · cases hc
      · exact hDc q hq c hc
  · rcases prefix_append_cases hp with hp | ⟨r', rfl, hp⟩
    · obtain ⟨m, hm⟩ := h.real r hr hp
      rw [hm] at ht; cases ht
    · by_cases e : r' = []
      · subst e
        rw [List.append_nil] at ht hr
        obtain ⟨m, hm⟩ := h.real T hr (List.prefix_refl _)
        rw [hm] at ht; cases ht
      · rcases hq with rfl | hq
        · exact e (List.prefix_nil.1 ((List.prefix_append_right_inj T).1 (by simpa using hp)))
        · rcases h.dirs r' (hD q r' hq e ((List.prefix_append_right_inj T).1 hp)) with e | ⟨m, e⟩ <;> (rw [e] at ht; cases ht)

/-- The directories above a member. -/
theorem upper_succ {n : Nat} {q : List Str} {s : St} (hF0 : ∀ q, F q → q ≠ []) (hT : CleanNames T)
    (hD : ∀ q r, D q → r ≠ [] → r <+: q → D r) (hDc : ∀ q, D q → CleanNames q) (hDF : ∀ q, F q → ¬ D q)
    (hq : q = [] ∨ D q) (hn : (T ++ q).length < n) (h : Inv T D F s) :
    AllDirs (upperDirs n T q s).fs (T ++ q) ∧ Inv T D F (upperDirs n T q s) ∧ Makes (T ++ q) s (upperDirs n T q s) := by
  have hpl := plain_of_inv hT hD hDc h hq
  have hrefl : Makes (T ++ q) s s := fun l => .inl rfl
  unfold upperDirs
  by_cases e : q = []
  · subst e
    rw [if_neg (by simp)]
    exact ⟨by simpa using h.real, h, hrefl⟩
  · have hq' := hq.resolve_left e
    have hne : T ++ q ≠ [] := by simp [e]
    by_cases hx : (s.fs (T ++ q)).isSome
    · have ha := allDirs_of_some h hq (.inl hx)
      obtain ⟨m, hm⟩ := stat_all s.fs n (T ++ q) hne hpl.1 ha hn
      rw [if_neg (by simp [hm])]
      exact ⟨ha, h, hrefl⟩
    · have h0 : s.fs (T ++ q) = none := by simpa using hx
      have hst : (stat s.fs n (T ++ q)).isSome = false := by
        unfold stat
        cases hr : resolve s.fs n [] (T ++ q) with
        | none => rfl
        | some l =>
          have := resolve_root s.fs n _ hpl l hr
          subst this
          cases hTq : T ++ q with
          | nil => exact absurd hTq hne
          | cons a b => rw [hTq] at h0; simp only [h0]; rfl
      rw [if_pos ⟨e, hst⟩]
      obtain ⟨s', h1, h2, h3, _⟩ := makedirs_succ n 493 q T s e hpl.1 h.real (fun r hr hp => h.dirs r (hD q r hq' hr hp)) h0 hn
      rw [h1]
      exact ⟨h2, inv_makes' hF0 hDF hD h hq' h3 h2, h3⟩

/-- Removing what is in the way: only the place of the member is changed, and afterwards nothing or a directory is there. -/
theorem clear_succ {n : Nat} {q : List Str} {c : Str} {s : St} (hT : CleanNames T)
    (hD : ∀ q r, D q → r ≠ [] → r <+: q → D r) (hDc : ∀ q, D q → CleanNames q)
    (hq : q = [] ∨ D q) (hc : c ≠ dot ∧ c ≠ dotdot) (hn : (T ++ (q ++ [c])).length < n) (h : Inv T D F s) :
    Inv T D F (clearOld n (T ++ (q ++ [c])) s).1 ∧
    (∀ l, l ≠ T ++ (q ++ [c]) → (clearOld n (T ++ (q ++ [c])) s).1.fs l = s.fs l) ∧
    (((clearOld n (T ++ (q ++ [c])) s).1.fs (T ++ (q ++ [c])) = none) ∨
      ∃ x, (clearOld n (T ++ (q ++ [c])) s).1.fs (T ++ (q ++ [c])) = some (.dir x)) := by
  have hpl := plain_of_inv hT hD hDc h hq
  have hass : T ++ (q ++ [c]) = T ++ q ++ [c] := by simp
  have hcl : CleanNames (T ++ q ++ [c]) := by
    intro d hd
    rcases List.mem_append.1 hd with hd | hd
    · exact hpl.1 d hd
    · rw [List.mem_singleton.1 hd]; exact hc
  have hn' : (T ++ q).length + 1 < n := by simpa [Nat.add_assoc] using hn
  have hne : q ++ [c] ≠ [] := by simp
  -- the result is one of two
  have hres : (clearOld n (T ++ (q ++ [c])) s).1 = s ∨
      (clearOld n (T ++ (q ++ [c])) s).1 = s.set (T ++ (q ++ [c])) none := by
    unfold clearOld
    split
    · cases hp : place s.fs n (T ++ (q ++ [c])) with
      | none => exact .inl rfl
      | some l =>
        have := place_plain s.fs n (T ++ (q ++ [c])) (by rw [hass, List.dropLast_concat]; exact hpl) l hp
        subst this
        exact .inr rfl
    · exact .inl rfl
  cases hx : s.fs (T ++ (q ++ [c])) with
  | none =>
    rcases hres with e | e <;> rw [e]
    · exact ⟨h, fun l _ => rfl, .inl hx⟩
    · refine ⟨inv_none h hne (by rw [hx]; intro x hx; cases hx), fun l hl => by simp [St.set, hl], .inl (by simp [St.set])⟩
  | some x =>
    have hup := tree_up h (q ++ [c]) (by rw [hx]; rfl)
    rw [List.dropLast_concat] at hup
    have hpla := place_all s.fs n (T ++ q) c hcl hup (by omega)
    rw [← hass] at hpla
    have gone : (∀ y, x ≠ .dir y) → (isFile s.fs n (T ++ (q ++ [c])) = true ∨ isLink s.fs n (T ++ (q ++ [c])) = true) →
        Inv T D F (clearOld n (T ++ (q ++ [c])) s).1 ∧
        (∀ l, l ≠ T ++ (q ++ [c]) → (clearOld n (T ++ (q ++ [c])) s).1.fs l = s.fs l) ∧
        (((clearOld n (T ++ (q ++ [c])) s).1.fs (T ++ (q ++ [c])) = none) ∨
          ∃ x, (clearOld n (T ++ (q ++ [c])) s).1.fs (T ++ (q ++ [c])) = some (.dir x)) := by
      intro hnd hcond
      have e : (clearOld n (T ++ (q ++ [c])) s).1 = s.set (T ++ (q ++ [c])) none := by
        unfold clearOld
        rw [if_pos hcond, hpla]
      rw [e]
      refine ⟨inv_none h hne (by rw [hx]; intro y hy; exact hnd y (Option.some.inj hy)), fun l hl => by simp [St.set, hl],
        .inl (by simp [St.set])⟩
    cases x with
    | dir y =>
      have hst := stat_snoc s.fs n (T ++ q) c hcl hup hn' (by intro t ht; rw [← hass, hx] at ht; cases ht)
      have e : (clearOld n (T ++ (q ++ [c])) s).1 = s := by
        unfold clearOld
        rw [if_neg]
        rintro (hf | hl)
        · unfold isFile at hf
          rw [hass, hst, ← hass, hx] at hf; cases hf
        · unfold isLink at hl
          rw [hpla] at hl
          simp only [hx] at hl; cases hl
      rw [e]
      exact ⟨h, fun l _ => rfl, .inr ⟨y, hx⟩⟩
    | link t =>
      refine gone (by intro y hy; cases hy) (.inr ?_)
      unfold isLink
      rw [hpla]
      simp only [hx]
    | file a b =>
      refine gone (by intro y hy; cases hy) (.inl ?_)
      have hst := stat_snoc s.fs n (T ++ q) c hcl hup hn' (by
        intro t ht; rw [← hass, hx] at ht; cases ht)
      unfold isFile
      rw [hass, hst, ← hass, hx]

/-- Putting a directory where nothing or a directory is. -/
theorem inv_dir {s : St} (h : Inv T D F s) {q : List Str} {c : Str} (m : Nat) (hF : ¬ F (q ++ [c])) (hd : ¬ D (q ++ [c]))
    (ha : AllDirs s.fs (T ++ q)) : Inv T D F (s.set (T ++ (q ++ [c])) (some (.dir m))) := by
  refine ⟨fun r hr hp => ?_, fun r d hr hs => ?_, fun r hr => ?_, fun r hr y hy => ?_⟩
  · have : r ≠ T ++ (q ++ [c]) := by
      rintro rfl
      have := hp.length_le
      simp at this; omega
    simp only [St.set, if_neg this]
    exact h.real r hr hp
  · simp only [St.set] at hs ⊢
    by_cases e2 : T ++ r = T ++ (q ++ [c])
    · rw [if_pos e2]; exact ⟨m, rfl⟩
    · rw [if_neg e2]
      by_cases e : T ++ (r ++ [d]) = T ++ (q ++ [c])
      · have hrq : r = q := by
          have := congrArg List.dropLast (List.append_cancel_left e)
          simpa using this
        subst hrq
        exact ha (T ++ r) (by simp [hr]) (List.prefix_refl _)
      · rw [if_neg e] at hs
        exact h.tree r d hr hs
  · simp only [St.set]
    split
    · exact .inr ⟨m, rfl⟩
    · exact h.dirs r hr
  · simp only [St.set] at hy
    split at hy
    · rename_i e
      exact hF (List.append_cancel_left e ▸ hr)
    · exact h.files r hr y hy

theorem resolveNew_dirs (fs : Files) (n : Nat) (cur cs rest : List Str) (hc : CleanNames cs)
    (hd : ∀ r, r ≠ [] → r <+: cs → ∃ m, fs (cur ++ r) = some (.dir m)) :
    resolveNew fs (cs.length + n) cur (cs ++ rest) = resolveNew fs n (cur ++ cs) rest := by
  induction cs generalizing cur with
  | nil => simp
  | cons c cs ih =>
    obtain ⟨m, hm⟩ := hd [c] (by simp) (by simp)
    obtain ⟨h1, h2⟩ := hc c (by simp)
    have e : (c :: cs).length + n = (cs.length + n) + 1 := by simp; omega
    rw [e, List.cons_append]
    simp only [resolveNew, if_neg h1, if_neg h2, hm]
    rw [ih (cur ++ [c]) (fun x hx => hc x (by simp [hx])) (fun r hr hp => by
      have := hd (c :: r) (by simp) (by simpa using hp)
      simpa using this)]
    simp

theorem resolveNew_all (fs : Files) (n : Nat) (q : List Str) (c : Str) (hc : CleanNames (q ++ [c])) (hd : AllDirs fs q)
    (hn : q.length + 1 < n) (h0 : fs (q ++ [c]) = none) : resolveNew fs n [] (q ++ [c]) = some (q ++ [c]) := by
  obtain ⟨k, rfl⟩ : ∃ k, n = q.length + (k + 1 + 1) := ⟨n - q.length - 2, by omega⟩
  obtain ⟨h1, h2⟩ := hc c (by simp)
  rw [resolveNew_dirs fs _ [] q [c] (fun x hx => hc x (by simp [hx])) (by simpa [AllDirs] using hd)]
  simp [resolveNew, h1, h2, h0]

theorem resolve_snoc (fs : Files) (n : Nat) (q : List Str) (c : Str) (hc : CleanNames (q ++ [c])) (hd : AllDirs fs q)
    (hn : q.length + 1 < n) (x : Node) (hx : fs (q ++ [c]) = some x) (hl : ∀ t, x ≠ .link t) :
    resolve fs n [] (q ++ [c]) = some (q ++ [c]) := by
  obtain ⟨k, rfl⟩ : ∃ k, n = q.length + (k + 1 + 1) := ⟨n - q.length - 2, by omega⟩
  obtain ⟨h1, h2⟩ := hc c (by simp)
  rw [resolve_all fs _ q [c] (fun y hy => hc y (by simp [hy])) hd]
  cases x with
  | link t => exact absurd rfl (hl t)
  | dir m => simp [resolve, h1, h2, hx]
  | file a b => simp [resolve, h1, h2, hx]

/-- What a member becomes; hard links look at what is there. -/
def Becomes (T : Loc) (s : St) (k : Kind) (x : Node) : Prop := match k with
  | .file c m => x = .file c m
  | .dir m => x = .dir m
  | .sym t => x = .link t
  | .hard first m => ∃ c, x = .file c m ∧ s.fs (T ++ segs first) = some (.file c m)

/-- A change of the place `p` and of missing directories on the way to it. -/
def Changes (T : Loc) (q : List Str) (c : Str) (s s' : St) : Prop := ∀ l, l ≠ T ++ (q ++ [c]) →
  s'.fs l = s.fs l ∨ (l <+: T ++ q ∧ s.fs l = none ∧ ∃ m, s'.fs l = some (.dir m))

/-- A member of the archive of a package. -/
theorem extract_succ {n : Nat} {q : List Str} {c : Str} {m : TarMember} {s : St} {x : Node} (hF0 : ∀ q, F q → q ≠ [])
    (hT : CleanNames T) (hD : ∀ q r, D q → r ≠ [] → r <+: q → D r) (hDc : ∀ q, D q → CleanNames q)
    (hDF : ∀ q, F q → ¬ D q) (hq : q = [] ∨ D q) (hc : c ≠ dot ∧ c ≠ dotdot) (hd : ¬ D (q ++ [c]))
    (hrel : isAbs m.name = false) (hname : segs m.name = q ++ [c])
    (hF : (∃ y, x = .dir y) ↔ ¬ F (q ++ [c])) (hn : (T ++ (q ++ [c])).length < n) (h : Inv T D F s)
    (hx : Becomes T s m.kind x)
    (hhard : ∀ first mode, m.kind = .hard first mode → isAbs first = false ∧
      CleanNames (segs first) ∧ segs first ≠ q ++ [c] ∧ segs first ≠ [] ∧ (T ++ segs first).length < n) :
    Inv T D F (extractOne true n T m s) ∧ (extractOne true n T m s).fs (T ++ (q ++ [c])) = some x ∧
    Changes T q c s (extractOne true n T m s) := by
  have hqc : CleanNames (q ++ [c]) := by
    intro d hdd
    rcases List.mem_append.1 hdd with hdd | hdd
    · rcases hq with rfl | hq
      · cases hdd
      · exact hDc q hq d hdd
    · rw [List.mem_singleton.1 hdd]; exact hc
  have hass : T ++ (q ++ [c]) = T ++ q ++ [c] := by simp
  have hcl : CleanNames (T ++ q ++ [c]) := by
    rw [← hass]
    intro d hdd
    rcases List.mem_append.1 hdd with hdd | hdd
    · exact hT d hdd
    · exact hqc d hdd
  have hn' : (T ++ q).length + 1 < n := by simpa [Nat.add_assoc] using hn
  have hof : ofile T m.name = T ++ (q ++ [c]) := by simp [ofile, hrel, names_segs, hname]
  have hnorm : normNames m.name = q ++ [c] := by rw [normNames_clean _ (hname ▸ hqc), hname]
  obtain ⟨i1, k1, c1⟩ := clear_succ (c := c) hT hD hDc hq hc hn h
  generalize hs1 : (clearOld n (T ++ (q ++ [c])) s).1 = s1 at i1 k1 c1
  obtain ⟨a2, i2, m2⟩ := upper_succ (n := n) hF0 hT hD hDc hDF hq (by omega) i1
  generalize hs2 : upperDirs n T q s1 = s2 at a2 i2 m2
  have hpnot : ¬ T ++ (q ++ [c]) <+: T ++ q := by
    intro hp
    have := hp.length_le
    simp at this; omega
  have c2 : s2.fs (T ++ (q ++ [c])) = s1.fs (T ++ (q ++ [c])) := by
    rcases m2 (T ++ (q ++ [c])) with e | ⟨hp, _, _⟩
    · exact e
    · exact absurd hp hpnot
  have k2 : ∀ l, l ≠ T ++ (q ++ [c]) → s2.fs l = s.fs l ∨ (l <+: T ++ q ∧ s.fs l = none ∧ ∃ m, s2.fs l = some (.dir m)) := by
    intro l hl
    rcases m2 l with e | ⟨x1, x2, x3⟩
    · exact .inl (e.trans (k1 l hl))
    · exact .inr ⟨x1, (k1 l hl) ▸ x2, x3⟩
  have hpl2 := place_all s2.fs n (T ++ q) c hcl a2 (by omega)
  rw [← hass] at hpl2
  have hmem : extractOne true n T m s = (match m.kind with
      | .file c' mode => makeFile n (T ++ (q ++ [c])) c' mode s2
      | .dir mode => makeDir n (T ++ (q ++ [c])) mode s2
      | .sym t => symlink n (T ++ (q ++ [c])) t s2
      | .hard first mode => andThen (hardLink n (ofile T first) (T ++ (q ++ [c])) s2) (chmod n (T ++ (q ++ [c])) mode)).1 := by
    unfold extractOne extractMember
    simp only [if_true, hof, hs1, hnorm, base, hrel, Bool.false_eq_true, if_false, List.dropLast_concat, hs2]
    rfl
  -- the final step sets the place
  have fin : ∀ s3 : St, (extractOne true n T m s) = s3.set (T ++ (q ++ [c])) (some x) → Inv T D F s3 →
      AllDirs s3.fs (T ++ q) → (∀ l, l ≠ T ++ (q ++ [c]) → s3.fs l = s2.fs l) →
      ((∀ y, x ≠ .dir y) → s3.fs (T ++ (q ++ [c])) = none) →
      Inv T D F (extractOne true n T m s) ∧ (extractOne true n T m s).fs (T ++ (q ++ [c])) = some x ∧
      Changes T q c s (extractOne true n T m s) := by
    intro s3 he i3 a3 k3 h0
    rw [he]
    refine ⟨?_, by simp [St.set], fun l hl => ?_⟩
    · by_cases hy : ∃ y, x = .dir y
      · have hnf := hF.1 hy
        obtain ⟨y, rfl⟩ := hy
        exact inv_dir i3 y hnf hd a3
      · have hy' : ∀ y, x ≠ .dir y := fun y e => hy ⟨y, e⟩
        exact inv_put i3 hy' hd a3 (h0 hy')
    · simp only [St.set, if_neg hl]
      rw [k3 l hl]
      exact k2 l hl
  have hnone : (∀ y, x ≠ .dir y) → s2.fs (T ++ (q ++ [c])) = none := by
    intro hy
    have hf : F (q ++ [c]) := by
      apply Classical.byContradiction
      intro hnf
      obtain ⟨y, e⟩ := hF.2 hnf
      exact hy y e
    rw [c2]
    rcases c1 with e | ⟨y, e⟩
    · exact e
    · exact absurd e (i1.files _ hf y)
  cases hk : m.kind with
  | file c' mode =>
    rw [hk] at hx hmem
    have hx : x = .file c' mode := hx
    have h0 := hnone (by rw [hx]; intro y e; cases e)
    refine fin s2 ?_ i2 a2 (fun l _ => rfl) hnone
    rw [hmem]
    have hr := resolveNew_all s2.fs n (T ++ q) c hcl a2 hn' (by rw [← hass]; exact h0)
    rw [← hass] at hr
    simp only [makeFile, hr, h0, hx]
  | sym t =>
    rw [hk] at hx hmem
    have hx : x = .link t := hx
    have h0 := hnone (by rw [hx]; intro y e; cases e)
    refine fin s2 ?_ i2 a2 (fun l _ => rfl) hnone
    rw [hmem]
    simp [symlink, hpl2, h0, hx]
  | dir mode =>
    rw [hk] at hx hmem
    have hx : x = .dir mode := hx
    have hnf : ¬ F (q ++ [c]) := hF.1 ⟨mode, hx⟩
    rw [← c2] at c1
    -- the state before `chmod`
    have hch : ∀ s3 : St, AllDirs s3.fs (T ++ q) → (∃ y, s3.fs (T ++ (q ++ [c])) = some (.dir y)) →
        (chmod n (T ++ (q ++ [c])) mode s3).1 = s3.set (T ++ (q ++ [c])) (some x) := by
      intro s3 a3 ⟨y, hy⟩
      have hr := resolve_snoc s3.fs n (T ++ q) c hcl a3 hn' (.dir y) (by rw [← hass]; exact hy) (by intro t e; cases e)
      rw [← hass] at hr
      simp only [chmod, hr, hy, hx]
    rcases c1 with e | ⟨y, e⟩
    · have a3 : AllDirs (s2.set (T ++ (q ++ [c])) (some (.dir 493))).fs (T ++ q) := by
        intro r hr hp
        have : r ≠ T ++ (q ++ [c]) := fun e' => hpnot (e' ▸ hp)
        simp only [St.set, if_neg this]
        exact a2 r hr hp
      refine fin (s2.set (T ++ (q ++ [c])) (some (.dir 493))) ?_ (inv_dir i2 493 hnf hd a2) a3 (fun l hl => by simp [St.set, hl])
        (fun hy => absurd hx (hy mode))
      rw [hmem]
      simp only [makeDir, hpl2, e, Option.isSome_none, Bool.false_eq_true, if_false]
      exact hch _ a3 ⟨493, by simp [St.set]⟩
    · refine fin s2 ?_ i2 a2 (fun l _ => rfl) hnone
      rw [hmem]
      simp only [makeDir, hpl2, e, Option.isSome_some, if_true]
      exact hch s2 a2 ⟨y, e⟩
  | hard first mode =>
    rw [hk] at hx hmem
    obtain ⟨c', hx, hfirst⟩ : ∃ c', x = .file c' mode ∧ s.fs (T ++ segs first) = some (.file c' mode) := hx
    have h0 := hnone (by rw [hx]; intro y e; cases e)
    obtain ⟨f1, f3, f4, f5, f6⟩ := hhard first mode hk
    have hfne : T ++ segs first ≠ T ++ (q ++ [c]) := fun e => f4 (List.append_cancel_left e)
    have hf2 : s2.fs (T ++ segs first) = some (.file c' mode) := by
      rcases k2 _ hfne with e | ⟨_, e, _⟩
      · exact e.trans hfirst
      · rw [hfirst] at e; cases e
    have hup := tree_up i2 (segs first) (by rw [hf2]; rfl)
    obtain ⟨fq, fc, hfs⟩ : ∃ fq fc, segs first = fq ++ [fc] := by
      rcases List.eq_nil_or_concat (segs first) with e | ⟨a, b, e⟩
      · exact absurd e f5
      · exact ⟨a, b, by rw [e, List.concat_eq_append]⟩
    rw [hfs, List.dropLast_concat] at hup
    have hfcl : CleanNames (T ++ fq ++ [fc]) := by
      intro d hdd
      rw [List.append_assoc, ← hfs] at hdd
      rcases List.mem_append.1 hdd with hdd | hdd
      · exact hT d hdd
      · exact f3 d hdd
    have hplf := place_all s2.fs n (T ++ fq) fc hfcl hup (by rw [hfs] at f6; simp at f6 ⊢; omega)
    rw [List.append_assoc, ← hfs] at hplf
    have hoff : ofile T first = T ++ segs first := by simp [ofile, f1, names_segs]
    have hhl : hardLink n (ofile T first) (T ++ (q ++ [c])) s2 = (s2.set (T ++ (q ++ [c])) (some (.file c' mode)), true) := by
      simp [hardLink, hoff, hplf, hf2, hpl2, h0]
    have a3 : AllDirs (s2.set (T ++ (q ++ [c])) (some (.file c' mode))).fs (T ++ q) := by
      intro r hr hp
      have : r ≠ T ++ (q ++ [c]) := fun e' => hpnot (e' ▸ hp)
      simp only [St.set, if_neg this]
      exact a2 r hr hp
    have hset : ∀ y, ((s2.set (T ++ (q ++ [c])) (some y)).set (T ++ (q ++ [c])) (some y)).fs =
        (s2.set (T ++ (q ++ [c])) (some y)).fs := by
      intro y; funext l; simp only [St.set]; split <;> rfl
    have hr := resolve_snoc (s2.set (T ++ (q ++ [c])) (some (.file c' mode))).fs n (T ++ q) c hcl a3 hn' (.file c' mode)
      (by rw [← hass]; simp [St.set]) (by intro t e; cases e)
    rw [← hass] at hr
    have hex : extractOne true n T m s =
        (s2.set (T ++ (q ++ [c])) (some (.file c' mode))).set (T ++ (q ++ [c])) (some (.file c' mode)) := by
      rw [hmem]
      simp only [hhl, andThen, if_true, chmod, hr]
      simp [St.set]
    have i3 := inv_put i2 (x := .file c' mode) (by intro y e; cases e) hd a2 h0
    rw [hex, hx]
    refine ⟨⟨fun r hr hp => ?_, fun r d hr hs => ?_, fun r hr => ?_, fun r hr y hy => ?_⟩, by simp [St.set], fun l hl => ?_⟩
    · rw [hset]; exact i3.real r hr hp
    · rw [hset] at hs ⊢; exact i3.tree r d hr hs
    · rw [hset]; exact i3.dirs r hr
    · rw [hset] at hy; exact i3.files r hr y hy
    · rw [hset]
      simp only [St.set, if_neg hl]
      exact k2 l hl

end Steps

/-! ## The whole package -/

section Whole
variable {built : Files} {ino : Loc → Nat} {I T : Loc} {paths : List Str}

/-- The places of files and links. -/
def FilePlace (built : Files) (I : Loc) (paths : List Str) (q : List Str) : Prop :=
  ∃ p ∈ paths, q = segs p ∧ ¬ ∃ m, built (I ++ segs p) = some (.dir m)

/-- The inodes remembered while packing. -/
def SeenOk (ino : Loc → Nat) (I : Loc) (done : List Str) (seen : List (Nat × Str)) : Prop :=
  ∀ i name, (i, name) ∈ seen → ∃ p ∈ done, name = memberName (arcname p) ∧ i = ino (I ++ segs p)

theorem lookup_mem {β : Type} (k : Nat) (l : List (Nat × β)) (v : β) (h : l.lookup k = some v) : (k, v) ∈ l := by
  induction l with
  | nil => cases h
  | cons a l ih =>
    obtain ⟨a1, a2⟩ := a
    rw [List.lookup_cons] at h
    by_cases e : k == a1
    · rw [e] at h
      have := eq_of_beq e
      subst this
      cases h
      exact List.mem_cons_self ..
    · rw [Bool.not_eq_true] at e
      rw [e] at h
      exact List.mem_cons_of_mem _ (ih h)

theorem addTar_spec {done : List Str} {seen : List (Nat × Str)} {p : Str} (hb : Built built ino I paths)
    (hp : p ∈ paths) (hdone : ∀ q ∈ done, q ∈ paths) (hs : SeenOk ino I done seen) :
    ∃ seen' m x, addTar built ino I seen p = some (seen', m) ∧ SeenOk ino I (done ++ [p]) seen' ∧
      m.name = memberName (arcname p) ∧ built (I ++ segs p) = some x ∧
      (match m.kind with
        | .file c k => x = .file c k
        | .dir k => x = .dir k
        | .sym t => x = .link t
        | .hard first k => ∃ c q, x = .file c k ∧ q ∈ done ∧ first = memberName (arcname q) ∧ first ≠ memberName (arcname p) ∧
            built (I ++ segs q) = some (.file c k)) := by
  have grow : SeenOk ino I (done ++ [p]) seen := by
    intro i name h
    obtain ⟨q, hq, e⟩ := hs i name h
    exact ⟨q, by simp [hq], e⟩
  obtain ⟨x, hx⟩ := Option.isSome_iff_exists.1 (hb.there p hp)
  unfold addTar
  simp only [names_segs, hx]
  cases x with
  | dir m => exact ⟨seen, _, _, rfl, grow, rfl, rfl, rfl⟩
  | link t => exact ⟨seen, _, _, rfl, grow, rfl, rfl, rfl⟩
  | file c m =>
    simp only
    cases hl : seen.lookup (ino (I ++ segs p)) with
    | none =>
      refine ⟨_, _, _, rfl, ?_, rfl, rfl, rfl⟩
      intro i name h
      rcases List.mem_append.1 h with h | h
      · exact grow i name h
      · obtain ⟨rfl, rfl⟩ := Prod.mk.inj (List.mem_singleton.1 h)
        exact ⟨p, by simp, rfl, rfl⟩
    | some first =>
      simp only
      by_cases e : first = memberName (arcname p)
      · rw [if_pos e]
        exact ⟨_, _, _, rfl, grow, rfl, rfl, rfl⟩
      · rw [if_neg e]
        obtain ⟨q, hq, e1, e2⟩ := hs _ _ (lookup_mem _ _ _ hl)
        refine ⟨_, _, _, rfl, grow, rfl, rfl, c, q, rfl, hq, e1, e, ?_⟩
        rw [← hb.inode p hp q (hdone q hq) e2]
        exact hx

theorem onlyPaths_trans {a b c : Files} (h1 : OnlyPaths T paths a b) (h2 : OnlyPaths T paths b c) :
    OnlyPaths T paths a c := by
  intro l hl0 hl
  rcases h1 l hl0 hl with e1 | ⟨x1, ⟨m, x2⟩, x3⟩
  · rcases h2 l hl0 hl with e2 | ⟨y1, y2, y3⟩
    · exact .inl (e2.trans e1)
    · exact .inr ⟨e1 ▸ y1, y2, y3⟩
  · rcases h2 l hl0 hl with e2 | ⟨y1, y2, y3⟩
    · exact .inr ⟨x1, ⟨m, e2.trans x2⟩, x3⟩
    · rw [x2] at y1; cases y1

theorem install_all (n : Nat) (hb : Built built ino I paths) (hT : CleanNames T)
    (hn : ∀ p ∈ paths, T.length + (segs p).length < n) (ps : List Str) :
    ∀ (done : List Str) (seen : List (Nat × Str)) (s : St), done ++ ps = paths → SeenOk ino I done seen →
    Inv T (Above paths) (FilePlace built I paths) s → (∀ p ∈ done, s.fs (T ++ segs p) = built (I ++ segs p)) →
    ∃ ms, packTar built ino I seen ps = some ms ∧
      Inv T (Above paths) (FilePlace built I paths) (unpackTar true n T ms s) ∧
      (∀ p ∈ paths, (unpackTar true n T ms s).fs (T ++ segs p) = built (I ++ segs p)) ∧
      OnlyPaths T paths s.fs (unpackTar true n T ms s).fs := by
  have hD : ∀ q r, Above paths q → r ≠ [] → r <+: q → Above paths r := by
    rintro q r ⟨_, p, hp, hqp, hne⟩ hr hrq
    refine ⟨hr, p, hp, hrq.trans hqp, fun e => hne ?_⟩
    subst e
    exact hqp.eq_of_length_le hrq.length_le
  have hclean : ∀ p ∈ paths, CleanNames (segs p) := fun p hp c hc =>
    ⟨fun e => (hb.clean p hp).1.2.1 (e ▸ hc), fun e => (hb.clean p hp).1.2.2 (e ▸ hc)⟩
  have hDc : ∀ q, Above paths q → CleanNames q := by
    rintro q ⟨_, p, hp, hqp, _⟩ c hc
    exact hclean p hp c (hqp.subset hc)
  have hnot : ∀ p ∈ paths, ¬ Above paths (segs p) := by
    rintro p hp ⟨_, p', hp', hpp, hne⟩
    exact hne (hb.apart p hp p' hp' hpp)
  have hDF : ∀ q, FilePlace built I paths q → ¬ Above paths q := by
    rintro q ⟨p, hp, rfl, _⟩
    exact hnot p hp
  have hF0 : ∀ q, FilePlace built I paths q → q ≠ [] := by
    rintro q ⟨p, hp, rfl, _⟩
    exact (hb.clean p hp).2
  induction ps with
  | nil =>
    intro done seen s hpaths _ h hdone
    rw [List.append_nil] at hpaths
    subst hpaths
    exact ⟨[], rfl, h, hdone, fun l _ _ => .inl rfl⟩
  | cons p ps ih =>
    intro done seen s hpaths hseen h hdone
    have hp : p ∈ paths := by rw [← hpaths]; simp
    have hdp : ∀ q ∈ done, q ∈ paths := fun q hq => by rw [← hpaths]; simp [hq]
    obtain ⟨seen', m, x, e1, hseen', hname, hx, hkind⟩ := addTar_spec hb hp hdp hseen
    obtain ⟨q, c, hqc⟩ : ∃ q c, segs p = q ++ [c] := by
      rcases List.eq_nil_or_concat (segs p) with e | ⟨a, b, e⟩
      · exact absurd e (hb.clean p hp).2
      · exact ⟨a, b, by rw [e, List.concat_eq_append]⟩
    have hq : q = [] ∨ Above paths q := by
      by_cases e : q = []
      · exact .inl e
      · refine .inr ⟨e, p, hp, by rw [hqc]; exact List.prefix_append _ _, fun e' => ?_⟩
        have := congrArg List.length (e'.trans hqc)
        simp at this
    have hsegs : segs m.name = q ++ [c] := by rw [hname, memberName_segs, hqc]
    have hF : (∃ y, x = Node.dir y) ↔ ¬ FilePlace built I paths (q ++ [c]) := by
      constructor
      · rintro ⟨y, rfl⟩ ⟨p', hp', e, hnd⟩
        rw [← e, ← hqc] at hnd
        exact hnd ⟨y, hx⟩
      · intro hnf
        apply Classical.byContradiction
        intro hnd
        refine hnf ⟨p, hp, hqc.symm, ?_⟩
        rintro ⟨y, hy⟩
        rw [hx] at hy
        exact hnd ⟨y, Option.some.inj hy⟩
    have hlen : (T ++ (q ++ [c])).length < n := by
      have := hn p hp
      rw [hqc] at this
      simpa using this
    have hpd : ∀ r ∈ done, segs r ≠ segs p := by
      intro r hr
      rw [← hpaths] at hb
      exact (List.pairwise_append.1 hb.distinct).2.2 r hr p (by simp)
    obtain ⟨i1, x1, k1⟩ := extract_succ (n := n) (m := m) (x := x) hF0 hT hD hDc hDF hq
      (hclean p hp c (by rw [hqc]; simp)) (hqc ▸ hnot p hp) (by rw [hname, memberName_eq]; exact lstrip_rel p) hsegs hF hlen h
      (by
        cases hk : m.kind with
        | file c' k => rw [hk] at hkind; exact hkind
        | dir k => rw [hk] at hkind; exact hkind
        | sym t => rw [hk] at hkind; exact hkind
        | hard first k =>
          rw [hk] at hkind
          obtain ⟨c', r, e, hr, hf, _, hbr⟩ := hkind
          refine ⟨c', e, ?_⟩
          rw [hf, memberName_segs, hdone r hr, hbr])
      (by
        intro first k hk
        rw [hk] at hkind
        obtain ⟨c', r, _, hr, hf, _, _⟩ := hkind
        have hrp := hdp r hr
        rw [hf, memberName_segs]
        refine ⟨by rw [memberName_eq]; exact lstrip_rel r, hclean r hrp, ?_, (hb.clean r hrp).2, ?_⟩
        · rw [← hqc]; exact hpd r hr
        · have := hn r hrp
          simpa using this)
    rw [← hqc] at x1
    -- what the step leaves alone
    have keep : ∀ l, l ≠ T ++ segs p → (extractOne true n T m s).fs l = s.fs l ∨
        (l <+: T ++ q ∧ s.fs l = none ∧ ∃ m', (extractOne true n T m s).fs l = some (.dir m')) := by
      intro l hl
      rw [hqc] at hl
      exact k1 l hl
    obtain ⟨ms, e2, i2, d2, o2⟩ := ih (done ++ [p]) seen' (extractOne true n T m s) (by simp [← hpaths]) hseen' i1 (by
      intro r hr
      rcases List.mem_append.1 hr with hr | hr
      · have hne : T ++ segs r ≠ T ++ segs p := fun e => hpd r hr (List.append_cancel_left e)
        rcases keep _ hne with e | ⟨_, e, _⟩
        · rw [e]; exact hdone r hr
        · have := hb.there r (hdp r hr)
          rw [← hdone r hr, e] at this
          cases this
      · rw [List.mem_singleton.1 hr, x1, hx])
    refine ⟨m :: ms, by simp [packTar, e1, e2], i2, d2, onlyPaths_trans ?_ o2⟩
    intro l hl0 hl
    rcases keep l (hl p hp) with e | ⟨y1, y2, y3⟩
    · exact .inl e
    · refine .inr ⟨y2, y3, ?_⟩
      rcases prefix_append_cases y1 with hp' | ⟨r, rfl, hr⟩
      · exfalso
        obtain ⟨m', hm'⟩ := h.real l hl0 hp'
        rw [hm'] at y2; cases y2
      · by_cases e : r = []
        · subst e
          rw [List.append_nil] at y2 hl0
          obtain ⟨m', hm'⟩ := h.real T hl0 (List.prefix_refl _)
          rw [hm'] at y2; cases y2
        · rcases hq with hq | hq
          · subst hq
            exact absurd (List.prefix_nil.1 ((List.prefix_append_right_inj T).1 (by simpa using y1))) e
          · exact ⟨r, hD q r hq e hr, rfl⟩

end Whole

theorem rstripChars_append (chars a b : Str) (h : ∀ c ∈ b, c ∈ chars) : rstripChars chars (a ++ b) = rstripChars chars a := by
  unfold rstripChars Path.rstrip
  rw [List.reverse_append]
  congr 1
  have h' : ∀ c ∈ b.reverse, c ∈ chars := fun c hc => h c (List.mem_reverse.1 hc)
  generalize b.reverse = r at h'
  induction r with
  | nil => rfl
  | cons c r ih =>
    rw [List.cons_append, List.dropWhile_cons_of_pos (by simp [h' c (by simp)])]
    exact ih (fun c hc => h' c (by simp [hc]))

theorem rstripChars_last (chars a : Str) (c : Char) (h : c ∉ chars) : rstripChars chars (a ++ [c]) = a ++ [c] := by
  simp [rstripChars, Path.rstrip, h]

/-- C140: the archive of a package is recognised as such, wherever the temporary directory is. -/
theorem install_recognised (tmp : Str) : isInstallTar tmp (Pack.osJoin tmp installTarLzma) = true := by
  have key : ∀ x : Str, withoutSuffix (x ++ installTarLzma) = x ++ installTar := by
    intro x
    unfold withoutSuffix installTarLzma
    rw [← List.append_assoc, rstripChars_append _ _ _ (fun c hc => hc)]
    have e : x ++ installTar = (x ++ ['i', 'n', 's', 't', 'a', 'l', 'l', '.', 't', 'a']) ++ ['r'] := by simp [installTar]
    rw [e, rstripChars_last _ _ _ (by decide)]
  unfold isInstallTar
  rw [decide_eq_true_eq]
  have h0 : installTarLzma.head? ≠ some '/' := by decide
  have h1 : lstripSlash installTar = installTar := by decide
  unfold Pack.osJoin joinPath joinStep
  simp only [List.foldl_cons, List.foldl_nil, if_neg h0, h1]
  by_cases h : tmp = [] ∨ tmp.getLast? = some '/'
  · rw [if_pos h, if_pos h]; exact key tmp
  · rw [if_neg h, if_neg h]
    have := key (tmp ++ ['/'])
    simpa using this

/-- C140, full statement: after installing a package every path of it has what was built, whatever was there before, and
nothing else is changed. -/
def InstallFull : Prop := ∀ (n : Nat) (tmp : Str) (built : Files) (ino : Loc → Nat) (I T : Loc) (paths : List Str) (fs : Files)
  (ms : List TarMember), Built built ino I paths → Ready fs T paths → (∀ p ∈ paths, T.length + (segs p).length < n) →
  packTar built ino I [] paths = some ms →
  InPlace built I (extractInstall n tmp T ms ⟨fs, []⟩).fs T paths ∧ OnlyPaths T paths fs (extractInstall n tmp T ms ⟨fs, []⟩).fs

/-- C140 if no directory is where the package has a file or a link: the package can be built, and after installing it every
path has what was built: content, mode and target; nothing else is changed but missing directories above. -/
theorem install_partial (n : Nat) (tmp : Str) (built : Files) (ino : Loc → Nat) (I T : Loc) (paths : List Str) (fs : Files)
    (hb : Built built ino I paths) (hr : Ready fs T paths) (hw : NoDirInTheWay built I fs T paths)
    (hn : ∀ p ∈ paths, T.length + (segs p).length < n) :
    ∃ ms, packTar built ino I [] paths = some ms ∧ InPlace built I (extractInstall n tmp T ms ⟨fs, []⟩).fs T paths ∧
      OnlyPaths T paths fs (extractInstall n tmp T ms ⟨fs, []⟩).fs := by
  obtain ⟨ms, h1, _, h3, h4⟩ := install_all n hb (fun c hc => ⟨(hr.real.2.1 c hc).1, (hr.real.2.1 c hc).2.1⟩) hn paths [] [] ⟨fs, []⟩
    rfl (fun _ _ h => by cases h) ⟨hr.real.1, hr.tree, hr.above, by
      rintro q ⟨p, hp, rfl, hnd⟩ x hx
      exact hnd (hw p hp ⟨x, hx⟩)⟩ (fun p hp => by cases hp)
  refine ⟨ms, h1, ?_, ?_⟩
  · unfold extractInstall
    rw [install_recognised]
    exact h3
  · unfold extractInstall
    rw [install_recognised]
    exact h4

/-- C140: so does every later installation of the package, over whatever happened to its files, as long as they were not
replaced by directories. -/
theorem install_again (n : Nat) (tmp : Str) (built : Files) (ino : Loc → Nat) (I T : Loc) (paths : List Str) (fs : Files)
    (ms : List TarMember) (hb : Built built ino I paths) (hr : Ready fs T paths) (hw : NoDirInTheWay built I fs T paths)
    (hn : ∀ p ∈ paths, T.length + (segs p).length < n) (hp : packTar built ino I [] paths = some ms) :
    InPlace built I (extractInstall n tmp T ms ⟨fs, []⟩).fs T paths := by
  obtain ⟨ms', h1, h2, _⟩ := install_partial n tmp built ino I T paths fs hb hr hw hn
  rw [hp] at h1
  cases h1
  exact h2

/-! A package with a file of two names, a link and an empty directory, in the build directory `/b`. -/

def demoBuilt : Files := fun l => if l = [['b'], ['u'], ['f']] ∨ l = [['b'], ['g']] then some (.file ['x'] 0o4755)
  else if l = [['b'], ['u'], ['l']] then some (.link ['f']) else if l = [['b'], ['e']] then some (.dir 0o1777) else none

/-- The two names of the file have one inode. -/
def demoIno : Loc → Nat := fun l => if l = [['b'], ['u'], ['f']] ∨ l = [['b'], ['g']] then 1 else l.length + (l.flatten.map Char.toNat).sum + 2

def demoPaths : List Str := [['u', '/', 'f'], ['u', '/', 'l'], ['e'], ['g']]

theorem demo_built : Built demoBuilt demoIno [['b']] demoPaths := by
  refine ⟨?_, by decide +kernel, by decide +kernel, by decide +kernel, by decide +kernel⟩
  intro p hp
  refine ⟨⟨?_, ?_, ?_⟩, ?_⟩
  · rw [← isAbs_iff]
    revert p; decide +kernel
  all_goals (revert p; decide +kernel)

/-- A system whose root has a link at `/u/f`, to be replaced by the file, and other files. -/
def demoRoot : Files := fun l => if l = [['u']] then some (.dir 0o755) else if l = [['u'], ['f']] then some (.link ['o'])
  else if l = [['u'], ['o']] then some (.file ['o'] 0o644) else none

theorem demo_ready : Ready demoRoot [] demoPaths := by
  refine ⟨⟨fun q hq hp => absurd (List.prefix_nil.1 hp) hq, by simp, by simp⟩, ?_, ?_, by intro t h; cases h⟩
  · intro q c hq hs
    rw [List.nil_append] at hs ⊢
    by_cases h1 : q = [['u']]
    · subst h1; exact ⟨_, rfl⟩
    · exfalso
      rcases q with _ | ⟨a, q⟩
      · exact hq rfl
      · have h2 : a :: q ++ [c] ≠ [['u'], ['f']] := by
          intro e
          rcases q with _ | ⟨b, q⟩
          · simp at e; exact h1 (by rw [e.1])
          · simp at e
        have h3 : a :: q ++ [c] ≠ [['u'], ['o']] := by
          intro e
          rcases q with _ | ⟨b, q⟩
          · simp at e; exact h1 (by rw [e.1])
          · simp at e
        have h4 : a :: q ++ [c] ≠ [['u']] := by
          intro e
          simp at e
        unfold demoRoot at hs
        rw [if_neg h4, if_neg h2, if_neg h3] at hs
        cases hs
  · rintro q ⟨hq, p, hp, hqp, hne⟩
    rw [List.nil_append]
    have key : ∀ p ∈ demoPaths, (segs p).length ≤ 2 ∧
        ∀ k ∈ List.range 3, (segs p).take k ≠ [] → (segs p).take k ≠ segs p → (segs p).take k = [['u']] := by decide +kernel
    have e := List.prefix_iff_eq_take.1 hqp
    have hlen := hqp.length_le
    have := (key p hp).2 q.length (List.mem_range.2 (by have := (key p hp).1; omega)) (e ▸ hq) (e ▸ hne)
    rw [← e] at this
    subst this
    exact .inr ⟨_, rfl⟩

example : Built demoBuilt demoIno [['b']] demoPaths ∧ Ready demoRoot [] demoPaths ∧
    NoDirInTheWay demoBuilt [['b']] demoRoot [] demoPaths ∧ (∀ p ∈ demoPaths, ([] : Loc).length + (segs p).length < 9) ∧
    packTar demoBuilt demoIno [['b']] [] demoPaths = some [⟨['u', '/', 'f'], .file ['x'] 0o4755⟩, ⟨['u', '/', 'l'], .sym ['f']⟩,
      ⟨['e'], .dir 0o1777⟩, ⟨['g'], .hard ['u', '/', 'f'] 0o4755⟩] := by
  refine ⟨demo_built, demo_ready, ?_, by decide +kernel, by decide +kernel⟩
  intro p hp ⟨m, hm⟩
  exfalso
  have key : ∀ p ∈ demoPaths, demoRoot ([] ++ segs p) = none ∨ demoRoot ([] ++ segs p) = some (.link ['o']) := by decide +kernel
  rcases key p hp with h | h <;> (rw [h] at hm; cases hm)

/-- C140 is false of the code: where a file or link of the new package takes the place of a directory, it is not installed;
`TarFile.extract` keeps the error to itself. -/
theorem install_refuted : ¬ InstallFull := by
  intro h
  have := (h 9 [] (fun l => if l = [['b'], ['l']] then some (.link ['x']) else none) (fun _ => 0) [['b']] [] [['l']]
    (fun l => if l = [['l']] then some (.dir 493) else none) [⟨['l'], .sym ['x']⟩]
    ⟨by
      intro p hp
      rw [List.mem_singleton.1 hp]
      exact ⟨⟨by rw [← isAbs_iff]; decide, by decide, by decide⟩, by decide⟩, by decide, by decide, by decide, by decide⟩
    ⟨⟨fun q hq hp => absurd (List.prefix_nil.1 hp) hq, by simp, by simp⟩, by
      intro q c hq hs
      have : q ++ [c] ≠ [['l']] := by
        intro e
        rcases q with _ | ⟨a, q⟩
        · exact hq rfl
        · simp at e
      simp [this] at hs, by
      rintro q ⟨hq, p, hp, hqp, hne⟩
      rw [List.mem_singleton.1 hp] at hqp hne
      have e : segs ['l'] = [['l']] := by decide
      rw [e] at hqp hne
      rcases q with _ | ⟨a, q⟩
      · exact absurd rfl hq
      · obtain ⟨rfl, hq'⟩ := List.cons_prefix_cons.1 hqp
        rw [List.prefix_nil.1 hq'] at hne
        exact absurd rfl hne, by intro t; simp⟩
    (by decide) (by decide)).1 ['l'] (by simp)
  revert this
  decide +kernel

/-- `..` leads to the directory above, from wherever the path has got to. -/
theorem resolveNew_up (fs : Files) (n : Nat) (q : List Str) (a c : Str) (hc : CleanNames (q ++ [a] ++ [c]))
    (hd : AllDirs fs (q ++ [a])) (hn : q.length + 3 < n) (h0 : fs (q ++ [c]) = none) :
    resolveNew fs n [] (q ++ [a] ++ [dotdot, c]) = some (q ++ [c]) := by
  obtain ⟨k, rfl⟩ : ∃ k, n = (q ++ [a]).length + (k + 1 + 1 + 1) := ⟨n - (q ++ [a]).length - 3, by simp; omega⟩
  obtain ⟨h1, h2⟩ : c ≠ dot ∧ c ≠ dotdot := by
    have := hc c (by simp)
    exact this
  rw [resolveNew_dirs fs _ [] (q ++ [a]) [dotdot, c] (fun x hx => hc x (by simp only [List.mem_append] at hx ⊢; exact Or.inl hx))
    (by simpa [AllDirs] using hd)]
  have hdd : dotdot ≠ dot := by decide
  simp [resolveNew, hdd, h1, h2, h0]

end Pisi.Tar
