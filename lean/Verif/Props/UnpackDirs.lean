import Verif.Props.Unpack

/-!
# The directories of an archive after unpacking (C71)
-/
namespace Pisi.Unpack
open Pisi.PathSpec

theorem mkdir_made {T : Loc} {L : List Str → Prop} {f0 : Files} (hT : ∀ c ∈ T, c ≠ dot ∧ c ≠ dotdot) (n : Nat)
    (p : List Str) (mode : Nat) (s : St) (h : Ok T L f0 s) (hp : OnPath T L p) (hok : (mkdir n p mode s).2 = true) :
    (mkdir n p mode s).1.fs p = some (.dir mode) ∧ s.fs p = none := by
  unfold mkdir at hok ⊢
  cases hl : place s.fs n p with
  | none => rw [hl] at hok; cases hok
  | some l =>
    rw [hl] at hok
    simp only at hok ⊢
    have e := place_plain _ _ _ (onPath_plain h hT hp) _ hl
    subst e
    by_cases hs : (s.fs l).isSome = true
    · rw [if_pos hs] at hok; cases hok
    · rw [if_neg hs]
      refine ⟨by simp [St.set], ?_⟩
      cases hx : s.fs l with
      | none => rfl
      | some y => rw [hx] at hs; exact absurd rfl hs

/-- When `makedirs` succeeds the directory is there with the mode that was asked for, and nothing was there before. -/
theorem makedirs_made {T : Loc} {L : List Str → Prop} {f0 : Files} (hT : ∀ c ∈ T, c ≠ dot ∧ c ≠ dotdot) (n : Nat)
    (cs done : List Str) (mode : Nat) (s : St) (h : Ok T L f0 s) (hp : OnPath T L (done ++ cs))
    (hok : (makedirs n done cs mode s).2 = true) :
    (makedirs n done cs mode s).1.fs (done ++ cs) = some (.dir mode) ∧ s.fs (done ++ cs) = none := by
  induction cs generalizing done s with
  | nil => unfold makedirs at hok; cases hok
  | cons c cs ih =>
    cases cs with
    | nil =>
      unfold makedirs at hok ⊢
      exact mkdir_made hT n _ mode s h hp hok
    | cons d ds =>
      have e : done ++ c :: d :: ds = (done ++ [c]) ++ d :: ds := by simp
      rw [e] at hp ⊢
      have hpre : OnPath T L (done ++ [c]) := onPath_prefix hp (List.prefix_append _ _)
      unfold makedirs at hok ⊢
      by_cases hs : (stat s.fs n (done ++ [c])).isSome = true
      · rw [if_pos hs] at hok ⊢
        exact ih _ s h hp hok
      · rw [if_neg hs] at hok ⊢
        have h1 := mkdir_ok hT n (done ++ [c]) 493 s h hpre
        have h2 := mkdir_made hT n (done ++ [c]) 493 s h hpre
        rcases hm : mkdir n (done ++ [c]) 493 s with ⟨s', b⟩
        rw [hm] at hok h1 h2
        cases b with
        | false => exact absurd hok (by simp)
        | true =>
          have h3 := ih _ s' h1.1 hp hok
          refine ⟨h3.1, ?_⟩
          cases hx : s.fs (done ++ [c] ++ d :: ds) with
          | none => rfl
          | some y =>
            have := h1.2 _ _ hx id
            rw [h3.2] at this; cases this

/-- After a member that is a directory there is a directory at its place: the one that was there, with its mode, or a new
one with the mode of the archive. -/
theorem dirMember_made {T : Loc} {L : List Str → Prop} {f0 : Files} (hT : RealDir f0 T) (n : Nat) (ns : List Str)
    (hne : ns ≠ []) (hf : Free L ns) (m : Member) (s : St) (h : Ok T L f0 s)
    (hok : (unpackDirMember n (T ++ ns) m s).2 = true) :
    ∃ x, (unpackDirMember n (T ++ ns) m s).1.fs (T ++ ns) = some (.dir x) ∧
      (s.fs (T ++ ns) = some (.dir x) ∨ s.fs (T ++ ns) = none ∧ x = dirPerm m.attr) := by
  have hT' : ∀ c ∈ T, c ≠ dot ∧ c ≠ dotdot := fun c hc => ⟨(hT.2.1 c hc).1, (hT.2.1 c hc).2.1⟩
  unfold unpackDirMember at hok ⊢
  by_cases hd : isDir s.fs n (T ++ ns) = true
  · rw [if_pos hd]
    unfold isDir stat at hd
    cases hr : resolve s.fs n [] (T ++ ns) with
    | none => rw [hr] at hd; cases hd
    | some l =>
      have e := resolve_root _ _ _ (ok_plain h hT' hf) _ hr
      rw [hr, e] at hd
      have hne' : T ++ ns ≠ [] := by simp [hne]
      revert hd hne'
      generalize T ++ ns = w
      intro hd hw
      cases w with
      | nil => exact absurd rfl hw
      | cons a b =>
        simp only at hd
        cases hx : s.fs (a :: b) with
        | none => rw [hx] at hd; cases hd
        | some y =>
          rw [hx] at hd
          cases y with
          | dir x => exact ⟨x, rfl, Or.inl rfl⟩
          | file _ _ => cases hd
          | link _ => cases hd
  · rw [if_neg hd] at hok ⊢
    have := makedirs_made hT' n (T ++ ns) [] (dirPerm m.attr) s h
      (Or.inr ⟨ns, hne, rfl, free_prefix (List.dropLast_prefix _) hf⟩) hok
    exact ⟨_, this.1, Or.inr ⟨this.2, rfl⟩⟩

theorem cond_dirs {T : Loc} {L : List Str → Prop} {f0 : Files} (hT : RealDir f0 T) (n : Nat) (ms : List Member)
    (hms : ∀ m ∈ ms, Fine (fun _ => true) [] L m) (s : St) (h : Ok T L f0 s)
    (hok : (unpackCond n (fun _ => true) [] T ms s).2 = true) (m : Member) (hm : m ∈ ms) (hd : m.isDir = true)
    (hne : segs m.name ≠ []) (hf : Free L (segs m.name))
    (hoff : ∀ k ∈ ms, k.isDir = false → segs k.name ≠ segs m.name ∧ (k.attr = symmagic → ¬ segs k.name <+: segs m.name)) :
    ∃ x, (unpackCond n (fun _ => true) [] T ms s).1.fs (T ++ segs m.name) = some (.dir x) ∧
      (ms.head? = some m → s.fs (T ++ segs m.name) = none → x = dirPerm m.attr) := by
  induction ms generalizing s with
  | nil => cases hm
  | cons a ms ih =>
    have h1 := member_ok hT n (fun _ => true) [] a (hms a (List.mem_cons_self ..)) s h
    unfold unpackCond andThen at hok ⊢
    by_cases b : (unpackMember n (fun _ => true) [] T a s).2 = true
    · rw [if_pos b] at hok ⊢
      by_cases e : a = m
      · subst e
        have ha := (hms a (List.mem_cons_self ..)).rel a.name rfl rfl
        have eo : ofile T a.name = T ++ segs a.name := by simp [ofile, ha.1, names_segs]
        have eu : unpackMember n (fun _ => true) [] T a s = unpackDirMember n (T ++ segs a.name) a s := by
          unfold unpackMember
          simp [outpath, hd, eo]
        have hmade := dirMember_made hT n _ hne hf a s h (eu ▸ b)
        obtain ⟨x, hx, hx'⟩ := hmade
        refine ⟨x, cond_keeps hT n _ [] ms (fun k hk => hms k (List.mem_cons_of_mem _ hk)) _ h1.1 _ _ (by rw [eu]; exact hx) ?_,
          fun _ hno => ?_⟩
        · rintro ⟨k, hk, ok, _, hok', dk, ht⟩
          simp only [outpath, if_true, Option.some.injEq] at hok'
          subst hok'
          rw [names_segs] at ht
          obtain ⟨o1, o2⟩ := hoff k (List.mem_cons_of_mem _ hk) dk
          rcases ht with ht | ⟨hs, ht⟩
          · exact o1 (List.append_cancel_left ht).symm
          · exact o2 hs ((List.prefix_append_right_inj _).1 ht)
        · rcases hx' with hx' | hx'
          · rw [hno] at hx'; cases hx'
          · exact hx'.2
      · obtain ⟨x, hx, _⟩ := ih (fun k hk => hms k (List.mem_cons_of_mem _ hk)) _ h1.1 hok
          ((List.mem_cons.1 hm).resolve_left (fun e' => e e'.symm)) (fun k hk => hoff k (List.mem_cons_of_mem _ hk))
        exact ⟨x, hx, fun he => absurd (by simpa using he) e⟩
    · rw [if_neg b] at hok; exact absurd hok b

/-- C71 for the directories: after successful unpacking there is a directory at the place of every member that is one, if no
link was there and no file or link of the archive has the same path.  The first member's directory, when it was not there
before, has the mode of the archive; the others may have been made on the way to a file, with the usual mode. -/
theorem unpack_dirs (n : Nat) (T : Loc) (fs : Files) (ms : List Member) (hT : RealDir fs T) (hn : LinksAside fs T [] ms)
    (hc : ∀ m ∈ ms, CleanName m.name ∧ (m.isDir = false → segs m.name ≠ [])) (hb : NoneBelowLinks ms)
    (hd : ∀ m ∈ ms, m.isDir = true → ∀ k ∈ ms, k.isDir = false → segs k.name ≠ segs m.name)
    (hok : (unpackAll n T ms ⟨fs, []⟩).2 = true) (m : Member) (hm : m ∈ ms) (hf : m.isDir = true) (hne : segs m.name ≠ [])
    (hl : ∀ t, fs (T ++ segs m.name) ≠ some (.link t)) :
    ∃ x, (unpackAll n T ms ⟨fs, []⟩).1.fs (T ++ segs m.name) = some (.dir x) ∧
      (ms.head? = some m → fs (T ++ segs m.name) = none → x = dirPerm m.attr) := by
  have hfine := fine_of_clean fs T (fun _ => true) [] ms
    (fun m hm out _ ho => by simp only [outpath, if_true, Option.some.injEq] at ho; subst ho; exact hc m hm)
    (fun m hm k hk om ok _ _ hom hok hl => by
      simp only [outpath, if_true, Option.some.injEq] at hom hok
      subst hom; subst hok
      exact hb m hm k hk hl)
    (fun q t hq m hm out _ ho hpre => by
      simp only [outpath, if_true, Option.some.injEq] at ho
      subst ho
      exact hn q t hq m hm hpre)
  have hno : ∀ k ∈ ms, k.isDir = false → k.attr = symmagic → ¬ segs k.name <+: segs m.name :=
    fun k hk dk ak hp => hd m hm hf k hk dk (hb m hm k hk ⟨dk, ak⟩ hp)
  refine cond_dirs hT n ms hfine ⟨fs, []⟩ (ok_init T fs hT _ _ _) hok m hm hf hne
    ⟨fun c hx => ⟨fun e => (hc m hm).1.2.1 (e ▸ hx), fun e => (hc m hm).1.2.2 (e ▸ hx)⟩, ?_⟩
    (fun k hk dk => ⟨hd m hm hf k hk dk, hno k hk dk⟩)
  intro q hq hp hL
  rcases hL with hL | ⟨t, ht⟩
  · obtain ⟨k, hk, _, dk, ak, ok, hok', rfl⟩ := (mem_linkPlaces _ _ ms q).1 hL
    simp only [outpath, if_true, Option.some.injEq] at hok'
    subst hok'
    rw [names_segs] at hp
    exact hno k hk dk ak hp
  · have e : q = segs m.name := hn q t ht m hm hp
    exact hl t (e ▸ ht)

/-- A directory and a file in it: the directory comes out with the mode of the archive. -/
example :
    let ms : List Member := [⟨['d', '/'], 0o40700 <<< 16, []⟩, ⟨['d', '/', 'f'], 0o104755 <<< 16, ['x']⟩]
    (∀ m ∈ ms, m.isDir = true → ∀ k ∈ ms, k.isDir = false → segs k.name ≠ segs m.name) ∧
    (unpackAll 9 [['t']] ms ⟨demo, []⟩).2 = true ∧
    (unpackAll 9 [['t']] ms ⟨demo, []⟩).1.fs [['t'], ['d']] = some (.dir (dirPerm (0o40700 <<< 16))) := by
  intro ms
  exact ⟨by decide, by decide +kernel, by decide +kernel⟩

/-- C71: members that are not asked for, or are not below the root that is given, make no difference, wherever they are in the
archive. -/
theorem unpack_skips (n : Nat) (pred : Str → Bool) (root : Str) (T : Loc) (ms : List Member) (s : St) :
    unpackCond n pred root T ms s =
      unpackCond n pred root T (ms.filter fun m => pred m.name && (root = [] || Path.subpath root m.name)) s := by
  induction ms generalizing s with
  | nil => rfl
  | cons m ms ih =>
    by_cases h : (pred m.name && (root = [] || Path.subpath root m.name)) = true
    · rw [List.filter_cons, if_pos h, unpackCond, unpackCond, show unpackCond n pred root T ms = _ from funext ih]
    · rw [List.filter_cons, if_neg h, unpackCond, ← ih s]
      have e : unpackMember n pred root T m s = (s, true) := by
        unfold unpackMember
        by_cases hp : pred m.name = true
        · simp only [hp, Bool.true_and, Bool.or_eq_true, decide_eq_true_eq, not_or, Bool.not_eq_true] at h
          have ho : outpath root m.name = none := by simp [outpath, h.1, h.2]
          rw [if_pos hp, ho]
        · rw [if_neg hp]
      rw [e]
      rfl

/-- A member elsewhere is left out, and the one below the root is unpacked. -/
example :
    let ms : List Member := [⟨['x', '/', 'f'], 0o100644 <<< 16, ['n']⟩, ⟨['r', '/', 'f'], 0o100644 <<< 16, ['y']⟩]
    (ms.filter fun m => (fun _ => true) m.name && (['r'] = [] || Path.subpath ['r'] m.name)).length = 1 ∧
    (unpackCond 9 (fun _ => true) ['r'] [['t']] ms ⟨demo, []⟩).2 = true ∧
    ((unpackCond 9 (fun _ => true) ['r'] [['t']] ms ⟨demo, []⟩).1.fs [['t'], ['f']]).isSome = true := by
  intro ms
  exact ⟨by decide, by decide +kernel, by decide +kernel⟩

end Pisi.Unpack
