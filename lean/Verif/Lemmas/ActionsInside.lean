import Verif.Lemmas.Actions

/-! # Calls of actions scripts stay in the install directory -/
namespace Pisi.Act
open Pisi.Path (joinPath joinStep lstripSlash)

/-- No links, proper names, the way to the install directory is there, nothing outside it has changed. -/
structure Inv (l : Loc) (fs0 fs : FS) : Prop where
  free : LinkFree fs
  tidy : Tidy fs
  way : Reached fs l
  frame : SameOutside l fs0 fs

def Pres (l : Loc) (fs0 : FS) (a : Act) : Prop := ∀ fs, Inv l fs0 fs → Inv l fs0 (a fs).1

variable {l : Loc} {fs0 : FS}

theorem pres_skip : Pres l fs0 skip := fun _ h => h
theorem pres_fail (x : Err) : Pres l fs0 (fail x) := fun _ h => h

theorem pres_seq {a b : Act} (ha : Pres l fs0 a) (hb : Pres l fs0 b) : Pres l fs0 (seq a b) := by
  intro fs h
  have := ha fs h
  unfold seq
  cases hr : a fs with
  | mk fs' r =>
    rw [hr] at this
    cases r with
    | ok _ => exact hb _ this
    | error x => exact this

theorem pres_each {α : Type} {f : α → Act} {xs : List α} (h : ∀ x ∈ xs, Pres l fs0 (f x)) : Pres l fs0 (each f xs) := by
  induction xs with
  | nil => exact pres_skip
  | cons x xs ih =>
    exact pres_seq (h x List.mem_cons_self) (ih fun y hy => h y (List.mem_cons_of_mem _ hy))

theorem pres_catching {p : Err → Bool} {a b : Act} (ha : Pres l fs0 a) (hb : Pres l fs0 b) : Pres l fs0 (catching p a b) := by
  intro fs h
  have := ha fs h
  unfold catching
  cases hr : a fs with
  | mk fs' r =>
    rw [hr] at this
    cases r with
    | ok _ => exact this
    | error x =>
      dsimp only
      split
      · exact hb _ this
      · exact this

theorem pres_call {f : FS → Except Err FS} (h : ∀ fs fs', Inv l fs0 fs → f fs = .ok fs' → Inv l fs0 fs') :
    Pres l fs0 (call f) := by
  intro fs hi
  unfold call
  cases hf : f fs with
  | ok fs' => exact h fs fs' hi hf
  | error _ => exact hi

/-- A path into the install directory. -/
def Good (l : Loc) (cs : List Str) : Prop := (∀ c ∈ cs, Proper c) ∧ l <+: cs

theorem Good.noup {cs : List Str} (h : Good l cs) : dotdot ∉ cs := fun hm => (h.1 _ hm).2.2.1 rfl

theorem Good.append {cs ds : List Str} (h : Good l cs) (hd : ∀ c ∈ ds, Proper c) : Good l (cs ++ ds) :=
  ⟨fun c hc => (List.mem_append.mp hc).elim (h.1 c) (hd c), h.2.trans (List.prefix_append _ _)⟩

theorem way_of_frame {fs fs' : FS} (hw : Reached fs l) (hf : SameOutside l fs fs') : Reached fs' l := by
  intro q hq hne
  rw [hf q, hw q hq hne]
  intro h
  exact hne (List.IsPrefix.eq_of_length hq (Nat.le_antisymm hq.length_le h.length_le))

theorem SameOutside.trans {a b c : FS} (h : SameOutside l a b) (h' : SameOutside l b c) : SameOutside l a c :=
  fun p hp => (h' p hp).trans (h p hp)

/-- Steps that change nothing outside keep the invariant. -/
theorem Inv.step {fs fs' : FS} (h : Inv l fs0 fs) (hf : LinkFree fs') (ht : Tidy fs') (ho : SameOutside l fs fs') :
    Inv l fs0 fs' :=
  ⟨hf, ht, way_of_frame h.way ho, h.frame.trans ho⟩

theorem put_inv {fs : FS} {p : Loc} {n : Node} (h : Inv l fs0 fs) (hp : Good l p) (hn : ∀ t, n ≠ .link t) :
    Inv l fs0 (fs.put p n) := by
  refine h.step ?_ ?_ ?_
  · intro x hx t
    rcases List.mem_cons.mp hx with rfl | hx
    · exact hn t
    · exact h.free x (List.mem_filter.mp hx).1 t
  · intro x hx
    rcases List.mem_cons.mp hx with rfl | hx
    · exact hp.1
    · exact h.tidy x (List.mem_filter.mp hx).1
  · intro q hq
    unfold look
    split
    · rfl
    · rw [Dict.get_put, if_neg]
      rintro rfl; exact hq hp.2

theorem get_filter {fs : FS} {q : Loc} (P : Loc × Node → Bool) (h : ∀ n, P (q, n) = true) : Dict.get (fs.filter P) q = fs.get q := by
  induction fs with
  | nil => rfl
  | cons x xs ih =>
    obtain ⟨k, v⟩ := x
    rw [List.filter_cons]
    split
    · simp only [Dict.get, ih]
    · rename_i hn
      rw [ih]
      have : k ≠ q := by rintro rfl; exact hn (h v)
      simp [Dict.get, this]

theorem filter_inv {fs : FS} {P : Loc × Node → Bool} (h : Inv l fs0 fs) (hp : ∀ x, P x = false → l <+: x.1) :
    Inv l fs0 (fs.filter P) := by
  refine h.step ?_ ?_ ?_
  · exact fun x hx => h.free x (List.mem_filter.mp hx).1
  · exact fun x hx => h.tidy x (List.mem_filter.mp hx).1
  · intro q hq
    unfold look
    split
    · rfl
    · rw [get_filter]
      intro n
      cases hc : P (q, n) with
      | true => rfl
      | false => exact absurd (hp _ hc) hq

theorem del_inv {fs : FS} {p : Loc} (h : Inv l fs0 fs) (hp : l <+: p) : Inv l fs0 (fs.del p) := by
  refine filter_inv h fun x hx => ?_
  simp at hx; rw [hx]; exact hp

theorem get_append (a b : FS) (q : Loc) : Dict.get (a ++ b) q = (Dict.get a q).or (Dict.get b q) := by
  induction a with
  | nil => rfl
  | cons x xs ih =>
    obtain ⟨k, v⟩ := x
    simp only [List.cons_append, Dict.get, ih]
    split <;> rfl

theorem get_none_of {fs : FS} {q : Loc} (h : ∀ x ∈ fs, x.1 ≠ q) : fs.get q = none := by
  induction fs with
  | nil => rfl
  | cons x xs ih =>
    obtain ⟨k, v⟩ := x
    have : k ≠ q := h (k, v) List.mem_cons_self
    simp [Dict.get, this, ih fun y hy => h y (List.mem_cons_of_mem _ hy)]

theorem moveTree_inv {fs : FS} {a b : Loc} (h : Inv l fs0 fs) (ha : Good l a) (hb : Good l b) : Inv l fs0 (moveTree fs a b) := by
  refine h.step ?_ ?_ ?_
  · intro x hx t
    rcases List.mem_append.mp hx with hx | hx
    · obtain ⟨y, hy, rfl⟩ := List.mem_map.mp hx
      exact h.free y (List.mem_filter.mp hy).1 t
    · exact h.free x (List.mem_filter.mp hx).1 t
  · intro x hx
    rcases List.mem_append.mp hx with hx | hx
    · obtain ⟨y, hy, rfl⟩ := List.mem_map.mp hx
      intro c hc
      rcases List.mem_append.mp hc with hc | hc
      · exact hb.1 c hc
      · exact h.tidy y (List.mem_filter.mp hy).1 c (List.mem_of_mem_drop hc)
    · exact h.tidy x (List.mem_filter.mp hx).1
  · intro q hq
    unfold look
    split
    · rfl
    · unfold moveTree
      rw [get_append, get_none_of, Option.none_or, get_filter]
      · intro n
        simp only [decide_eq_true_eq]
        refine ⟨fun hp => hq (ha.2.trans hp), ?_⟩
        rintro rfl; exact hq hb.2
      · intro x hx
        obtain ⟨y, _, rfl⟩ := List.mem_map.mp hx
        rintro rfl
        exact hq (hb.2.trans (List.prefix_append _ _))

theorem mkdirC_inv {cs : List Str} (hg : Good l cs) : ∀ fs fs', Inv l fs0 fs → mkdirC cs fs = .ok fs' → Inv l fs0 fs' := by
  intro fs fs' h hm
  unfold mkdirC at hm
  split at hm
  · rename_i p hr
    split at hm
    · cases hm
    · have := lresolve_eq h.free hg.noup hr
      subst this
      simp only [Except.ok.injEq] at hm
      subst hm
      exact put_inv h hg (by simp)
  · cases hm

theorem prefix_or {a b c : List Str} (h : a <+: b ++ c) : a <+: b ∨ ∃ d, a = b ++ d ∧ d <+: c := by
  rcases List.prefix_or_prefix_of_prefix h (List.prefix_append b c) with h1 | ⟨d, rfl⟩
  · exact Or.inl h1
  · exact Or.inr ⟨d, rfl, by simpa using h⟩

theorem isDir_way {fs : FS} (h : Inv l fs0 fs) {q : Loc} (hq : q <+: l) (hne : q ≠ l) (hp : dotdot ∉ l) :
    isDirC fs q = true := by
  have hd : dotdot ∉ q := fun hm => hp (hq.subset hm)
  have hl : look fs q = some .dir := h.way q hq hne
  have := (stat_reached hd (fun r hr hrn => h.way r (hr.trans hq) (by
    rintro rfl
    exact hrn (List.IsPrefix.eq_of_length hr (Nat.le_antisymm hr.length_le hq.length_le)))) (by rw [hl]; simp)).1
  unfold isDirC; rw [this, hl]; simp

theorem makedirsC_inv : ∀ (rest : List Str) (pre : List Str), Good l (pre ++ rest) → Pres l fs0 (makedirsC pre rest) := by
  intro rest
  induction rest with
  | nil => intro pre _ fs h; exact h
  | cons c rest ih =>
    intro pre hg
    cases rest with
    | nil => exact pres_call (mkdirC_inv hg)
    | cons c' r =>
      intro fs h
      have hg' : Good l ((pre ++ [c]) ++ (c' :: r)) := by simpa using hg
      have hn : ∀ fs, Inv l fs0 fs → Inv l fs0 (makedirsC (pre ++ [c]) (c' :: r) fs).1 := ih (pre ++ [c]) hg'
      unfold makedirsC
      split
      · exact hn fs h
      · rename_i hex
        have hgood : Good l (pre ++ [c]) := by
          refine ⟨fun x hx => hg'.1 x (List.mem_append_left _ hx), ?_⟩
          rcases prefix_or hg'.2 with h1 | ⟨d, hd, _⟩
          · exact h1
          · by_cases hd0 : d = []
            · subst hd0; rw [hd]; simp
            · exfalso
              apply hex
              have hq : (pre ++ [c]) <+: l := hd ▸ List.prefix_append _ _
              have := isDir_way h hq (by
                rw [hd]; intro he
                have := congrArg List.length he
                simp at this
                exact hd0 this) (fun hm => hg'.noup (hg'.2.subset hm))
              unfold isDirC at this
              unfold existsC
              simp at this
              rw [this]; rfl
        split
        · rename_i fs' hm
          exact hn _ (mkdirC_inv hgood fs fs' h hm)
        · split
          · exact hn _ h
          · exact h

theorem unlinkC_inv {cs : List Str} (hg : Good l cs) : ∀ fs fs', Inv l fs0 fs → unlinkC cs fs = .ok fs' → Inv l fs0 fs' := by
  intro fs fs' h hm
  unfold unlinkC at hm
  split at hm
  · rename_i p hr
    have := lresolve_eq h.free hg.noup hr
    subst this
    split at hm
    · simp only [Except.ok.injEq] at hm; subst hm; exact del_inv h hg.2
    · simp only [Except.ok.injEq] at hm; subst hm; exact del_inv h hg.2
    · cases hm
  · cases hm

theorem renameC_inv {ca cb : List Str} (ha : Good l ca) (hb : Good l cb) :
    ∀ fs fs', Inv l fs0 fs → renameC ca cb fs = .ok fs' → Inv l fs0 fs' := by
  intro fs fs' h hm
  unfold renameC at hm
  split at hm
  · rename_i a b hra hrb
    have h1 := lresolve_eq h.free ha.noup hra
    have h2 := lresolve_eq h.free hb.noup hrb
    subst h1; subst h2
    cases hl : look fs a with
    | none => rw [hl] at hm; cases hm
    | some n =>
      rw [hl] at hm
      dsimp only at hm
      split at hm
      · simp only [Except.ok.injEq] at hm; subst hm; exact h
      · split at hm
        · cases hm
        · have hnl : ∀ t, n ≠ .link t := by
            rintro t rfl; exact look_not_link h.free _ _ hl
          cases n with
          | link t => exact absurd rfl (hnl t)
          | dir =>
            cases hlb : look fs b with
            | none => rw [hlb] at hm; simp only [Except.ok.injEq] at hm; subst hm; exact moveTree_inv h ha hb
            | some m =>
              rw [hlb] at hm
              cases m with
              | dir =>
                dsimp only at hm
                split at hm
                · simp only [Except.ok.injEq] at hm; subst hm; exact moveTree_inv h ha hb
                · cases hm
              | file c => cases hm
              | link c => cases hm
          | file c =>
            have hok : Inv l fs0 ((fs.del a).put b (.file c)) := put_inv (del_inv h ha.2) hb (by simp)
            cases hlb : look fs b with
            | none => rw [hlb] at hm; simp only [Except.ok.injEq] at hm; subst hm; exact hok
            | some m =>
              rw [hlb] at hm
              cases m with
              | dir => cases hm
              | file c => simp only [Except.ok.injEq] at hm; subst hm; exact hok
              | link c => simp only [Except.ok.injEq] at hm; subst hm; exact hok
  · cases hm

theorem writeC_inv {cs : List Str} {c : Str} (hg : Good l cs) :
    ∀ fs fs', Inv l fs0 fs → writeC cs c fs = .ok fs' → Inv l fs0 fs' := by
  intro fs fs' h hm
  unfold writeC at hm
  split at hm
  · rename_i p hr
    have := resolve_eq h.free hg.noup hr
    subst this
    split at hm
    · cases hm
    · simp only [Except.ok.injEq] at hm; subst hm; exact put_inv h hg (by simp)
  · cases hm

theorem rmtreeC_inv {cs : List Str} (hg : Good l cs) : ∀ fs fs', Inv l fs0 fs → rmtreeC cs fs = .ok fs' → Inv l fs0 fs' := by
  intro fs fs' h hm
  unfold rmtreeC at hm
  split at hm
  · rename_i p hr
    have := lresolve_eq h.free hg.noup hr
    subst this
    split at hm
    · simp only [Except.ok.injEq] at hm; subst hm
      exact filter_inv h fun x hx => hg.2.trans (by simpa using hx)
    · cases hm
  · cases hm

theorem copyFile_inv {src cs : List Str} (hg : Good l cs) : ∀ fs fs', Inv l fs0 fs → copyFile src cs fs = .ok fs' → Inv l fs0 fs' := by
  intro fs fs' h hm
  unfold copyFile at hm
  split at hm
  · cases hm
  · split at hm
    · exact writeC_inv hg fs fs' h hm
    · cases hm

/-- The last component of a path, if there is one, is a name. -/
def GoodBase (s : Str) : Prop := ∀ c ∈ comps (basename s), Proper c

theorem good_osJoin {cwd d b : Str} (hg : Good l (absComps cwd d)) (hb : '/' ∉ b) (hp : ∀ c ∈ comps b, Proper c) :
    Good l (absComps cwd (osJoin d b)) := by
  rw [absComps_osJoin (isAbs_noslash hb)]; exact hg.append hp

theorem shutilCopy_pres {cwd src dst : Str} (hg : Good l (absComps cwd dst)) (hb : GoodBase src) :
    Pres l fs0 (shutilCopy cwd src dst) := by
  intro fs h
  unfold shutilCopy
  dsimp only
  by_cases hd : isDirC fs (absComps cwd dst) = true
  · rw [if_pos hd]
    exact pres_call (copyFile_inv (good_osJoin hg (basename_noslash src) hb)) fs h
  · rw [if_neg hd]
    exact pres_call (copyFile_inv hg) fs h

theorem collect_pres {f : Str → Act} : ∀ (xs : List Str), (∀ x ∈ xs, Pres l fs0 (f x)) → ∀ b, Pres l fs0 (collect f xs b) := by
  intro xs
  induction xs with
  | nil => intro _ b fs h; exact h
  | cons x xs ih =>
    intro hp b fs h
    have h1 := hp x List.mem_cons_self fs h
    have ih := ih fun y hy => hp y (List.mem_cons_of_mem _ hy)
    unfold collect
    cases hr : f x fs with
    | mk fs' r =>
      rw [hr] at h1
      cases r with
      | ok _ => exact ih _ _ h1
      | error y =>
        dsimp only
        split
        · exact ih _ _ h1
        · exact h1

theorem lstat_not_link {fs : FS} (h : LinkFree fs) (cs : List Str) (t : Str) : lstat fs cs ≠ some (.link t) := by
  unfold lstat
  cases lresolve fs cs with
  | none => simp
  | some p => simpa using look_not_link h p t

theorem basename_osJoin {a b : Str} (hb : '/' ∉ b) : basename (osJoin a b) = b := by
  have key : ∀ p : Str, basename (p ++ '/' :: b) = b := by
    intro p
    unfold basename
    have hr : ∀ x ∈ b.reverse, (decide (x ≠ '/')) = true := by
      intro x hx
      have : x ≠ '/' := fun e => hb (e ▸ List.mem_reverse.mp hx)
      simp [this]
    rw [List.reverse_append, List.reverse_cons, List.append_assoc, List.takeWhile_append_of_pos hr]
    simp
  have key0 : basename b = b := by
    unfold basename
    have hr : ∀ x ∈ b.reverse, (decide (x ≠ '/')) = true := by
      intro x hx
      have : x ≠ '/' := fun e => hb (e ▸ List.mem_reverse.mp hx)
      simp [this]
    have := List.takeWhile_append_of_pos (l₂ := []) hr
    simp only [List.append_nil, List.takeWhile_nil] at this
    rw [this, List.reverse_reverse]
  unfold osJoin
  rw [isAbs_noslash hb]
  simp only [Bool.false_eq_true, if_false]
  split
  · rename_i h
    rcases h with rfl | h
    · simpa using key0
    · obtain ⟨a', rfl⟩ := List.getLast?_eq_some_iff.mp h
      rw [List.append_assoc, List.singleton_append]; exact key a'
  · exact key a

theorem shutilCopytree_pres {cwd : Str} {sym : Bool} : ∀ (n : Nat) (src dst : Str), Good l (absComps cwd dst) →
    Pres l fs0 (shutilCopytree cwd sym n src dst) := by
  intro n
  induction n with
  | zero => intro src dst _; exact pres_fail _
  | succ n ih =>
    intro src dst hg fs h
    unfold shutilCopytree
    cases hl : listdirC fs (absComps cwd src) with
    | none => exact h
    | some names =>
      dsimp only
      have hm := makedirsC_inv (l := l) (fs0 := fs0) (absComps cwd dst) [] (by simpa using hg) fs h
      cases hr : makedirsC [] (absComps cwd dst) fs with
      | mk fs' r =>
        rw [hr] at hm
        cases r with
        | error y => exact hm
        | ok _ =>
          dsimp only
          refine collect_pres names (fun x hx => ?_) false fs' hm
          have hp := mem_listdir h.tidy hl x hx
          have hgx : Good l (absComps cwd (osJoin dst x)) := good_osJoin hg hp.2.2.2 (by rw [comps_proper hp]; simpa using hp)
          intro fs2 h2
          dsimp only
          split
          · rename_i hlk; exact absurd hlk (lstat_not_link h2.free _ _)
          · split
            · exact ih _ _ hgx fs2 h2
            · refine shutilCopy_pres hgx ?_ fs2 h2
              unfold GoodBase
              rw [basename_osJoin hp.2.2.2, comps_proper hp]
              simpa using hp

theorem shutilMove_pres {cwd : Str} {n : Nat} {src dst : Str} (hs : Good l (absComps cwd src)) (hd : Good l (absComps cwd dst))
    (hb : GoodBase src) (hb' : ∀ c ∈ comps (trimBasename src), Proper c) :
    Pres l fs0 (shutilMove cwd n src dst) := by
  have hgo : ∀ real, Good l (absComps cwd real) → Pres l fs0 (catching (· == .os) (call (renameC (absComps cwd src) (absComps cwd real)))
      (fun fs =>
        if isDirC fs (absComps cwd src) then
          if normComps (absComps cwd src) <+: normComps (absComps cwd dst) then (fs, .error .shutil)
          else seq (shutilCopytree cwd true n src real) (call (rmtreeC (absComps cwd src))) fs
        else seq (shutilCopy cwd src real) (call (unlinkC (absComps cwd src))) fs)) := by
    intro real hr
    refine pres_catching (pres_call (renameC_inv hs hr)) ?_
    intro fs h
    dsimp only
    split
    · split
      · exact h
      · exact pres_seq (shutilCopytree_pres _ _ _ hr) (pres_call (rmtreeC_inv hs)) fs h
    · exact pres_seq (shutilCopy_pres hr hb) (pres_call (unlinkC_inv hs)) fs h
  intro fs h
  unfold shutilMove
  dsimp only
  split
  · split
    · exact pres_call (renameC_inv hs hd) fs h
    · split
      · exact h
      · exact hgo _ (good_osJoin hd (basename_noslash _) hb') fs h
  · exact hgo _ hd fs h

variable {e : Env}

theorem error_pres : Pres l fs0 (error e) := by
  unfold error; split
  · exact pres_skip
  · exact pres_fail _

theorem makedirs_pres {d : Str} (hg : Good l (e.cs d)) : Pres l fs0 (makedirs e d) := by
  refine pres_catching ?_ error_pres
  intro fs h
  dsimp only
  split
  · exact h
  · exact makedirsC_inv _ [] (by simpa using hg) fs h

theorem unlink_pres {p : Str} (hg : Good l (e.cs p)) : Pres l fs0 (unlink e p) := by
  intro fs h
  unfold unlink
  split
  · exact pres_catching (pres_call (unlinkC_inv hg)) pres_skip fs h
  · exact h

theorem unlinkDir_pres {p : Str} (hg : Good l (e.cs p)) : Pres l fs0 (unlinkDir e p) := by
  intro fs h
  unfold unlinkDir
  split
  · exact pres_catching (pres_call (rmtreeC_inv hg)) error_pres fs h
  · split
    · exact h
    · exact error_pres fs h

theorem mem_comps_trim {s c : Str} (h : c ∈ comps (trimBasename s)) : (comps s).getLast? = some c := by
  rw [← comps_rstrip s]; exact mem_comps_basename h

theorem base_of_last {s : Str} (h : (comps s).getLast? ≠ some dotdot) :
    GoodBase s ∧ (∀ c ∈ comps (trimBasename s), Proper c) ∧ ∀ c ∈ comps (basename (stripSlash s)), Proper c := by
  refine ⟨fun c hc => ?_, fun c hc => ?_, fun c hc => ?_⟩
  · refine proper_of_comps hc ?_
    rintro rfl; exact h (mem_comps_basename hc)
  · refine proper_of_comps hc ?_
    rintro rfl; exact h (mem_comps_trim hc)
  · refine proper_of_comps hc ?_
    rintro rfl
    apply h
    rw [← comps_strip s]; exact mem_comps_basename hc

theorem fits_last {a b : List Str} (h : List.Forall₂ Fits a b) (ha : a.getLast? ≠ some dotdot) : b.getLast? ≠ some dotdot := by
  have : ∀ a b : List Str, List.Forall₂ Fits a b → ∀ y, b.getLast? = some y → ∃ x, a.getLast? = some x ∧ Fits x y := by
    intro a b h
    induction h with
    | nil => simp
    | @cons x y xs ys hxy hr ih =>
      intro z hz
      cases hr with
      | nil => simp at hz ⊢; subst hz; exact hxy
      | @cons x' y' xs' ys' h1 h2 =>
        rw [List.getLast?_cons_cons] at hz ⊢
        exact ih z hz
  intro hb
  obtain ⟨x, hx, hf⟩ := this a b h _ hb
  rcases hf with ⟨_, rfl⟩ | ⟨_, hp⟩
  · exact ha hx
  · exact hp.2.2.1 rfl

theorem fits_proper {a b : List Str} (h : List.Forall₂ Fits a b) (ha : ∀ c ∈ a, Proper c) : ∀ c ∈ b, Proper c := by
  induction h with
  | nil => simp
  | @cons x y xs ys hxy _ ih =>
    intro c hc
    rcases List.mem_cons.mp hc with rfl | hc
    · rcases hxy with ⟨_, rfl⟩ | ⟨_, hp⟩
      · exact ha _ List.mem_cons_self
      · exact hp
    · exact ih (fun c hc => ha c (List.mem_cons_of_mem _ hc)) c hc

theorem fits_prefix {a b p : List Str} (hp : ∀ c ∈ p, hasMagic c = false) : List.Forall₂ Fits a b → p <+: a → p <+: b := by
  induction p generalizing a b with
  | nil => intro _ _; exact List.nil_prefix
  | cons x xs ih =>
    intro h hpa
    cases h with
    | nil => simp at hpa
    | @cons y z ys zs hyz hr =>
      rw [List.cons_prefix_cons] at hpa
      obtain ⟨rfl, h2⟩ := hpa
      have h1 := ih (fun c hc => hp c (List.mem_cons_of_mem _ hc)) hr h2
      rcases hyz with ⟨_, rfl⟩ | ⟨hm, _⟩
      · exact (List.cons_prefix_cons).mpr ⟨rfl, h1⟩
      · rw [hp x List.mem_cons_self] at hm; cases hm

/-- What a pattern below the install directory finds lies below it. -/
theorem glob_good {fs : FS} (ht : Tidy fs) {cwd s r : Str} (ha : isAbs s = true) (hpl : ∀ c ∈ l, hasMagic c = false)
    (hg : Good l (comps s)) (h : r ∈ glob fs cwd s) : Good l (absComps cwd r) ∧ GoodBase r ∧
      (∀ c ∈ comps (trimBasename r), Proper c) ∧ isAbs r = true ∧ Good l (comps r) := by
  obtain ⟨h1, h2⟩ := glob_fits ht h
  have hr : isAbs r = true := h1.trans ha
  have hgr : Good l (comps r) := ⟨fits_proper h2 hg.1, fits_prefix hpl h2 hg.2⟩
  have hl : (comps r).getLast? ≠ some dotdot := fun hc => hgr.noup (List.mem_of_getLast? hc)
  refine ⟨?_, (base_of_last hl).1, (base_of_last hl).2.1, hr, hgr⟩
  unfold absComps; rw [if_pos hr]; exact hgr

theorem move_pres {src dst : Str} (hpl : ∀ c ∈ l, hasMagic c = false) (ha : isAbs src = true) (hs : Good l (comps src))
    (hd : Good l (e.cs dst)) : Pres l fs0 (move e src dst) := by
  intro fs h
  unfold move
  refine pres_each (fun p hp => ?_) fs h
  obtain ⟨g1, g2, g3, _⟩ := glob_good h.tidy ha hpl hs hp
  intro fs2 h2
  dsimp only
  split
  · exact pres_catching (shutilMove_pres g1 hd g2 g3) error_pres fs2 h2
  · exact error_pres fs2 h2

theorem cs_join {a : Str} (b : Str) (h : isAbs a = true) : e.cs (joinPath a [b]) = comps a ++ comps b := by
  unfold Env.cs absComps; rw [if_pos (isAbs_join1 b h), comps_join1]

theorem absComps_joinStep (cwd : Str) {a b : Str} (h : a ≠ []) : absComps cwd (joinPath a [b]) = absComps cwd a ++ comps b := by
  have : isAbs (joinPath a [b]) = isAbs a := by
    simp only [joinPath, List.foldl, joinStep]
    split <;> rw [isAbs_append _ h]
  unfold absComps; rw [this, comps_join1]; split <;> simp

theorem copytreeN_pres : ∀ (n : Nat) (src dst : Str) (sym : Bool), (comps src).getLast? ≠ some dotdot → isAbs dst = true →
    Good l (e.cs dst) → Pres l fs0 (copytreeN e n src dst sym) := by
  intro n
  induction n with
  | zero => intro src dst sym _ _ _; exact pres_fail _
  | succ n ih =>
    intro src dst sym hs ha hg fs h
    have hb := base_of_last hs
    have hg' : Good l (comps dst) := by unfold Env.cs absComps at hg; rwa [if_pos ha] at hg
    unfold copytreeN
    split
    · split
      · split
        · refine ih _ _ _ hs (isAbs_join1 _ ha) ?_ fs h
          rw [cs_join _ ha]; exact hg'.append hb.2.2
        · refine ih _ _ _ hs (isAbs_join1 _ ha) ?_ fs h
          rw [cs_join _ ha]; exact hg'.append hb.1
      · exact pres_catching (shutilCopytree_pres _ _ _ hg) error_pres fs h
    · exact error_pres fs h

theorem copyOne_pres {dst p : Str} {sym : Bool} (hs : (comps p).getLast? ≠ some dotdot) (ha : isAbs dst = true)
    (hg : Good l (e.cs dst)) : Pres l fs0 (copyOne e dst sym p) := by
  intro fs h
  unfold copyOne
  dsimp only
  split
  · rename_i hl; exact absurd hl (lstat_not_link h.free _ _)
  · split
    · exact pres_catching (shutilCopy_pres hg (base_of_last hs).1) error_pres fs h
    · split
      · exact copytreeN_pres _ _ _ _ hs ha hg fs h
      · exact error_pres fs h

theorem copy_pres {src dst : Str} {sym : Bool} (hs : (comps src).getLast? ≠ some dotdot) (ha : isAbs dst = true)
    (hg : Good l (e.cs dst)) : Pres l fs0 (copy e src dst sym) := by
  intro fs h
  unfold copy
  refine pres_each (fun p hp => ?_) fs h
  exact copyOne_pres (fits_last (glob_fits h.tidy hp).2 hs) ha hg

theorem comps_good {s : Str} (h : NoUp s) : ∀ c ∈ comps s, Proper c :=
  fun _ hc => proper_of_comps hc (fun e => h (e ▸ hc))

theorem good_inst (hf : e.Fit) {d : Str} (hd : NoUp d) : Good (comps e.inst) (e.cs (joinPath e.inst [d])) := by
  rw [cs_join _ hf.abs]
  exact Good.append ⟨comps_good hf.noup, List.prefix_rfl⟩ (comps_good hd)

theorem noup_join {a b : Str} (ha : NoUp a) (hb : NoUp b) : NoUp (joinPath a [b]) := by
  unfold NoUp; rw [comps_join1]
  intro h
  rcases List.mem_append.mp h with h | h
  · exact ha h
  · exact hb h

theorem noup_dirname {s : Str} (h : NoUp s) : NoUp (FS.dirname s) := by
  intro hm; apply h; rw [comps_split s]; exact List.mem_append_left _ hm

theorem noup_base {s : Str} (h : GoodBase s) : NoUp (basename s) := fun hm => (h _ hm).2.2.1 rfl

/-- Every call but `dosym` keeps the invariant. -/
theorem run_pres (hf : e.Fit) (c : Call) (hi : c.Inside) (hs : c.isDosym = false) : Pres (comps e.inst) fs0 (c.run e) := by
  have hpl := comps_plain hf.plain
  cases c with
  | dosym s d => cases hs
  | dodir d => exact makedirs_pres (good_inst hf hi)
  | domove s d f =>
    obtain ⟨h1, h2, h3⟩ := hi
    refine pres_seq (makedirs_pres (good_inst hf h2)) ?_
    intro fs h
    dsimp only
    refine pres_each (fun p hp => ?_) fs h
    have hgs : Good (comps e.inst) (comps (joinPath e.inst [s])) := by
      have := good_inst (e := e) hf h1; rw [cs_join _ hf.abs] at this; rw [comps_join1]; exact this
    obtain ⟨g1, g2, g3, g4, g5⟩ := glob_good h.tidy (isAbs_join1 _ hf.abs) hpl hgs hp
    refine move_pres hpl g4 g5 (good_inst hf (noup_join h2 ?_))
    split
    · exact noup_base g2
    · exact h3
  | rename s f =>
    obtain ⟨h1, h2⟩ := hi
    refine pres_catching (pres_call (renameC_inv (good_inst hf h1) ?_)) error_pres
    unfold Env.cs absComps
    rw [if_pos (isAbs_join2 _ _ hf.abs), comps_join2]
    exact Good.append (Good.append ⟨comps_good hf.noup, List.prefix_rfl⟩ (comps_good (noup_dirname h1))) (comps_good h2)
  | insinto d s f y =>
    obtain ⟨h1, h2, h3⟩ := hi
    refine pres_seq (makedirs_pres (good_inst hf h1)) ?_
    intro fs h
    dsimp only
    split
    · refine pres_each (fun p hp => ?_) fs h
      have hl := fits_last (glob_fits h.tidy hp).2 h3
      intro fs2 h4
      dsimp only
      split
      · exact copy_pres hl (isAbs_join1 _ hf.abs) (good_inst hf (noup_join h1 (noup_base (base_of_last hl).1))) fs2 h4
      · exact h4
    · exact copy_pres h3 (isAbs_join1 _ hf.abs) (good_inst hf (noup_join h1 h2)) fs h
  | remove s =>
    intro fs h
    refine pres_each (fun p hp => ?_) fs h
    have hgs : Good (comps e.inst) (comps (joinPath e.inst [s])) := by
      have := good_inst (e := e) hf hi; rw [cs_join _ hf.abs] at this; rw [comps_join1]; exact this
    exact unlink_pres (glob_good h.tidy (isAbs_join1 _ hf.abs) hpl hgs hp).1
  | removeDir s =>
    intro fs h
    refine pres_each (fun p hp => ?_) fs h
    have hgs : Good (comps e.inst) (comps (joinPath e.inst [s])) := by
      have := good_inst (e := e) hf hi; rw [cs_join _ hf.abs] at this; rw [comps_join1]; exact this
    exact unlinkDir_pres (glob_good h.tidy (isAbs_join1 _ hf.abs) hpl hgs hp).1

theorem script_pres (hf : e.Fit) (cs : List Call) (hi : ∀ c ∈ cs, c.Inside) (hs : ∀ c ∈ cs, c.isDosym = false) :
    Pres (comps e.inst) fs0 (script e cs) :=
  pres_each fun c hc => run_pres hf c (hi c hc) (hs c hc)

end Pisi.Act
