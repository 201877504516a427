import Verif.Lemmas.ActionsExact
import Verif.Props.Glob
import Verif.Spec.Copy
import Mathlib.Data.List.Nodup

/-! # What `shutil.copytree` leaves behind -/
namespace Pisi.Act
open Pisi.Path (joinPath joinStep lstripSlash)

/-- A link at the end of a path over directories only is not followed by `lstat`. -/
theorem walk_lreached {fs : FS} (n : Nat) : ∀ (cs : List Str) (cur : Loc), dotdot ∉ cs →
    (∀ q, q <+: cs → q ≠ [] → q ≠ cs → look fs (cur ++ q) = some .dir) → walk fs false n cur cs = some (cur ++ cs) := by
  intro cs
  induction cs with
  | nil => intro cur _ _; rw [walk_nil]; simp
  | cons c r ih =>
    intro cur hd hq
    have hc : c ≠ dotdot := fun e => hd (e ▸ List.mem_cons_self)
    have hr : dotdot ∉ r := fun e => hd (List.mem_cons_of_mem _ e)
    rw [walk_cons, if_neg hc]
    by_cases hn : r = []
    · subst hn
      cases hlk : look fs (cur ++ [c]) with
      | none => simp
      | some x => cases x with
        | link t => simp
        | dir => simp [walk_nil]
        | file b => simp
    · have h1 : look fs (cur ++ [c]) = some .dir := hq [c] ⟨r, rfl⟩ (by simp) (by intro e; simp at e; exact hn e)
      rw [h1]
      have := ih (cur ++ [c]) hr (fun q hqp hq0 hqr => by
        have := hq (c :: q) (by obtain ⟨t, rfl⟩ := hqp; exact ⟨t, rfl⟩) (by simp) (by simpa using hqr)
        simpa using this)
      simpa using this

theorem lstat_reached {fs : FS} {cs : List Str} (hd : dotdot ∉ cs) (hr : Reached fs cs) :
    lstat fs cs = look fs cs ∧ lresolve fs cs = some cs := by
  have h2 := walk_lreached (fs := fs) 40 cs [] hd (fun q h1 _ h3 => by simpa using hr q h1 h3)
  refine ⟨?_, by simpa [lresolve] using h2⟩
  unfold lstat lresolve; rw [h2]; simp

/-- A path whose directory is a directory is reached. -/
theorem reached_of_dir {fs : FS} (hR : Rooted fs) {p : Loc} (h : look fs p.dropLast = some .dir) : Reached fs p := by
  intro q hq hne
  by_cases hp : p = []
  · subst hp; simp at hq; exact absurd hq hne
  · rw [← List.dropLast_concat_getLast hp, List.prefix_concat_iff] at hq
    rcases hq with hq | hq
    · exact absurd (hq.trans (List.dropLast_concat_getLast hp)) hne
    · by_cases he : q = p.dropLast
      · rw [he]; exact h
      · exact hR _ (by rw [h]; simp) q hq he

theorem rooted_put {fs : FS} (hR : Rooted fs) {p : Loc} (hp : p ≠ []) (hd : look fs p.dropLast = some .dir)
    (hn : look fs p = none) (x : Node) : Rooted (fs.put p x) := by
  intro q hq s hs hne
  rw [look_put hp] at hq
  have key : look fs s = some .dir := by
    by_cases he : q = p
    · subst he; exact reached_of_dir hR hd s hs hne
    · rw [if_neg he] at hq; exact hR q hq s hs hne
  rw [look_put hp, if_neg (fun e => by rw [e, hn] at key; cases key)]
  exact key

theorem tidy_put' {fs : FS} (h : Tidy fs) {p : Loc} (hp : ∀ c ∈ p, Proper c) (x : Node) : Tidy (fs.put p x) := by
  intro n hn c hc
  simp only [Dict.put, List.mem_cons, Dict.del, List.mem_filter] at hn
  rcases hn with rfl | hn
  · exact hp c hc
  · exact h n hn.1 c hc

/-- Making a directory in a directory. -/
theorem makedirsC_one {fs : FS} (hR : Rooted fs) : ∀ (rest pre : List Str), rest ≠ [] → dotdot ∉ pre ++ rest →
    look fs (pre ++ rest).dropLast = some .dir → look fs (pre ++ rest) = none →
    makedirsC pre rest fs = (fs.put (pre ++ rest) .dir, .ok ()) := by
  intro rest
  induction rest with
  | nil => intro pre h; exact absurd rfl h
  | cons c r ih =>
    intro pre _ hd hdir hno
    have hre := reached_of_dir hR hdir
    cases r with
    | nil =>
      simp only [makedirsC, call, mkdirC]
      rw [(lstat_reached hd hre).2]
      simp [hno]
    | cons c' r =>
      have h1 : look fs (pre ++ [c]) = some .dir := hre _ ⟨c' :: r, by simp⟩ (by simp)
      have hd1 : dotdot ∉ pre ++ [c] := fun e => hd (by
        simp only [List.mem_append, List.mem_cons, List.not_mem_nil, or_false] at e ⊢
        rcases e with e | e <;> simp [e])
      have hex : existsC fs (pre ++ [c]) = true := by
        unfold existsC
        rw [(stat_reached hd1 (hR _ (by rw [h1]; simp)) (by rw [h1]; simp)).1, h1]; rfl
      rw [makedirsC, if_pos hex]
      have := ih (pre ++ [c]) (by simp) (by simpa using hd) (by simpa using hdir) (by simpa using hno)
      simpa using this

theorem sound_put {fs : FS} (h : Sound fs) {p : Loc} (hp : p ≠ []) (hpp : ∀ c ∈ p, Proper c) (hd : look fs p.dropLast = some .dir)
    (hn : look fs p = none) (x : Node) : Sound (fs.put p x) :=
  ⟨tidy_put' h.tidy hpp x, Dict.uniq_put h.uniq _ _, rooted_put h.rooted hp hd hn x⟩

theorem proper_look {fs : FS} (h : Tidy fs) {p : Loc} (hp : look fs p ≠ none) : ∀ c ∈ p, Proper c := by
  unfold look at hp
  split at hp
  · rename_i he; subst he; simp
  · obtain ⟨n, hn⟩ := Option.ne_none_iff_exists'.mp hp
    exact fun c hc => h (p, n) (get_mem hn) c hc

theorem proper_dotdot {p : Loc} (h : ∀ c ∈ p, Proper c) : dotdot ∉ p := fun e => (h _ e).2.2.1 rfl

theorem look_of_mem {fs : FS} (h : Dict.Uniq fs) {p : Loc} {x : Node} (hm : (p, x) ∈ fs) (hp : p ≠ []) : look fs p = some x := by
  unfold look; rw [if_neg hp]; exact (Dict.mem_iff_get h p x).mp hm

theorem namesAt_nodup {fs : FS} (h : Dict.Uniq fs) (p : Loc) : (namesAt fs p).Nodup := by
  unfold namesAt
  refine List.Nodup.filterMap ?_ h
  intro a b n ha hb
  simp only [Option.mem_def] at ha hb
  split at ha
  · split at hb
    · rename_i h1 h2
      rw [List.getLast?_eq_some_getLast h1.1, Option.some.injEq] at ha
      rw [List.getLast?_eq_some_getLast h2.1, Option.some.injEq] at hb
      have e1 := List.dropLast_concat_getLast h1.1
      have e2 := List.dropLast_concat_getLast h2.1
      rw [ha] at e1; rw [hb] at e2
      rw [← e1, ← e2, h1.2, h2.2]
    · cases hb
  · cases ha

/-- The part of the way through the loop of `shutil.copytree`: the names in `done` are copied. -/
structure Mid (fs : FS) (S D : Loc) (done : List Str) (g : FS) : Prop where
  sound : Sound g
  dir : look g D = some .dir
  out : ∀ p, ¬ D <+: p → look g p = look fs p
  yes : ∀ x ∈ done, ∀ r, look g (D ++ x :: r) = look fs (S ++ x :: r)
  no : ∀ x, x ∉ done → ∀ r, look g (D ++ x :: r) = none

theorem not_below {fs : FS} (hR : Rooted fs) {S D : Loc} (hS : look fs S = some .dir) (hD : look fs D = none) (hSD : ¬ S <+: D)
    (r : Loc) : ¬ D <+: S ++ r := by
  intro h
  rcases List.prefix_or_prefix_of_prefix h (List.prefix_append S r) with h1 | h1
  · by_cases he : D = S
    · rw [he, hS] at hD; cases hD
    · have := hR S (by rw [hS]; simp) D h1 he
      rw [this] at hD; cases hD
  · exact hSD h1

/-- The body of the loop of `shutil.copytree`. -/
def treeStep (cwd : Str) (sym : Bool) (n : Nat) (src dst name : Str) : Act := fun fs =>
  let s := osJoin src name
  let d := osJoin dst name
  match lstat fs (absComps cwd s), sym with
  | some (.link t), true => call (symlinkC t (absComps cwd d)) fs
  | _, _ =>
    if isDirC fs (absComps cwd s) then shutilCopytree cwd sym n s d fs
    else shutilCopy cwd s d fs

theorem shutilCopytree_succ (cwd : Str) (sym : Bool) (n : Nat) (src dst : Str) (fs : FS) :
    shutilCopytree cwd sym (n + 1) src dst fs = (match listdirC fs (absComps cwd src) with
      | none => (fs, .error .os)
      | some names => match makedirsC [] (absComps cwd dst) fs with
        | (fs', .error e) => (fs', .error e)
        | (fs', .ok ()) => collect (treeStep cwd sym n src dst) names false fs') := by
  rfl

/-- What a directory at `src` has to be for it to be copied to `dst`. -/
structure Ready (cwd : Str) (sym : Bool) (n : Nat) (src dst : Str) (fs : FS) : Prop where
  sound : Sound fs
  dir : look fs (absComps cwd src) = some .dir
  prop : ∀ c ∈ absComps cwd dst, Proper c
  free : look fs (absComps cwd dst) = none
  into : look fs (absComps cwd dst).dropLast = some .dir
  apart : ¬ absComps cwd src <+: absComps cwd dst
  links : sym = true ∨ ∀ r t, look fs (absComps cwd src ++ r) ≠ some (.link t)
  depth : ∀ r, look fs (absComps cwd src ++ r) ≠ none → r.length < n

theorem prefix_cons_append {D p r : Loc} {x : Str} (h : ¬ D <+: p) : p ≠ D ++ x :: r := by
  rintro rfl; exact h (List.prefix_append _ _)

theorem mid_put {fs g : FS} {S D : Loc} {done : List Str} {x : Str} (hm : Mid fs S D done g) (hDp : ∀ c ∈ D, Proper c)
    (hp : Proper x) (hx : x ∉ done) {nd : Node} (hnd : look fs (S ++ [x]) = some nd) (hne : nd ≠ .dir) (hR : Rooted fs) :
    Mid fs S D (x :: done) (g.put (D ++ [x]) nd) := by
  have hne' : D ++ [x] ≠ [] := by simp
  refine ⟨sound_put hm.sound hne' ?_ (by simpa using hm.dir) (by simpa using hm.no x hx []) nd, ?_, ?_, ?_, ?_⟩
  · intro c hc
    simp only [List.mem_append, List.mem_singleton] at hc
    rcases hc with hc | rfl
    · exact hDp c hc
    · exact hp
  · rw [look_put hne', if_neg (by simp)]; exact hm.dir
  · intro p hpn
    rw [look_put hne', if_neg (prefix_cons_append hpn)]; exact hm.out p hpn
  · intro y hy r
    rw [look_put hne']
    by_cases he : D ++ y :: r = D ++ [x]
    · rw [if_pos he]
      have := List.append_cancel_left he
      rw [this, hnd]
    · rw [if_neg he]
      rcases List.mem_cons.mp hy with rfl | hy
      · rw [hm.no y hx r]
        have hr : r ≠ [] := by rintro rfl; exact he rfl
        cases hlk : look fs (S ++ y :: r) with
        | none => rfl
        | some z =>
          have := hR (S ++ y :: r) (by rw [hlk]; simp) (S ++ [y]) ⟨r, by simp⟩ (by
            intro e; have := List.append_cancel_left e; simp at this; exact hr this)
          rw [hnd] at this; simp at this; exact absurd this hne
      · exact hm.yes y hy r
  · intro y hy r
    simp only [List.mem_cons, not_or] at hy
    rw [look_put hne', if_neg (by intro e; have := List.append_cancel_left e; simp at this; exact hy.1 this.1)]
    exact hm.no y hy.2 r

theorem step_ok {cwd : Str} {sym : Bool} {n : Nat} {src dst : Str} {fs : FS}
    (ih : ∀ src dst fs, Ready cwd sym n src dst fs →
      ∃ fs', shutilCopytree cwd sym n src dst fs = (fs', .ok ()) ∧ Copied (absComps cwd src) (absComps cwd dst) fs fs')
    (h : Ready cwd sym (n + 1) src dst fs) {done : List Str} {g : FS} {x : Str}
    (hm : Mid fs (absComps cwd src) (absComps cwd dst) done g) (hx : x ∉ done)
    (hin : look fs (absComps cwd src ++ [x]) ≠ none) :
    ∃ g', treeStep cwd sym n src dst x g = (g', .ok ()) ∧ Mid fs (absComps cwd src) (absComps cwd dst) (x :: done) g' := by
  have hpS := proper_look h.sound.tidy hin
  have hp : Proper x := hpS x (by simp)
  have hDp := h.prop
  have hs : absComps cwd (osJoin src x) = absComps cwd src ++ [x] := by
    rw [absComps_osJoin (isAbs_noslash hp.2.2.2), comps_proper hp]
  have hd : absComps cwd (osJoin dst x) = absComps cwd dst ++ [x] := by
    rw [absComps_osJoin (isAbs_noslash hp.2.2.2), comps_proper hp]
  have hnb := not_below h.sound.rooted h.dir h.free h.apart
  have dir := h.dir
  have free := h.free
  have apart := h.apart
  have links := h.links
  have depth := h.depth
  have hR := h.sound.rooted
  generalize absComps cwd src = S at *
  generalize absComps cwd dst = D at *
  have hsame : ∀ r, look g (S ++ r) = look fs (S ++ r) := fun r => hm.out _ (hnb r)
  have hDx : ∀ c ∈ D ++ [x], Proper c := by
    intro c hc
    simp only [List.mem_append, List.mem_singleton] at hc
    rcases hc with hc | rfl
    · exact hDp c hc
    · exact hp
  have hnone : look g (D ++ [x]) = none := hm.no x hx []
  have hDdir : look g (D ++ [x]).dropLast = some .dir := by simpa using hm.dir
  have hreD : Reached g (D ++ [x]) := reached_of_dir hm.sound.rooted hDdir
  have hreS : Reached g (S ++ [x]) := hm.sound.rooted _ (by rw [hsame]; exact hin)
  have hddD := proper_dotdot hDx
  have hddS := proper_dotdot hpS
  have hlsS := lstat_reached hddS hreS
  have hlsD := lstat_reached hddD hreD
  have hstD := stat_reached hddD hreD (by rw [hnone]; simp)
  have hneD : D ++ [x] ≠ [] := by simp
  obtain ⟨nd, hnd⟩ := Option.ne_none_iff_exists'.mp hin
  have hgnd : look g (S ++ [x]) = some nd := by rw [hsame, hnd]
  unfold treeStep
  simp only [hs, hd]
  rw [hlsS.1, hgnd]
  cases nd with
  | link t =>
    have hsym : sym = true := by
      rcases links with hl | hl
      · exact hl
      · exact absurd hnd (hl [x] t)
    subst hsym
    refine ⟨g.put (D ++ [x]) (.link t), ?_, mid_put hm hDp hp hx hnd (by simp) hR⟩
    simp only [call, symlinkC, hlsD.2, hnone]
    simp
  | file c =>
    have hst := stat_reached hddS hreS (by rw [hgnd]; simp)
    refine ⟨g.put (D ++ [x]) (.file c), ?_, mid_put hm hDp hp hx hnd (by simp) hR⟩
    have h1 : isDirC g (S ++ [x]) = false := by unfold isDirC; rw [hst.1, hgnd]; simp
    have h2 : isDirC g (D ++ [x]) = false := by unfold isDirC; rw [hstD.1, hnone]; simp
    have h3 : existsC g (D ++ [x]) = false := by unfold existsC; rw [hstD.1, hnone]; rfl
    simp only [h1]
    simp only [Bool.false_eq_true, if_false, shutilCopy, hs, hd, h2]
    simp only [call, copyFile, sameFile, h3, hst.1, hgnd, writeC, hstD.2.1, hnone]
    simp
  | dir =>
    have hst := stat_reached hddS hreS (by rw [hgnd]; simp)
    have h1 : isDirC g (S ++ [x]) = true := by unfold isDirC; rw [hst.1, hgnd]; simp
    simp only [h1, if_true]
    obtain ⟨g', hrun, hc⟩ := ih (osJoin src x) (osJoin dst x) g (by
      refine ⟨hm.sound, ?_, ?_, ?_, ?_, ?_, ?_, ?_⟩
      · rw [hs]; exact hgnd
      · rw [hd]; exact hDx
      · rw [hd]; exact hnone
      · rw [hd]; exact hDdir
      · rw [hs, hd]
        intro hpre
        rw [List.prefix_concat_iff] at hpre
        rcases hpre with he | he
        · have := (List.append_inj' he rfl).1
          exact apart (this ▸ List.prefix_refl _)
        · exact apart ((List.prefix_append S [x]).trans he)
      · rw [hs]
        rcases links with hl | hl
        · exact Or.inl hl
        · refine Or.inr fun r t => ?_
          have := hl (x :: r) t
          rw [List.append_assoc, List.singleton_append, hsame]; exact this
      · rw [hs]
        intro r hr
        rw [List.append_assoc, List.singleton_append, hsame] at hr
        have := depth _ hr
        simpa using this)
    rw [hs, hd] at hc
    refine ⟨g', hrun, hc.sound, ?_, ?_, ?_, ?_⟩
    · rw [hc.out D (by intro e; have := e.length_le; simp at this; omega)]; exact hm.dir
    · intro p hpn
      rw [hc.out p (fun e => hpn ((List.prefix_append D [x]).trans e))]; exact hm.out p hpn
    · intro y hy r
      by_cases he : y = x
      · subst he
        have := hc.same r
        rw [List.append_assoc, List.singleton_append, List.append_assoc, List.singleton_append, hsame] at this
        exact this
      · rw [hc.out _ (by
          intro e; rw [List.prefix_append_right_inj, List.cons_prefix_cons] at e; exact he e.1.symm)]
        rcases List.mem_cons.mp hy with hy | hy
        · exact absurd hy he
        · exact hm.yes y hy r
    · intro y hy r
      simp only [List.mem_cons, not_or] at hy
      rw [hc.out _ (by
          intro e; rw [List.prefix_append_right_inj, List.cons_prefix_cons] at e; exact hy.1 e.1.symm)]
      exact hm.no y hy.2 r

theorem loop_ok {fs : FS} {S D : Loc} {f : Str → Act}
    (hf : ∀ done g x, Mid fs S D done g → x ∉ done → look fs (S ++ [x]) ≠ none →
      ∃ g', f x g = (g', .ok ()) ∧ Mid fs S D (x :: done) g') : ∀ (l done : List Str) (g : FS), Mid fs S D done g →
    l.Nodup → (∀ x ∈ l, x ∉ done ∧ look fs (S ++ [x]) ≠ none) →
    ∃ g', collect f l false g = (g', .ok ()) ∧ Mid fs S D (l.reverse ++ done) g' := by
  intro l
  induction l with
  | nil => intro done g hm _ _; exact ⟨g, rfl, by simpa using hm⟩
  | cons x l ih =>
    intro done g hm hn hl
    obtain ⟨g1, h1, hm1⟩ := hf done g x hm (hl x List.mem_cons_self).1 (hl x List.mem_cons_self).2
    rw [List.nodup_cons] at hn
    obtain ⟨g2, h2, hm2⟩ := ih (x :: done) g1 hm1 hn.2 (fun y hy => by
      refine ⟨?_, (hl y (List.mem_cons_of_mem _ hy)).2⟩
      simp only [List.mem_cons, not_or]
      exact ⟨fun e => hn.1 (e ▸ hy), (hl y (List.mem_cons_of_mem _ hy)).1⟩)
    refine ⟨g2, ?_, by simpa using hm2⟩
    simp only [collect, h1]; exact h2

/-- `shutil.copytree` makes an exact copy of a directory at a free place. -/
theorem shutilCopytree_copied (cwd : Str) (sym : Bool) : ∀ (n : Nat) (src dst : Str) (fs : FS), Ready cwd sym n src dst fs →
    ∃ fs', shutilCopytree cwd sym n src dst fs = (fs', .ok ()) ∧ Copied (absComps cwd src) (absComps cwd dst) fs fs' := by
  intro n
  induction n with
  | zero =>
    intro src dst fs h
    have := h.depth [] (by rw [List.append_nil, h.dir]; simp)
    simp at this
  | succ n ih =>
    intro src dst fs h
    have hstep := fun done g x hm hx hin => step_ok (done := done) (g := g) (x := x) ih h hm hx hin
    have hnb := not_below h.sound.rooted h.dir h.free h.apart
    have hD0 : absComps cwd dst ≠ [] := by
      intro e; have := h.free; rw [e] at this; simp [look] at this
    have hpS := proper_look h.sound.tidy (p := absComps cwd src) (by rw [h.dir]; simp)
    have hstS := stat_reached (proper_dotdot hpS) (h.sound.rooted _ (by rw [h.dir]; simp)) (by rw [h.dir]; simp)
    rw [shutilCopytree_succ]
    have hl : listdirC fs (absComps cwd src) = some (namesAt fs (absComps cwd src)) := by
      unfold listdirC; rw [hstS.2.1]; simp [h.dir]
    have hmk := makedirsC_one h.sound.rooted (absComps cwd dst) [] hD0 (by simpa using proper_dotdot h.prop)
      (by simpa using h.into) (by simpa using h.free)
    rw [List.nil_append] at hmk
    rw [hl, hmk]
    simp only
    have hms : ∀ x, x ∈ namesAt fs (absComps cwd src) ↔ look fs (absComps cwd src ++ [x]) ≠ none := by
      intro x
      rw [namesAt_iff]
      constructor
      · rintro ⟨y, hy⟩; rw [look_of_mem h.sound.uniq hy (by simp)]; simp
      · intro hx
        obtain ⟨y, hy⟩ := Option.ne_none_iff_exists'.mp hx
        unfold look at hy
        rw [if_neg (by simp)] at hy
        exact ⟨y, get_mem hy⟩
    obtain ⟨g, hg, hm⟩ := loop_ok hstep (namesAt fs (absComps cwd src)) [] (fs.put (absComps cwd dst) .dir) (by
      refine ⟨sound_put h.sound hD0 h.prop h.into h.free .dir, ?_, ?_, by simp, ?_⟩
      · rw [look_put hD0, if_pos rfl]
      · intro p hp
        rw [look_put hD0, if_neg (by rintro rfl; exact hp (List.prefix_refl _))]
      · intro x _ r
        rw [look_put hD0, if_neg (by intro e; have := congrArg List.length e; simp at this)]
        cases hlk : look fs (absComps cwd dst ++ x :: r) with
        | none => rfl
        | some z =>
          have := h.sound.rooted _ (by rw [hlk]; simp : look fs (absComps cwd dst ++ x :: r) ≠ none) (absComps cwd dst)
            (List.prefix_append _ _) (by intro e; have := congrArg List.length e; simp at this)
          rw [h.free] at this; cases this) (namesAt_nodup h.sound.uniq _)
      (fun x hx => ⟨by simp, (hms x).mp hx⟩)
    refine ⟨g, hg, hm.sound, ?_, hm.out⟩
    intro r
    cases r with
    | nil => rw [List.append_nil, List.append_nil, hm.dir, h.dir]
    | cons x r =>
      by_cases hx : x ∈ namesAt fs (absComps cwd src)
      · exact hm.yes x (by simpa using hx) r
      · rw [hm.no x (by simpa using hx) r]
        cases hlk : look fs (absComps cwd src ++ x :: r) with
        | none => rfl
        | some z =>
          exfalso; apply hx; rw [hms]
          by_cases hr : r = []
          · subst hr; rw [hlk]; simp
          · have := h.sound.rooted _ (by rw [hlk]; simp : look fs (absComps cwd src ++ x :: r) ≠ none) (absComps cwd src ++ [x])
              ⟨r, by simp⟩ (by intro e; have := List.append_cancel_left e; simp at this; exact hr this)
            rw [this]; simp

end Pisi.Act
