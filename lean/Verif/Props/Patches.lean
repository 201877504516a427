import Verif.Spec.Patches
import Verif.Props.Shell
import Verif.Lemmas.Actions

/-! # C167: patches -/
namespace Pisi.Patches
open Pisi.PatchesSpec Pisi.ShellSpec

variable {T : Type} (m : Machine T)

/-- A directory whose name the shell takes as it is. -/
def GoodDir (d : Str) : Prop := safe d = true ∧ d.getLast? ≠ some '/'

theorem join_good {d f : Str} (hd : GoodDir d) (hf : f.head? ≠ some '/') : Path.joinPath d [f] = d ++ '/' :: f := by
  have h0 : d ≠ [] := by rintro rfl; cases hd.1
  have hl : Path.lstripSlash f = f := by
    unfold Path.lstripSlash
    cases f with
    | nil => rfl
    | cons c f =>
      rw [List.dropWhile_cons_of_neg]
      simpa using hf
  simp [Path.joinPath, Path.joinStep, h0, hd.2, hl]

theorem safe_join {d f : Str} (hd : safe d = true) (hf : f.all safeChar = true) : safe (d ++ '/' :: f) = true := by
  cases d with
  | nil => cases hd
  | cons c d =>
    simp only [safe, Bool.and_eq_true, List.cons_append, List.all_append, List.all_cons] at hd ⊢
    exact ⟨hd.1, hd.2, by decide, hf⟩

theorem safe_all {f : Str} (h : safe f = true) : f.all safeChar = true := by
  cases f with
  | nil => cases h
  | cons c f =>
    simp only [safe, Bool.and_eq_true, List.all_cons] at h ⊢
    exact ⟨h.1.1, h.2⟩

theorem redirect_words (l : List Str) (f : Str) : redirect (l.map Tok.word ++ [.op '<', .word f]) = some (l, [f]) := by
  induction l with
  | nil => rfl
  | cons a l ih => simp only [List.map_cons, List.cons_append, redirect, ih, Option.map_some]

/-- `do_patch` on a file with a plain name. -/
theorem doPatch_plain (p : Patch) (f : Str) (hf : safe f = true) (ht : ∀ t, p.target = some t → t = [] ∨ safe t = true) (w : World T) :
    doPatch m f (p.level.getD 0) p.target w = match w.files f with
      | none => (w, .error .pisi)
      | some c => ({ w with tree := (m.patch w.tree (args p) c).1 },
          if (m.patch w.tree (args p) c).2 = 0 then .ok () else .error .pisi) := by
  unfold doPatch
  cases hc : w.files f with
  | none => rfl
  | some c =>
    have h1 : p.target.getD [] = [] ∨ safe (p.target.getD []) = true := by
      cases h : p.target with
      | none => exact Or.inl rfl
      | some t => exact ht t h
    have hr := (Shell.patch_iff (p.level.getD 0) (p.target.getD []) f h1).mpr hf
    unfold RunsFrom at hr
    have ha : ([['p','a','t','c','h'], '-' :: 'p' :: Nat.toDigits 10 (p.level.getD 0)] ++
        if p.target.getD [] = [] then [] else [p.target.getD []]) = ['p','a','t','c','h'] :: args p := by
      unfold args
      cases p.target with
      | none => rfl
      | some t => cases t <;> rfl
    rw [ha] at hr
    have hs : sh m w (Shell.render (Shell.patch (p.level.getD 0) (p.target.getD []) f)) =
        ({ w with tree := (m.patch w.tree (args p) c).1 }, (m.patch w.tree (args p) c).2) := by
      unfold sh
      rw [hr, Option.bind_some, redirect_words]
      simp only [hc]
    rw [hs]
    rfl

/-- No patch lies in the directory for temporary files itself. -/
def Apart (dir tmp : Str) (ps : List Patch) : Prop := ∀ p ∈ ps, ∀ x, '/' ∉ x → tmp ++ '/' :: x ≠ dir ++ '/' :: p.filename

theorem basename_sub (s : Str) : ∀ c ∈ Act.basename s, c ∈ s := by
  intro c hc
  unfold Act.basename at hc
  rw [List.mem_reverse] at hc
  have := (List.takeWhile_sublist _).subset hc
  rwa [List.mem_reverse] at this

/-- One patch. -/
theorem applyOne_plain {dir tmp : Str} (hd : GoodDir dir) (ht : GoodDir tmp) (p : Patch) (hp : Plain p) (ps : List Patch)
    (ha : Apart dir tmp ps) (hmem : p ∈ ps) (w : World T) :
    ∃ w', (∀ q ∈ ps, w'.files (dir ++ '/' :: q.filename) = w.files (dir ++ '/' :: q.filename)) ∧
      ((applyOne m dir tmp p w = (w', .ok ()) ∧ ∃ c, text m w.files dir p = some c ∧ m.patch w.tree (args p) c = (w'.tree, 0)) ∨
      (∃ e, applyOne m dir tmp p w = (w', .error e) ∧ ((text m w.files dir p = none ∧ w'.tree = w.tree) ∨
        ∃ c rc, text m w.files dir p = some c ∧ m.patch w.tree (args p) c = (w'.tree, rc) ∧ rc ≠ 0))) := by
  obtain ⟨h1, h2, h3⟩ := hp
  have hsafe : safe (dir ++ '/' :: p.filename) = true := safe_join hd.1 (safe_all h1)
  have hj := join_good hd h2
  -- without compression
  have plain : (∀ c t, p.ctype ≠ some (c :: t)) → ∃ w' : World T, (∀ q ∈ ps, w'.files (dir ++ '/' :: q.filename) = w.files (dir ++ '/' :: q.filename)) ∧
      ((applyOne m dir tmp p w = (w', .ok ()) ∧ ∃ c, text m w.files dir p = some c ∧ m.patch w.tree (args p) c = (w'.tree, 0)) ∨
      (∃ e, applyOne m dir tmp p w = (w', .error e) ∧ ((text m w.files dir p = none ∧ w'.tree = w.tree) ∨
        ∃ c rc, text m w.files dir p = some c ∧ m.patch w.tree (args p) c = (w'.tree, rc) ∧ rc ≠ 0))) := by
    intro hct
    have he : applyOne m dir tmp p w = doPatch m (dir ++ '/' :: p.filename) (p.level.getD 0) p.target w := by
      unfold applyOne
      rw [hj]
      cases hc : p.ctype with
      | none => rfl
      | some t => cases t with
        | nil => rfl
        | cons c t => exact absurd hc (hct c t)
    have hx : text m w.files dir p = w.files (dir ++ '/' :: p.filename) := by
      unfold text
      cases hc : p.ctype with
      | none => cases w.files (dir ++ '/' :: p.filename) <;> rfl
      | some t => cases t with
        | nil => cases w.files (dir ++ '/' :: p.filename) <;> simp
        | cons c t => exact absurd hc (hct c t)
    rw [he, doPatch_plain m p _ hsafe h3, hx]
    cases hf : w.files (dir ++ '/' :: p.filename) with
    | none => exact ⟨w, fun _ _ => rfl, Or.inr ⟨.pisi, rfl, Or.inl ⟨rfl, rfl⟩⟩⟩
    | some c =>
      dsimp only
      cases hm : m.patch w.tree (args p) c with
      | mk t rc =>
        refine ⟨{ w with tree := t }, fun _ _ => rfl, ?_⟩
        by_cases hrc : rc = 0
        · subst hrc
          exact Or.inl ⟨rfl, c, rfl, hm⟩
        · exact Or.inr ⟨.pisi, by simp [hrc], Or.inr ⟨c, rc, rfl, hm, hrc⟩⟩
  cases hc : p.ctype with
  | none => exact plain (by rw [hc]; intro _ _ h; cases h)
  | some t => cases t with
    | nil => exact plain (by rw [hc]; intro _ _ h; cases h)
    | cons k t =>
      -- the file written
      generalize hb : Act.basename (dir ++ '/' :: p.filename) = b
      have hbs : '/' ∉ b := hb ▸ Act.basename_noslash _
      have hbh : b.head? ≠ some '/' := by
        cases b with
        | nil => simp
        | cons x b => intro h; simp at h; exact hbs (by simp [h])
      have hba : b.all safeChar = true := by
        rw [List.all_eq_true]
        intro x hx
        exact List.all_eq_true.mp (safe_all hsafe) x (basename_sub _ x (hb ▸ hx))
      have ho : Path.joinPath tmp [b] = tmp ++ '/' :: b := join_good ht hbh
      have hos : safe (tmp ++ '/' :: b) = true := safe_join ht.1 hba
      have keep : ∀ (x : Str) (q : Patch), q ∈ ps →
          (set w (tmp ++ '/' :: b) x).files (dir ++ '/' :: q.filename) = w.files (dir ++ '/' :: q.filename) := by
        intro x q hq
        unfold set
        dsimp only
        rw [if_neg (fun h => ha q hq b hbs h.symm)]
      have he : applyOne m dir tmp p w = match uncompress m tmp (dir ++ '/' :: p.filename) (k :: t) w with
          | (w', .ok f') => doPatch m f' (p.level.getD 0) p.target w'
          | (w', .error e) => (w', .error e) := by
        unfold applyOne
        rw [hj, hc]
        rfl
      have hx : text m w.files dir p = match (if k :: t = ['g', 'z'] then some m.gunzip else if k :: t = ['b', 'z', '2'] then some m.bunzip
          else none) with
        | none => none
        | some g => (w.files (dir ++ '/' :: p.filename)).bind g := by
        unfold text
        rw [hc]
        dsimp only
        by_cases h1 : k :: t = ['g', 'z']
        · simp only [h1, if_true]
        · by_cases h2 : k :: t = ['b', 'z', '2']
          · simp only [h2, if_true, if_neg (by decide : ¬ ['b', 'z', '2'] = ['g', 'z'])]
          · simp only [if_neg h1, if_neg h2, if_neg (List.cons_ne_nil k t)]
            cases w.files (dir ++ '/' :: p.filename) <;> rfl
      rw [he, hx]
      unfold uncompress
      rw [hb, ho]
      dsimp only
      generalize (if k :: t = ['g', 'z'] then some m.gunzip else if k :: t = ['b', 'z', '2'] then some m.bunzip else none) = lib
      cases lib with
      | none => exact ⟨set w (tmp ++ '/' :: b) [], fun q hq => keep [] q hq, Or.inr ⟨.unbound, rfl, Or.inl ⟨rfl, rfl⟩⟩⟩
      | some g =>
        dsimp only
        cases hf : w.files (dir ++ '/' :: p.filename) with
        | none => exact ⟨w, fun _ _ => rfl, Or.inr ⟨.io, rfl, Or.inl ⟨rfl, rfl⟩⟩⟩
        | some x =>
          dsimp only
          rw [keep [] p hmem, hf]
          dsimp only [Option.bind_some]
          cases hg : g x with
          | none => exact ⟨set w (tmp ++ '/' :: b) [], fun q hq => keep [] q hq, Or.inr ⟨.io, rfl, Or.inl ⟨rfl, rfl⟩⟩⟩
          | some y =>
            dsimp only
            rw [doPatch_plain m p _ hos h3]
            have hy : (set w (tmp ++ '/' :: b) y).files (tmp ++ '/' :: b) = some y := by simp [set]
            rw [hy]
            dsimp only
            cases hm : m.patch w.tree (args p) y with
            | mk t rc =>
              have hm' : m.patch (set w (tmp ++ '/' :: b) y).tree (args p) y = (t, rc) := hm
              rw [hm']
              refine ⟨{ set w (tmp ++ '/' :: b) y with tree := t }, fun q hq => keep y q hq, ?_⟩
              by_cases hrc : rc = 0
              · subst hrc
                exact Or.inl ⟨rfl, y, rfl, hm⟩
              · exact Or.inr ⟨.pisi, by simp [hrc], Or.inr ⟨y, rc, rfl, hm, hrc⟩⟩

theorem text_congr {F G : Str → Option Str} {dir : Str} {p : Patch} (h : F (dir ++ '/' :: p.filename) = G (dir ++ '/' :: p.filename)) :
    text m F dir p = text m G dir p := by
  unfold text; rw [h]

theorem applied_congr {F G : Str → Option Str} {dir : Str} {ps : List Patch} {t t' : T}
    (h : ∀ q ∈ ps, F (dir ++ '/' :: q.filename) = G (dir ++ '/' :: q.filename)) (ha : Applied m F dir t ps t') : Applied m G dir t ps t' := by
  induction ha with
  | nil t => exact .nil t
  | cons t t1 t2 p l c h1 h2 _ ih =>
    exact .cons t t1 t2 p l c (by rw [← h1]; exact (text_congr m (h p List.mem_cons_self)).symm) h2
      (ih fun q hq => h q (List.mem_cons_of_mem _ hq))

/-- What is wanted: when `apply_patches` comes to its end, every patch of the specification has been applied as it is, in their order;
when it does not, the patches before some patch have been, and that one is unreadable or did not fit. -/
def PatchesFull : Prop := ∀ (T : Type) (m : Machine T) (dir tmp : Str) (ps : List Patch) (w w' : World T) (r : Except Err Unit),
  GoodDir dir → GoodDir tmp → Apart dir tmp ps → applyPatches m dir tmp ps w = (w', r) →
  (r = .ok () → Applied m w.files dir w.tree ps w'.tree) ∧
  (∀ e, r = .error e → ∃ qs p rest t, ps = qs ++ p :: rest ∧ Applied m w.files dir w.tree qs t ∧
    ((text m w.files dir p = none ∧ w'.tree = t) ∨
      ∃ c rc, text m w.files dir p = some c ∧ m.patch t (args p) c = (w'.tree, rc) ∧ rc ≠ 0))

/-- C167: true for patches whose names and targets have no meaning to the shell. -/
theorem patches_partial {dir tmp : Str} (hd : GoodDir dir) (ht : GoodDir tmp) (ps : List Patch) (hp : ∀ p ∈ ps, Plain p)
    (ha : Apart dir tmp ps) (w w' : World T) (r : Except Err Unit) (h : applyPatches m dir tmp ps w = (w', r)) :
    (r = .ok () → Applied m w.files dir w.tree ps w'.tree) ∧
    (∀ e, r = .error e → ∃ qs p rest t, ps = qs ++ p :: rest ∧ Applied m w.files dir w.tree qs t ∧
      ((text m w.files dir p = none ∧ w'.tree = t) ∨
        ∃ c rc, text m w.files dir p = some c ∧ m.patch t (args p) c = (w'.tree, rc) ∧ rc ≠ 0)) := by
  induction ps generalizing w with
  | nil =>
    cases h
    exact ⟨fun _ => .nil _, fun e h => by cases h⟩
  | cons p l ih =>
    obtain ⟨w1, hk, h1⟩ := applyOne_plain m hd ht p (hp p List.mem_cons_self) (p :: l) ha List.mem_cons_self w
    unfold applyPatches at h
    rcases h1 with ⟨h1, c, hc, hm⟩ | ⟨e, h1, h2⟩
    · rw [h1] at h
      obtain ⟨i1, i2⟩ := ih (fun q hq => hp q (List.mem_cons_of_mem _ hq)) (fun q hq => ha q (List.mem_cons_of_mem _ hq)) w1 h
      have hk' : ∀ q ∈ l, w1.files (dir ++ '/' :: q.filename) = w.files (dir ++ '/' :: q.filename) :=
        fun q hq => hk q (List.mem_cons_of_mem _ hq)
      refine ⟨fun hr => .cons _ _ _ _ _ c hc hm (applied_congr m hk' (i1 hr)), fun e he => ?_⟩
      obtain ⟨qs, q, rest, t, hl, hA, hB⟩ := i2 e he
      have hq : text m w1.files dir q = text m w.files dir q := text_congr m (hk' q (by rw [hl]; simp))
      rw [hq] at hB
      exact ⟨p :: qs, q, rest, t, by rw [hl]; rfl,
        .cons _ _ _ _ _ c hc hm (applied_congr m (fun x hx => hk' x (by rw [hl]; simp [hx])) hA), hB⟩
    · rw [h1] at h
      cases h
      exact ⟨(fun h => nomatch h), fun _ _ => ⟨[], p, l, w.tree, rfl, .nil _, h2⟩⟩

/-- A `patch` that notes what it was given. -/
def notes : Machine (List (List Str × Str)) := ⟨fun t a c => (t ++ [(a, c)], 0), some, some, fun w _ => (w, 127)⟩

/-- The names with a blank in them, and without. -/
def spaced : Patch := ⟨['a', ' ', 'b'], none, none, none⟩
def two : World (List (List Str × Str)) :=
  ⟨fun x => if x = ['/', 'f', '/', 'a', ' ', 'b'] then some ['P'] else if x = ['/', 'f', '/', 'a'] then some ['Q'] else none, []⟩

/-- A patch whose name has a blank in it: another file is read, and the rest of the name is the file to be changed. -/
theorem patches_refuted : ¬ PatchesFull := by
  intro h
  have hf : ∀ (x : Str), '/' ∉ x → ['/', 't'] ++ '/' :: x ≠ ['/', 'f'] ++ '/' :: ['a', ' ', 'b'] := by
    intro x _ h; simp at h
  obtain ⟨h1, -⟩ := h _ notes ['/', 'f'] ['/', 't'] [spaced] two
    (applyPatches notes ['/', 'f'] ['/', 't'] [spaced] two).1 (applyPatches notes ['/', 'f'] ['/', 't'] [spaced] two).2
    (by unfold GoodDir; decide) (by unfold GoodDir; decide) (by intro p hp; simp only [List.mem_singleton] at hp; subst hp; exact hf) rfl
  have hr := h1 (by decide +kernel)
  have ht : (applyPatches notes ['/', 'f'] ['/', 't'] [spaced] two).1.tree = [([['-', 'p', '0'], ['b']], ['Q'])] := by decide +kernel
  rw [ht] at hr
  generalize hx : [([['-', 'p', '0'], ['b']], ['Q'])] = x at hr
  cases hr with
  | cons t t' t'' p l c h1 h2 h3 =>
    have ha : args spaced = [['-', 'p', '0']] := by decide +kernel
    rw [ha] at h2
    cases h3
    cases h2
    revert hx
    simp [two]

/-- C167: the build does not begin unless all files of patches are there. -/
theorem patchExists_iff (dir : Str) (ps : List Patch) (w : World T) :
    patchExists dir ps w = .ok () ↔ ∀ p ∈ ps, ∃ c, w.files (Path.joinPath dir [p.filename]) = some c := by
  unfold patchExists
  by_cases h : (ps.all fun p => (w.files (Path.joinPath dir [p.filename])).isSome) = true
  · rw [if_pos h]
    simp only [true_iff]
    intro p hp
    exact Option.isSome_iff_exists.mp (List.all_eq_true.mp h p hp)
  · rw [if_neg h]
    constructor
    · intro h'; cases h'
    · intro h'
      exact absurd (List.all_eq_true.mpr fun p hp => Option.isSome_iff_exists.mpr (h' p hp)) h

/-- Two patches, one of them compressed, with a level and a file to be changed. -/
example : (applyPatches notes ['/', 'f'] ['/', 't'] [⟨['a'], none, none, none⟩, ⟨['s', '/', 'a'], some ['g', 'z'], some 12, some ['m']⟩]
    ⟨fun x => if x = ['/', 'f', '/', 'a'] then some ['P'] else if x = ['/', 'f', '/', 's', '/', 'a'] then some ['Q'] else none, []⟩).1.tree =
    [([['-', 'p', '0']], ['P']), ([['-', 'p', '1', '2'], ['m']], ['Q'])] := by decide +kernel

example : Plain ⟨['s', '/', 'a'], some ['g', 'z'], some 12, some ['m']⟩ :=
  ⟨by decide, by decide, fun t h => by cases h; exact Or.inr (by decide)⟩

end Pisi.Patches
