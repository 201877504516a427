import Verif.Spec.Fetch
import Verif.Lemmas.FS
import Verif.Props.Search
import Mathlib.Logic.Relation

/-! # C36-C38, C66, C67: downloads, mirrors and source archives -/
namespace Pisi.Fetch
open Pisi.FS

set_option linter.unusedSectionVars false

/-! ## Names -/

theorem part_ne (d : Str) : part d ≠ d := by
  intro h; have := congrArg List.length h; simp [part] at this

theorem mem_takeWhile_ne {s : List Char} : ¬ '/' ∈ s.takeWhile (· ≠ '/') := by
  induction s with
  | nil => simp
  | cons a s ih =>
    by_cases h : a = '/'
    · simp [h]
    · rw [List.takeWhile_cons_of_pos (by simpa using h), List.mem_cons, not_or]
      exact ⟨fun e => h e.symm, ih⟩

theorem takeWhile_all {s : List Char} (h : '/' ∉ s) : s.takeWhile (· ≠ '/') = s := by
  induction s with
  | nil => rfl
  | cons a s ih =>
    simp only [List.mem_cons, not_or] at h
    rw [List.takeWhile_cons_of_pos (by simpa using fun e => h.1 (Eq.symm e)), ih h.2]

theorem filename_noslash (u : Str) : '/' ∉ filename u := by
  unfold filename
  intro h
  rw [List.mem_reverse] at h
  exact mem_takeWhile_ne h

theorem takeWhile_append_stop {x : List Char} {s : Char} {y : List Char} (hs : s = '/') (h : '/' ∉ x) :
    (x ++ s :: y).takeWhile (· ≠ '/') = x := by
  subst hs
  induction x with
  | nil => simp
  | cons a x ih =>
    simp only [List.mem_cons, not_or] at h
    have : a ≠ '/' := fun e => h.1 e.symm
    simpa [this] using ih h.2

theorem filename_append (d f : Str) (h : '/' ∉ f) : filename (d ++ '/' :: f) = f := by
  unfold filename
  have : (d ++ '/' :: f).reverse = f.reverse ++ '/' :: d.reverse := by simp
  rw [this, takeWhile_append_stop rfl (by simpa using h), List.reverse_reverse]

theorem filename_split (s : Str) (h : '/' ∈ s) : ∃ d, s = d ++ '/' :: filename s := by
  induction s with
  | nil => simp at h
  | cons a s ih =>
    by_cases hs : '/' ∈ s
    · obtain ⟨d, hd⟩ := ih hs
      refine ⟨a :: d, ?_⟩
      have : filename (a :: s) = filename s := by
        rw [hd, filename_append d _ (filename_noslash s), ← List.cons_append, filename_append _ _ (filename_noslash s)]
      rw [this, List.cons_append, ← hd]
    · have ha : a = '/' := by
        rcases List.mem_cons.mp h with e | e
        · exact e.symm
        · exact absurd e hs
      subst ha
      exact ⟨[], by rw [show '/' :: s = [] ++ '/' :: s from rfl, filename_append [] s hs]⟩

theorem filename_of_noslash (s : Str) (h : '/' ∉ s) : filename s = s := by
  unfold filename
  rw [takeWhile_all (by simpa using h), List.reverse_reverse]

theorem filename_append_eq (d s : Str) : filename (d ++ '/' :: s) = filename s := by
  by_cases h : '/' ∈ s
  · obtain ⟨e, he⟩ := filename_split s h
    rw [show d ++ '/' :: s = (d ++ '/' :: e) ++ '/' :: filename s by rw [List.append_assoc, List.cons_append, ← he],
      filename_append _ _ (filename_noslash s)]
  · rw [filename_append _ _ h, filename_of_noslash s h]

theorem filename_lstrip (s : Str) : filename (Path.lstripSlash s) = filename s := by
  induction s with
  | nil => rfl
  | cons a s ih =>
    by_cases ha : a = '/'
    · subst ha
      have : Path.lstripSlash ('/' :: s) = Path.lstripSlash s := by simp [Path.lstripSlash]
      rw [this, ih, show '/' :: s = [] ++ '/' :: s from rfl, filename_append_eq]
    · have : Path.lstripSlash (a :: s) = a :: s := by simp [Path.lstripSlash, ha]
      rw [this]

theorem filename_join (m a : Str) (hm : m ≠ []) : filename (Path.joinPath m [a]) = filename a := by
  unfold Path.joinPath
  simp only [List.foldl_cons, List.foldl_nil]
  unfold Path.joinStep
  by_cases h : m = [] ∨ m.getLast? = some '/'
  · rw [if_pos h]
    rcases h with h | h
    · exact absurd h hm
    · obtain ⟨d, rfl⟩ : ∃ d, m = d ++ ['/'] := by
        rw [List.getLast?_eq_some_iff] at h
        exact h
      rw [List.append_assoc, List.singleton_append, filename_append_eq, filename_lstrip]
  · rw [if_neg h, filename_append_eq, filename_lstrip]

theorem after_eq : ∀ (p s r : Str), after p s = some r → s = p ++ r := by
  intro p
  induction p with
  | nil => intro s r h; simp [after] at h; simp [h]
  | cons a p ih =>
    intro s r h
    cases s with
    | nil => simp [after] at h
    | cons c s =>
      unfold after at h
      by_cases e : a = c
      · rw [if_pos e] at h; subst e; rw [ih s r h]; rfl
      · rw [if_neg e] at h; cases h

theorem kind_mirror {u name archive : Str} (h : kind u = .mirror name archive) :
    filename u = filename archive ∨ archive = [] := by
  unfold kind at h
  cases ha : after "mirrors://".toList u with
  | none =>
    rw [ha] at h
    simp only [] at h
    cases hb : after "file://".toList u with
    | some r => rw [hb] at h; cases h
    | none =>
      rw [hb] at h
      simp only [] at h
      by_cases hc : ':' ∈ u
      · rw [if_pos hc] at h; cases h
      · rw [if_neg hc] at h; cases h
  | some r =>
    rw [ha] at h
    simp only [Kind.mirror.injEq] at h
    obtain ⟨_, rfl⟩ := h
    have hu := after_eq _ _ _ ha
    cases hd : r.dropWhile (· ≠ '/') with
    | nil => right; rfl
    | cons x y =>
      left
      have hx : x = '/' := by
        have := List.head?_dropWhile_not (· ≠ '/') r
        rw [hd] at this
        simpa using this
      subst hx
      have hr : r = r.takeWhile (· ≠ '/') ++ '/' :: y := by
        rw [← hd, List.takeWhile_append_dropWhile]
      rw [hu, hr, ← List.append_assoc, filename_append_eq]
      simp

/-! ## The mirrors file -/

theorem splitLoop_words (s : Str) : ∀ w : Str, (∀ c ∈ w, isSpace c = false) → Search.Words isSpace (w ++ s) (splitLoop w s) := by
  induction s with
  | nil =>
    intro w h
    rw [List.append_nil]
    unfold splitLoop
    cases w with
    | nil => exact .nil
    | cons c w => rw [if_neg (by simp)]; exact .last _ (by simp) h
  | cons x s ih =>
    intro w h
    unfold splitLoop
    by_cases hx : isSpace x = true
    · rw [if_pos hx]
      cases w with
      | nil => exact .sep x s _ hx (by simpa using ih [] (by simp))
      | cons c w =>
        rw [if_neg (by simp)]
        exact .word (c :: w) x s _ (by simp) h hx (by simpa using ih [] (by simp))
    · rw [if_neg hx]
      have := ih (w ++ [x]) (by
        intro c hc
        rcases List.mem_append.mp hc with hc | hc
        · exact h c hc
        · rw [List.mem_singleton.mp hc]; simpa using hx)
      simpa using this

/-- A line of the mirrors file that gives a mirror of a name: two words, and no comment. -/
def Entry (line name url : Str) : Prop := line.head? ≠ some '#' ∧ Search.Words isSpace line [name, url]

/-- The mirrors of a name, in the order of their lines. -/
inductive Entries (name : Str) : List Str → List Str → Prop
  | nil : Entries name [] []
  | skip (line : Str) (ls us : List Str) : (∀ url, ¬ Entry line name url) → Entries name ls us → Entries name (line :: ls) us
  | take (line url : Str) (ls us : List Str) : Entry line name url → Entries name ls us →
      Entries name (line :: ls) (url :: us)

theorem addLine_spec (d : Dict Str (List Str)) (line name : Str) :
    (∃ url, Entry line name url ∧ (addLine d line).get name = some ((d.get name).getD [] ++ [url])) ∨
    ((∀ url, ¬ Entry line name url) ∧ (addLine d line).get name = d.get name) := by
  have hw := splitLoop_words line [] (by simp)
  rw [List.nil_append] at hw
  have uniq : ∀ ws, Search.Words isSpace line ws → ws = splitLoop [] line := fun ws h => Search.words_unique h hw
  unfold addLine
  by_cases hc : line.head? = some '#'
  · rw [if_pos hc]; exact Or.inr ⟨fun url h => h.1 hc, rfl⟩
  · rw [if_neg hc]
    match hs : splitLoop [] line with
    | [] => exact Or.inr ⟨fun url h => (by have := uniq _ h.2; rw [hs] at this; cases this), rfl⟩
    | [_] => exact Or.inr ⟨fun url h => (by have := uniq _ h.2; rw [hs] at this; cases this), rfl⟩
    | _ :: _ :: _ :: _ => exact Or.inr ⟨fun url h => (by have := uniq _ h.2; rw [hs] at this; cases this), rfl⟩
    | [n, url] =>
      simp only []
      by_cases hn : n = name
      · subst hn
        exact Or.inl ⟨url, ⟨hc, hs ▸ hw⟩, by rw [Dict.get_put, if_pos rfl]⟩
      · refine Or.inr ⟨fun url' h => ?_, by rw [Dict.get_put, if_neg hn]⟩
        have := uniq _ h.2
        rw [hs] at this
        simp only [List.cons.injEq] at this
        exact hn this.1.symm

theorem foldl_addLine (name : Str) (lines : List Str) : ∀ d : Dict Str (List Str), ∃ us, Entries name lines us ∧
    (lines.foldl addLine d).get name = if us = [] then d.get name else some ((d.get name).getD [] ++ us) := by
  induction lines with
  | nil => intro d; exact ⟨[], .nil, by simp⟩
  | cons l lines ih =>
    intro d
    obtain ⟨us, he, hu⟩ := ih (addLine d l)
    rw [List.foldl_cons, hu]
    rcases addLine_spec d l name with ⟨url, h, hg⟩ | ⟨h, hg⟩
    · refine ⟨url :: us, .take l url lines us h he, ?_⟩
      rw [hg, if_neg (by simp : ¬ url :: us = [])]
      by_cases hn : us = []
      · rw [if_pos hn, hn]
      · rw [if_neg hn]; simp
    · exact ⟨us, .skip l lines us h he, by rw [hg]⟩

theorem entry_unique {line name url url' : Str} (h : Entry line name url) (h' : Entry line name url') : url = url' := by
  have := Search.words_unique h.2 h'.2
  simpa using this

theorem entries_unique {name : Str} {lines us us' : List Str} (h : Entries name lines us) (h' : Entries name lines us') :
    us = us' := by
  induction h generalizing us' with
  | nil => cases h'; rfl
  | skip line ls us hn _ ih => cases h' with
    | skip _ _ _ _ h' => exact ih h'
    | take _ url _ _ he h' => exact absurd he (hn url)
  | take line url ls us he _ ih => cases h' with
    | skip _ _ _ hn h' => exact absurd he (hn url)
    | take _ url' _ us' he' h' => rw [entry_unique he he', ih h']

/-- **C67.** The mirrors of a name are the second words of the lines that consist of the name and one more word and are not
comments, in the order of the file; a name without such lines has none. -/
theorem mirrors_exact (lines : List Str) (name : Str) (us : List Str) :
    Entries name lines us ↔ getMirrors (some lines) name = .ok (if us = [] then none else some us) := by
  obtain ⟨vs, he, hg⟩ := foldl_addLine name lines []
  have : getMirrors (some lines) name = .ok (if vs = [] then none else some vs) := by
    unfold getMirrors parseMirrors
    simp only []
    rw [hg]
    simp [Dict.get_nil]
  rw [this]
  constructor
  · intro h; rw [entries_unique h he]
  · intro h
    simp only [Except.ok.injEq] at h
    by_cases hv : vs = []
    · by_cases hu : us = []
      · rw [hu, ← hv]; exact he
      · rw [if_pos hv, if_neg hu] at h; cases h
    · by_cases hu : us = []
      · rw [if_neg hv, if_pos hu] at h; cases h
      · rw [if_neg hv, if_neg hu] at h; cases h; exact he

/-- **C67.** Without the file every name fails. -/
theorem mirrors_missing (name : Str) : getMirrors none name = .error .pisi := rfl

example : getMirrors (some ["sf http://a/x".toList, "# sf http://no".toList, "sf".toList, "gnu ftp://g".toList,
    " sf\thttp://b  ".toList]) "sf".toList = .ok (some ["http://a/x".toList, "http://b".toList]) := by rfl

theorem entries_ne {name : Str} {lines us : List Str} (h : Entries name lines us) : ∀ u ∈ us, u ≠ [] := by
  induction h with
  | nil => simp
  | skip _ _ _ _ _ ih => exact ih
  | take line url ls us he _ ih =>
    intro u hu
    rcases List.mem_cons.mp hu with rfl | hu
    · exact (Search.words_nosep he.2 u (by simp)).1
    · exact ih u hu

theorem getMirrors_ne {conf : Option (List Str)} {name : Str} {ms : List Str} (h : getMirrors conf name = .ok (some ms)) :
    ms ≠ [] ∧ ∀ m ∈ ms, m ≠ [] := by
  cases conf with
  | none => cases h
  | some lines =>
    obtain ⟨us, he, hg⟩ := foldl_addLine name lines []
    have h' := (mirrors_exact lines name us).mp he
    rw [h] at h'
    simp only [Except.ok.injEq] at h'
    by_cases hu : us = []
    · rw [if_pos hu] at h'; cases h'
    · rw [if_neg hu] at h'; cases h'; exact ⟨hu, entries_ne he⟩

theorem leads_filename {conf : Option (List Str)} {u v : Str} (h : Leads conf u v) : filename v = filename u ∨ filename v = [] := by
  induction h with
  | refl => exact Or.inl rfl
  | mirror v name archive ms m _ hk hg hm ih =>
    rw [filename_join m archive ((getMirrors_ne hg).2 m hm)]
    rcases kind_mirror hk with e | e
    · rw [← e]; exact ih
    · rw [e]; exact Or.inr rfl

/-! ## One download -/

theorem stat_none {fs : FS} {p : Str} (h : fs.get p = none) : stat fs p = none := by
  unfold stat statN; rw [h]

theorem stat_file {fs : FS} {p c : Str} (h : fs.get p = some (.file c)) : stat fs p = some (.file c) := by
  unfold stat statN; rw [h]

theorem stat_dir {fs : FS} {p : Str} (h : fs.get p = some .dir) : stat fs p = some .dir := by
  unfold stat statN; rw [h]

theorem get_put_ne (fs : FS) {p k : Str} (n : Node) (h : k ≠ p) : (fs.put p n).get k = fs.get k := by
  rw [Dict.get_put, if_neg (Ne.symm h)]

theorem get_put_eq (fs : FS) (p : Str) (n : Node) : (fs.put p n).get p = some n := by
  rw [Dict.get_put, if_pos rfl]

theorem get_del_ne (fs : FS) {p k : Str} (h : k ≠ p) : (fs.del p).get k = fs.get k := by
  rw [Dict.get_del, if_neg (Ne.symm h)]

theorem get_del_eq (fs : FS) (p : Str) : (fs.del p).get p = none := by
  rw [Dict.get_del, if_pos rfl]

/-- Everything but `p` stays, and at `p` there is a part of `c`. -/
def Only (fs : FS) (p c : Str) (s : FS) : Prop := Part s p c ∧ ∀ k, k ≠ p → s.get k = fs.get k

theorem appendFile_sat (fs : FS) (p c0 data c : Str) (h : c0 ++ data <+: c) :
    (appendFile fs p c0 data).Sat (Only fs p c)
      (fun s => Only fs p c s ∧ s.get p = some (.file (c0 ++ data))) := by
  unfold appendFile
  by_cases hd : isDir fs (dirname p) = true
  · rw [if_pos hd]
    refine ⟨fun s hs => ?_, fun s hs => ?_⟩
    · obtain ⟨k, _, rfl⟩ := List.mem_map.mp hs
      refine ⟨Or.inr ⟨_, ?_, get_put_eq _ _ _⟩, fun k' hk => get_put_ne _ _ hk⟩
      exact List.IsPrefix.trans ((List.prefix_append_right_inj c0).mpr (List.take_prefix k data)) h
    · simp only [Except.ok.injEq] at hs
      subst hs
      exact ⟨⟨Or.inr ⟨_, h, get_put_eq _ _ _⟩, fun k' hk => get_put_ne _ _ hk⟩, get_put_eq _ _ _⟩
  · rw [if_neg hd]; exact Tr.sat_fail

theorem grab_sat (sv : Server) (fs : FS) (p c0 c : Str) (hs : Honest sv c) (h0 : c0 <+: c) :
    (grab sv fs p c0).Sat (Only fs p c) (fun s => Only fs p c s ∧ s.get p = some (.file c)) := by
  unfold grab
  obtain ⟨r, rfl⟩ := h0
  cases he : sv.serve c0.length with
  | none => exact Tr.sat_fail
  | some x =>
    obtain ⟨data, done⟩ := x
    obtain ⟨h1, h2⟩ := hs _ _ _ he
    rw [List.drop_left] at h1 h2
    refine Tr.Sat.bind (appendFile_sat fs p c0 data (c0 ++ r) ((List.prefix_append_right_inj c0).mpr h1)) ?_
    rintro s ⟨ho, hg⟩
    cases done with
    | false => exact Tr.sat_fail
    | true => rw [if_pos rfl]; exact Tr.sat_pure ⟨ho, by rw [hg, h2 rfl]⟩

theorem only_trans {fs fs' s : FS} {p c : Str} (h : ∀ k, k ≠ p → fs'.get k = fs.get k) (h' : Only fs' p c s) : Only fs p c s :=
  ⟨h'.1, fun k hk => (h'.2 k hk).trans (h k hk)⟩

theorem unlink_sat (fs : FS) (p c : Str) :
    (Tr.atomic (unlink fs p)).Sat (Only fs p c) (fun s => (∀ k, k ≠ p → s.get k = fs.get k) ∧ s.get p = none) := by
  refine Tr.sat_atomic fun s hs => ?_
  obtain ⟨rfl, _⟩ := unlink_ok hs
  exact ⟨⟨Or.inl (get_del_eq _ _), fun k hk => get_del_ne _ hk⟩, fun k hk => get_del_ne _ hk, get_del_eq _ _⟩

theorem fetchRemote_sat (sv : Server) (fs : FS) (p c : Str) (hs : Honest sv c) (h0 : Part fs p c) :
    (fetchRemote sv fs p).Sat (Only fs p c) (fun s => Only fs p c s ∧ s.get p = some (.file c)) := by
  have again : (Tr.bind (Tr.atomic (unlink fs p)) (fun fs => grab sv fs p [])).Sat (Only fs p c)
      (fun s => Only fs p c s ∧ s.get p = some (.file c)) := by
    refine Tr.Sat.bind (unlink_sat fs p c) fun s hk => ?_
    exact Tr.Sat.mono (grab_sat sv s p [] c hs (List.nil_prefix)) (fun t ht => only_trans hk.1 ht)
      (fun t ht => ⟨only_trans hk.1 ht.1, ht.2⟩)
  unfold fetchRemote
  rcases h0 with h0 | ⟨d, hd, h0⟩
  · rw [stat_none h0]; exact grab_sat sv fs p [] c hs (List.nil_prefix)
  · rw [stat_file h0]
    simp only []
    cases sv.probe with
    | other => exact Tr.sat_fail
    | urlError => exact again
    | answers b => cases b with
      | false => exact again
      | true => exact grab_sat sv fs p d c hs hd

theorem writeFile_sat (fs : FS) (p c d : Str) (h : d <+: c) :
    (writeFile fs p d).Sat (Only fs p c) (fun s => Only fs p c s ∧ s.get p = some (.file d)) := by
  have go : Tr.Sat (((List.range (d.length + 1)).map (fun k => fs.put p (.file (d.take k))), .ok (fs.put p (.file d))) : Tr FS)
      (Only fs p c) (fun s => Only fs p c s ∧ s.get p = some (.file d)) := by
    refine ⟨fun s hs => ?_, fun s hs => ?_⟩
    · obtain ⟨k, _, rfl⟩ := List.mem_map.mp hs
      exact ⟨Or.inr ⟨_, (List.take_prefix k d).trans h, get_put_eq _ _ _⟩, fun k' hk => get_put_ne _ _ hk⟩
    · simp only [Except.ok.injEq] at hs
      subst hs
      exact ⟨⟨Or.inr ⟨_, h, get_put_eq _ _ _⟩, fun k' hk => get_put_ne _ _ hk⟩, get_put_eq _ _ _⟩
  unfold writeFile
  simp only []
  by_cases hd : isDir fs (dirname p) = true
  · rw [if_pos hd]
    cases fs.get p with
    | none => exact go
    | some n => cases n with
      | file _ => exact go
      | link _ => exact Tr.sat_fail
      | dir => exact Tr.sat_fail
  · rw [if_neg hd]; exact Tr.sat_fail

theorem fetchLocal_sat (fs : FS) (src p c : Str) (hn : src ≠ p) (hs : fs.get src = some (.file c)) :
    (fetchLocal fs src p).Sat (Only fs p c) (fun s => Only fs p c s ∧ s.get p = some (.file c)) := by
  unfold fetchLocal
  by_cases he : existsP fs src = true
  · rw [if_pos he]
    refine Tr.Sat.bind (writeFile_sat fs p c [] (List.nil_prefix)) ?_
    rintro s ⟨ho, _⟩
    rw [stat_file ((ho.2 src hn).trans hs)]
    simp only []
    exact Tr.Sat.mono (writeFile_sat s p c c (List.prefix_refl c)) (fun t ht => only_trans ho.2 ht)
      (fun t ht => ⟨only_trans ho.2 ht.1, ht.2⟩)
  · rw [if_neg he]; exact Tr.sat_fail

/-- The states while the file is being put in place. -/
def Placed (fs : FS) (p dest c : Str) (s : FS) : Prop :=
  Part s p c ∧ (s.get dest = fs.get dest ∨ (s.get dest = some (.file c) ∧ c ≠ [])) ∧
  ∀ k, k ≠ p → k ≠ dest → s.get k = fs.get k

/-- The state after the file has been put in place. -/
def Done (p dest c : Str) (s : FS) : Prop := s.get dest = some (.file c) ∧ c ≠ [] ∧ s.get p = none

theorem finish_sat (fs : FS) (p dest c : Str) (hne : dest ≠ p) (h : fs.get p = some (.file c)) :
    (finish fs p dest).Sat (Placed fs p dest c) (fun s => Placed fs p dest c s ∧ Done p dest c s) := by
  unfold finish
  rw [stat_file h]
  cases c with
  | nil =>
    simp only []
    refine Tr.Sat.bind (Q := fun _ => True) ?_ (fun _ _ => Tr.sat_fail)
    refine Tr.sat_atomic fun s hs => ⟨?_, trivial⟩
    obtain ⟨rfl, _⟩ := unlink_ok hs
    exact ⟨Or.inl (get_del_eq _ _), Or.inl (get_del_ne _ hne), fun k hk _ => get_del_ne _ hk⟩
  | cons x c =>
    simp only []
    refine Tr.sat_atomic fun s hs => ?_
    obtain ⟨n, hg, _, _, rfl⟩ := rename_ok hs
    rw [h] at hg
    cases hg
    have hp : ((fs.del p).put dest (.file (x :: c))).get p = none := by
      rw [get_put_ne _ _ (Ne.symm hne), get_del_eq]
    refine ⟨⟨Or.inl hp, Or.inr ⟨get_put_eq _ _ _, by simp⟩, fun k h1 h2 => ?_⟩,
      ⟨Or.inl hp, Or.inr ⟨get_put_eq _ _ _, by simp⟩, fun k h1 h2 => ?_⟩, get_put_eq _ _ _, by simp, hp⟩
    all_goals rw [get_put_ne _ _ h2, get_del_ne _ h1]

theorem get_file (x : FS → Tr FS) (fs : FS) (p dest c : Str) (hne : dest ≠ p)
    (hx : (x fs).Sat (Only fs p c) (fun s => Only fs p c s ∧ s.get p = some (.file c))) :
    (Tr.bind (x fs) (fun s => finish s p dest)).Sat (Placed fs p dest c) (fun s => Placed fs p dest c s ∧ Done p dest c s) := by
  have tr : ∀ s t, Only fs p c s → Placed s p dest c t → Placed fs p dest c t := by
    intro s t ho ht
    refine ⟨ht.1, ?_, fun k h1 h2 => (ht.2.2 k h1 h2).trans (ho.2 k h1)⟩
    rw [← ho.2 dest hne]; exact ht.2.1
  refine Tr.Sat.bind (Tr.Sat.mono hx (fun s hs => ?_) (fun s hs => hs)) fun s hs => ?_
  · exact ⟨hs.1, Or.inl (hs.2 dest hne), fun k h1 _ => hs.2 k h1⟩
  · exact Tr.Sat.mono (finish_sat s p dest c hne hs.2) (fun t ht => tr s t hs.1 ht) (fun t ht => ⟨tr s t hs.1 ht.1, ht.2⟩)

/-! ## C36: downloads are atomic -/

theorem final_sat {P : FS → Prop} {x : Tr FS} {Q : FS → Prop} {fs : FS} (h : P fs) (hx : x.Sat P Q) : P (final fs x) := by
  unfold final
  cases hl : x.1.getLast? with
  | none => exact h
  | some s => exact hx.1 s (List.mem_of_getLast? hl)

theorem mirrorLoop_sat {P Q : FS → Prop} {f : FS → Str → Tr FS} : ∀ (us : List Str) (fs : FS), P fs →
    (∀ s u, u ∈ us → P s → (f s u).Sat P Q) → (mirrorLoop f fs us).Sat P Q := by
  intro us
  induction us with
  | nil => intro fs _ _; exact Tr.sat_fail
  | cons u us ih =>
    intro fs h hf
    have h1 := hf fs u (by simp) h
    unfold mirrorLoop
    cases hr : (f fs u).2 with
    | ok fs' => exact ⟨h1.1, fun b hb => by simp only [Except.ok.injEq] at hb; exact hb ▸ h1.2 fs' hr⟩
    | error e =>
      have rest := ih (final fs (f fs u)) (final_sat h h1) (fun s v hv hs => hf s v (by simp [hv]) hs)
      cases e with
      | fetch =>
        refine ⟨fun s hs => ?_, rest.2⟩
        rcases List.mem_append.mp hs with hs | hs
        · exact h1.1 s hs
        · exact rest.1 s hs
      | _ => exact ⟨h1.1, fun b hb => by cases hb⟩

theorem prefixes_length : ∀ (r acc d : Str), d ∈ prefixes acc r → d.length ≤ acc.length + r.length := by
  intro r
  induction r with
  | nil => intro acc d h; simp [prefixes] at h; simp [h]
  | cons c r ih =>
    intro acc d h
    unfold prefixes at h
    have key : d ∈ prefixes (acc ++ [c]) r → d.length ≤ acc.length + (c :: r).length := by
      intro h; have := ih _ _ h; simp at this ⊢; omega
    by_cases hc : c = '/' ∧ acc ≠ []
    · rw [if_pos hc] at h
      rcases List.mem_cons.mp h with rfl | h
      · simp
      · exact key h
    · rw [if_neg hc] at h; exact key h

theorem mkdirs_keeps' (ds : List Str) : ∀ (s : FS) (k : Str), k ∉ ds → (mkdirs s ds).Keeps s k := by
  induction ds with
  | nil => intro s k _; exact keeps_pure s k
  | cons d ds ih =>
    intro s k hk
    simp only [List.mem_cons, not_or] at hk
    unfold mkdirs
    cases hs : stat s d with
    | some n => cases n with
      | dir => exact ih s k hk.2
      | file _ => exact keeps_fail _ _ _
      | link _ => exact keeps_fail _ _ _
    | none =>
      cases hg : s.get d with
      | some n => exact keeps_fail _ _ _
      | none => exact Tr.Keeps.bind (put_keeps s d k .dir hk.1) fun t _ => ih t k hk.2

theorem checkDir_keeps' (s : FS) (d k : Str) (hk : d.length < k.length) : (checkDir s d).Keeps s k := by
  unfold checkDir
  refine keeps_ite (fun _ => keeps_pure _ _) fun _ => ?_
  unfold makedirs
  refine keeps_ite (fun _ => keeps_fail _ _ _) fun _ => mkdirs_keeps' _ _ _ ?_
  intro h
  have := prefixes_length _ _ _ h
  simp at this
  omega

theorem target_length (d u : Str) : d.length < (target d u).length := by simp [target]
theorem part_length (d u : Str) : d.length < (part (target d u)).length := by simp [part, target]

/-- The invariant of a download of `c` by `u`: the sources are in place, the partial file is part of `c`, the destination is as
before or complete. -/
structure Inv (conf : Option (List Str)) (destdir u c : Str) (old : Option Node) (s : FS) : Prop where
  part : Part s (part (target destdir u)) c
  dest : s.get (target destdir u) = old ∨ (s.get (target destdir u) = some (.file c) ∧ c ≠ [])
  loc : ∀ v src, Leads conf u v → kind v = .loc src → src ≠ target destdir u ∧ src ≠ Fetch.part (target destdir u) ∧
    s.get src = some (.file c)

theorem inv_placed {conf : Option (List Str)} {destdir u c : Str} {old : Option Node} {s t : FS}
    (h : Inv conf destdir u c old s) (hp : Placed s (part (target destdir u)) (target destdir u) c t) :
    Inv conf destdir u c old t := by
  refine ⟨hp.1, ?_, fun v src hl hk => ?_⟩
  · rcases hp.2.1 with e | e
    · rw [e]; exact h.dest
    · exact Or.inr e
  · obtain ⟨h1, h2, h3⟩ := h.loc v src hl hk
    exact ⟨h1, h2, by rw [hp.2.2 src h2 h1]; exact h3⟩

theorem checkDir_inv {conf : Option (List Str)} {destdir u c : Str} {old : Option Node} {s : FS}
    (h : Inv conf destdir u c old s) : (checkDir s destdir).Sat (Inv conf destdir u c old) (Inv conf destdir u c old) := by
  have k1 := checkDir_keeps' s destdir (target destdir u) (target_length _ _)
  have k2 := checkDir_keeps' s destdir (part (target destdir u)) (part_length _ _)
  have k3 : ∀ k, s.get k ≠ none → (checkDir s destdir).Keeps s k := fun k => checkDir_keeps s destdir k
  have mk : ∀ t, t.get (target destdir u) = s.get (target destdir u) →
      t.get (part (target destdir u)) = s.get (part (target destdir u)) →
      (∀ k, s.get k ≠ none → t.get k = s.get k) → Inv conf destdir u c old t := by
    intro t e1 e2 e3
    refine ⟨?_, by rw [e1]; exact h.dest, fun v src hl hk => ?_⟩
    · unfold Part; rw [e2]; exact h.part
    · obtain ⟨h1, h2, h3⟩ := h.loc v src hl hk
      exact ⟨h1, h2, by rw [e3 src (by rw [h3]; simp)]; exact h3⟩
  exact ⟨fun t ht => mk t (k1.1 t ht) (k2.1 t ht) (fun k hk => (k3 k hk).1 t ht),
    fun t ht => mk t (k1.2 t ht) (k2.2 t ht) (fun k hk => (k3 k hk).2 t ht)⟩

theorem fetch_sat (net : Net) (conf : Option (List Str)) (destdir u c : Str) (old : Option Node)
    (hr : ∀ v, Leads conf u v → kind v = .remote → Honest (net v) c) : ∀ (n : Nat) (s : FS) (v : Str), Leads conf u v →
    Inv conf destdir u c old s → (fetch net conf destdir n s v).Sat (Inv conf destdir u c old)
      (fun t => Inv conf destdir u c old t ∧ Done (part (target destdir u)) (target destdir u) c t) := by
  intro n
  induction n with
  | zero => intro s v _ _; exact Tr.sat_fail
  | succ n ih =>
    intro s v hl hi
    unfold fetch
    refine Tr.Sat.bind (checkDir_inv hi) fun s hi => ?_
    by_cases hf : filename v = []
    · rw [if_pos hf]; exact Tr.sat_fail
    · rw [if_neg hf]
      have ht : target destdir v = target destdir u := by
        rcases leads_filename hl with e | e
        · unfold target; rw [e]
        · exact absurd e hf
      have hne : target destdir u ≠ part (target destdir u) := (part_ne _).symm
      rw [ht]
      cases hk : kind v with
      | mirror name archive =>
        simp only []
        unfold fetchMirror
        cases hg : getMirrors conf name with
        | error e => exact Tr.sat_fail
        | ok o => cases o with
          | none => exact Tr.sat_fail
          | some ms => cases ms with
            | nil => exact Tr.sat_fail
            | cons m ms =>
              simp only []
              refine mirrorLoop_sat _ s hi fun t w hw hit => ?_
              obtain ⟨m', hm', rfl⟩ := List.mem_map.mp hw
              exact ih t _ (.mirror v name archive _ m' hl hk hg hm') hit
      | loc src =>
        simp only []
        obtain ⟨h1, h2, h3⟩ := hi.loc v src hl hk
        exact Tr.Sat.mono (get_file (fun s => fetchLocal s src (part (target destdir u))) s _ _ c hne
          (fetchLocal_sat s src _ c h2 h3)) (fun t h => inv_placed hi h) (fun t h => ⟨inv_placed hi h.1, h.2⟩)
      | remote =>
        simp only []
        exact Tr.Sat.mono (get_file (fun s => fetchRemote (net v) s (part (target destdir u))) s _ _ c hne
          (fetchRemote_sat (net v) s _ c (hr v hl hk) hi.part)) (fun t h => inv_placed hi h) (fun t h => ⟨inv_placed hi h.1, h.2⟩)

/-- **C36**, full statement: whenever the sources of a URL have the file `c`, the destination is as before or is the complete
file, in every state of a download. -/
def DownloadFull : Prop := ∀ (net : Net) (conf : Option (List Str)) (destdir u c : Str) (fs : FS) (n : Nat),
  Sources net conf fs destdir u c → ∀ s ∈ (fetch net conf destdir n fs u).1,
    s.get (target destdir u) = fs.get (target destdir u) ∨ (s.get (target destdir u) = some (.file c) ∧ c ≠ [])

/-- A server with the file `c`. -/
def serverOf (c : Str) : Server :=
  { probe := .answers true, serve := fun n => if n < c.length then some (c.drop n, true) else none }

theorem serverOf_reliable (c : Str) : Reliable (serverOf c) c := ⟨rfl, fun _ => rfl⟩

theorem reliable_honest {sv : Server} {c : Str} (h : Reliable sv c) : Honest sv c := by
  intro n data done e
  rw [h.2 n] at e
  by_cases hn : n < c.length
  · rw [if_pos hn] at e; cases e; exact ⟨List.prefix_refl _, fun _ => rfl⟩
  · rw [if_neg hn] at e; cases e

/-- **C36.** A partial file of something else gets into the destination. -/
theorem download_refuted : ¬ DownloadFull := by
  intro h
  have hs : Sources (fun _ => serverOf ['1', '2']) none [(['/', 'd'], .dir), ("/d/x.part".toList, .file ['9'])] ['/', 'd']
      "h:/x".toList ['1', '2'] := by
    refine ⟨fun _ _ _ => reliable_honest (serverOf_reliable _), fun v src hl hk => ?_⟩
    have : ∀ v, Leads none "h:/x".toList v → v = "h:/x".toList := by
      intro v hl
      induction hl with
      | refl => rfl
      | mirror v name archive ms m _ _ hg => cases hg
    rw [this v hl] at hk
    have hr : kind "h:/x".toList = .remote := by decide
    rw [hr] at hk
    cases hk
  have := h _ _ _ _ _ _ 1 hs [("/d/x".toList, .file ['9', '2']), (['/', 'd'], .dir)] (by decide)
  revert this
  decide

/-- **C36**, partial: for downloads that find no partial file, or one that is part of the file.  In every state of the download
the destination is as before or is the complete file, the partial file is part of the file, and after a regular end the
destination is the complete file.  Missing: partial files of other content (`download_refuted`). -/
theorem download_partial (net : Net) (conf : Option (List Str)) (destdir u c : Str) (fs : FS) (n : Nat)
    (hs : Sources net conf fs destdir u c) (hp : Part fs (part (target destdir u)) c) :
    (∀ s ∈ (fetch net conf destdir n fs u).1, Part s (part (target destdir u)) c ∧
      (s.get (target destdir u) = fs.get (target destdir u) ∨ (s.get (target destdir u) = some (.file c) ∧ c ≠ []))) ∧
    ∀ s, (fetch net conf destdir n fs u).2 = .ok s →
      s.get (target destdir u) = some (.file c) ∧ c ≠ [] ∧ s.get (part (target destdir u)) = none := by
  have := fetch_sat net conf destdir u c (fs.get (target destdir u)) hs.remote n fs u .refl ⟨hp, Or.inl rfl, hs.loc⟩
  exact ⟨fun s h => ⟨(this.1 s h).part, (this.1 s h).dest⟩, fun s h => (this.2 s h).2⟩

/-- **C36.** Any number of downloads of the same file, each from any sources and cut off anywhere, leave the destination as it
was or complete. -/
theorem downloads_partial (destdir fn c : Str) (fs s : FS) (hp : Part fs (part (destdir ++ '/' :: fn)) c)
    (h : Relation.ReflTransGen (Attempt destdir fn c) fs s) :
    Part s (part (destdir ++ '/' :: fn)) c ∧
    (s.get (destdir ++ '/' :: fn) = fs.get (destdir ++ '/' :: fn) ∨ (s.get (destdir ++ '/' :: fn) = some (.file c) ∧ c ≠ [])) := by
  induction h with
  | refl => exact ⟨hp, Or.inl rfl⟩
  | tail _ ha ih =>
    obtain ⟨net, conf, u, n, s, rfl, hs, hm⟩ := ha
    obtain ⟨h1, h2⟩ := (download_partial net conf destdir u c _ n hs ih.1).1 _ hm
    refine ⟨h1, ?_⟩
    rcases h2 with e | e
    · rw [show destdir ++ '/' :: filename u = target destdir u from rfl, e]; exact ih.2
    · exact Or.inr e

/-- Hypotheses can be met, with a partial file. -/
example : Part [(['/', 'd'], .dir), ("/d/x.part".toList, .file ['1'])] (part (target ['/', 'd'] "h:/x".toList)) ['1', '2'] ∧
    (fetch (fun _ => serverOf ['1', '2']) none ['/', 'd'] 1 [(['/', 'd'], .dir), ("/d/x.part".toList, .file ['1'])]
      "h:/x".toList).2 = .ok [("/d/x".toList, .file ['1', '2']), (['/', 'd'], .dir)] := by
  refine ⟨Or.inr ⟨['1'], by decide, by decide⟩, by rfl⟩

/-! ## C66: interrupted downloads are taken up again -/

theorem bind_ok {β γ : Type} {x : Tr β} {f : β → Tr γ} {a : β} (h : x.2 = .ok a) : (x.bind f).2 = (f a).2 := by
  unfold Tr.bind; rw [h]

theorem bind_error {β γ : Type} {x : Tr β} {f : β → Tr γ} {e : FErr} (h : x.2 = .error e) : x.bind f = (x.1, .error e) := by
  unfold Tr.bind; rw [h]

/-- A directory name as it is used for destinations: not empty, and not ending in a slash. -/
def DirName (d : Str) : Prop := d ≠ [] ∧ d.getLast? ≠ some '/'

theorem dropWhile_stop {x : List Char} {y : List Char} (h : '/' ∉ x) : (x ++ '/' :: y).dropWhile (· ≠ '/') = '/' :: y := by
  induction x with
  | nil => simp
  | cons a x ih =>
    simp only [List.mem_cons, not_or] at h
    have : a ≠ '/' := fun e => h.1 e.symm
    rw [List.cons_append, List.dropWhile_cons_of_pos (by simpa using this), ih h.2]

theorem dirname_join {d f : Str} (hd : DirName d) (hf : '/' ∉ f) : dirname (d ++ '/' :: f) = d := by
  obtain ⟨hne, hl⟩ := hd
  unfold dirname
  have : (d ++ '/' :: f).reverse = f.reverse ++ '/' :: d.reverse := by simp
  rw [this, dropWhile_stop (by simpa using hf)]
  simp only [List.reverse_cons, List.reverse_reverse]
  obtain ⟨d', x, rfl⟩ : ∃ d' x, d = d' ++ [x] := ⟨d.dropLast, d.getLast hne, (List.dropLast_append_getLast hne).symm⟩
  have hx : x ≠ '/' := by simpa using hl
  rw [if_neg (by simp [hx])]
  unfold Path.rstrip
  simp [hx]

theorem dirname_part {d u : Str} (hd : DirName d) : dirname (part (target d u)) = d := by
  have : part (target d u) = d ++ '/' :: (filename u ++ ['.', 'p', 'a', 'r', 't']) := by simp [part, target]
  rw [this]
  refine dirname_join hd ?_
  have := filename_noslash u
  simp [this]

theorem isDir_of {fs : FS} {d : Str} (h : fs.get d = some .dir) : isDir fs d = true := by
  unfold isDir; rw [stat_dir h]

theorem checkDir_of {fs : FS} {d : Str} (h : fs.get d = some .dir) : checkDir fs d = ([], .ok fs) := by
  unfold checkDir existsP; rw [stat_dir h]; rfl

/-- A remote fetch, when the directory is there. -/
theorem fetch_remote_eq (net : Net) (conf : Option (List Str)) (destdir u : Str) (n : Nat) (fs : FS)
    (hd : fs.get destdir = some .dir) (hf : filename u ≠ []) (hk : kind u = .remote) :
    fetch net conf destdir (n + 1) fs u = Tr.bind (fetchRemote (net u) fs (part (target destdir u))) (fun fs =>
            finish fs (part (target destdir u)) (target destdir u)) := by
  unfold fetch
  rw [checkDir_of hd]
  simp only [Tr.bind, List.nil_append]
  rw [if_neg hf, hk]

theorem grab_ok {sv : Server} {fs : FS} {p c0 data : Str} (hd : isDir fs (dirname p) = true)
    (hs : sv.serve c0.length = some (data, true)) : (grab sv fs p c0).2 = .ok (fs.put p (.file (c0 ++ data))) := by
  unfold grab
  rw [hs]
  unfold appendFile
  simp only [hd, if_true]
  rfl

theorem finish_ok {fs : FS} {p dest c : Str} (hp : fs.get p = some (.file c)) (hc : c ≠ []) (hd : fs.get dest ≠ some .dir) :
    (finish fs p dest).2 = .ok ((fs.del p).put dest (.file c)) := by
  unfold finish
  rw [stat_file hp]
  cases c with
  | nil => exact absurd rfl hc
  | cons x c =>
    simp only []
    unfold rename Tr.atomic
    rw [hp]
    simp [hd]

/-- The partial file is missing, or a proper part of `c`. -/
theorem part_dropLast {fs : FS} {p c : Str} (hc : c ≠ []) : Part fs p c.dropLast ↔
    fs.get p = none ∨ ∃ d, d <+: c ∧ d ≠ c ∧ fs.get p = some (.file d) := by
  unfold Part
  have : ∀ d : Str, d <+: c.dropLast ↔ d <+: c ∧ d ≠ c := by
    intro d
    obtain ⟨c', x, rfl⟩ : ∃ d' x, c = d' ++ [x] := ⟨c.dropLast, c.getLast hc, (List.dropLast_append_getLast hc).symm⟩
    rw [List.dropLast_concat]
    constructor
    · intro h
      refine ⟨h.trans (List.prefix_append _ _), ?_⟩
      rintro rfl
      have := h.length_le
      simp at this
      omega
    · rintro ⟨h, hn⟩
      rw [List.prefix_concat_iff] at h
      exact h.resolve_left hn
  simp only [this, and_assoc]

theorem remote_succeeds (sv : Server) (fs : FS) (p dest c : Str) (hne : dest ≠ p) (hdir : isDir fs (dirname p) = true)
    (hr : Reliable sv c) (hc : c ≠ []) (hp : Part fs p c.dropLast) (hd : fs.get dest ≠ some .dir) :
    ∃ s, (Tr.bind (fetchRemote sv fs p) (fun fs => finish fs p dest)).2 = .ok s := by
  have fin : ∀ d, d ++ c.drop d.length = c → ∃ s, (finish (fs.put p (.file (d ++ c.drop d.length))) p dest).2 = .ok s :=
    fun d hdc => ⟨_, finish_ok (by rw [get_put_eq, hdc]) hc (by rw [get_put_ne _ _ hne]; exact hd)⟩
  rw [part_dropLast hc] at hp
  rcases hp with hp | ⟨d, ⟨r, rfl⟩, hdn, hp⟩
  · have : (fetchRemote sv fs p).2 = .ok (fs.put p (.file ([] ++ c.drop 0))) := by
      unfold fetchRemote
      rw [stat_none hp]
      exact grab_ok hdir (by rw [hr.2]; exact if_pos (List.length_pos_of_ne_nil hc))
    obtain ⟨s, h⟩ := fin [] (by simp)
    exact ⟨s, by rw [bind_ok this]; exact h⟩
  · have hrn : r ≠ [] := by rintro rfl; simp at hdn
    have : (fetchRemote sv fs p).2 = .ok (fs.put p (.file (d ++ (d ++ r).drop d.length))) := by
      unfold fetchRemote
      rw [stat_file hp, hr.1]
      exact grab_ok hdir (by
        rw [hr.2, if_pos]
        have := List.length_pos_of_ne_nil hrn
        simp; omega)
    obtain ⟨s, h⟩ := fin d (by simp)
    exact ⟨s, by rw [bind_ok this]; exact h⟩

/-- **C66**, full statement: after an interruption a download from a reliable server succeeds. -/
def ResumeFull : Prop := ∀ (net : Net) (conf : Option (List Str)) (destdir u c : Str) (fs : FS) (n : Nat),
  DirName destdir → fs.get destdir = some .dir → fs.get (target destdir u) ≠ some .dir → filename u ≠ [] → kind u = .remote →
  Reliable (net u) c → c ≠ [] → Part fs (part (target destdir u)) c →
  ∃ s, (fetch net conf destdir (n + 1) fs u).2 = .ok s ∧ s.get (target destdir u) = some (.file c)

/-- **C66.** When the partial file is complete, the download fails, and nothing is changed, so that it will fail again. -/
theorem resume_stuck (net : Net) (conf : Option (List Str)) (destdir u c : Str) (fs : FS) (n : Nat)
    (hd : fs.get destdir = some .dir) (hf : filename u ≠ []) (hk : kind u = .remote) (hr : Reliable (net u) c)
    (hp : fs.get (part (target destdir u)) = some (.file c)) : fetch net conf destdir (n + 1) fs u = ([], .error .fetch) := by
  rw [fetch_remote_eq net conf destdir u n fs hd hf hk]
  unfold fetchRemote grab
  rw [stat_file hp, hr.1]
  simp only []
  rw [hr.2, if_neg (by omega)]
  rfl

/-- **C66.** -/
theorem resume_refuted : ¬ ResumeFull := by
  intro h
  obtain ⟨s, e, _⟩ := h (fun _ => serverOf ['1']) none ['/', 'd'] "h:/x".toList ['1']
    [(['/', 'd'], .dir), ("/d/x.part".toList, .file ['1'])] 0 ⟨by simp, by decide⟩ (by decide) (by decide) (by decide) (by decide)
    (serverOf_reliable _) (by simp) (Or.inr ⟨['1'], by decide, by decide⟩)
  have := resume_stuck (fun _ => serverOf ['1']) none ['/', 'd'] "h:/x".toList ['1']
    [(['/', 'd'], .dir), ("/d/x.part".toList, .file ['1'])] 0 (by decide) (by decide) (by decide) (serverOf_reliable _) (by decide)
  rw [this] at e
  cases e

/-- **C66**, partial: unless the partial file is complete.  Missing: complete partial files (`resume_stuck`). -/
theorem resume_partial (net : Net) (conf : Option (List Str)) (destdir u c : Str) (fs : FS) (n : Nat) (hn : DirName destdir)
    (hd : fs.get destdir = some .dir) (ht : fs.get (target destdir u) ≠ some .dir) (hf : filename u ≠ []) (hk : kind u = .remote)
    (hr : Reliable (net u) c) (hc : c ≠ [])
    (hp : fs.get (part (target destdir u)) = none ∨ ∃ d, d <+: c ∧ d ≠ c ∧ fs.get (part (target destdir u)) = some (.file d)) :
    ∃ s, (fetch net conf destdir (n + 1) fs u).2 = .ok s ∧ s.get (target destdir u) = some (.file c) := by
  rw [fetch_remote_eq net conf destdir u n fs hd hf hk]
  obtain ⟨s, h⟩ := remote_succeeds (net u) fs _ _ c (part_ne (target destdir u)).symm (by rw [dirname_part hn]; exact isDir_of hd)
    hr hc ((part_dropLast hc).mpr hp) ht
  refine ⟨s, h, ?_⟩
  have hp' : Part fs (part (target destdir u)) c := by
    rcases hp with hp | ⟨d, h1, _, h2⟩
    · exact Or.inl hp
    · exact Or.inr ⟨d, h1, h2⟩
  exact ((get_file (fun s => fetchRemote (net u) s (part (target destdir u))) fs _ _ c (part_ne (target destdir u)).symm
    (fetchRemote_sat (net u) fs _ c (reliable_honest hr) hp')).2 s h).2.1

/-! ## C37: mirrors -/

/-- The state left by the failed attempts. -/
def left (f : FS → Str → Tr FS) (fs : FS) (pre : List Str) : FS := pre.foldl (fun s v => final s (f s v)) fs

/-- **C37.** Whatever a fetch does: the mirrors are tried in their order, the first success is taken, and only fetch errors
lead to the next mirror. -/
theorem mirror_order (f : FS → Str → Tr FS) (us : List Str) : ∀ (fs s : FS), (mirrorLoop f fs us).2 = .ok s ↔
    ∃ pre u post, us = pre ++ u :: post ∧ (f (left f fs pre) u).2 = .ok s ∧
      ∀ pre' v post', pre = pre' ++ v :: post' → (f (left f fs pre') v).2 = .error .fetch := by
  induction us with
  | nil => intro fs s; simp [mirrorLoop]
  | cons u us ih =>
    intro fs s
    constructor
    · intro h
      unfold mirrorLoop at h
      cases hr : (f fs u).2 with
      | ok fs' =>
        rw [hr] at h
        exact ⟨[], u, us, rfl, by rw [← h]; exact hr, by intro pre' v post' e; simp at e⟩
      | error e =>
        rw [hr] at h
        cases e with
        | fetch =>
          simp only [] at h
          obtain ⟨pre, v, post, e1, e2, e3⟩ := (ih _ s).mp h
          refine ⟨u :: pre, v, post, by rw [e1]; rfl, e2, ?_⟩
          intro pre' w post' e
          cases pre' with
          | nil => simp at e; rw [← e.1]; exact hr
          | cons x pre' =>
            simp at e
            rw [← e.1]
            exact e3 pre' w post' e.2
        | _ => cases h
    · rintro ⟨pre, v, post, e1, e2, e3⟩
      cases pre with
      | nil =>
        simp at e1
        rw [← e1.1] at e2
        unfold mirrorLoop
        rw [show (f fs u).2 = .ok s from e2]
      | cons x pre =>
        simp at e1
        obtain ⟨rfl, e1⟩ := e1
        have hr : (f fs u).2 = .error .fetch := e3 [] u pre rfl
        unfold mirrorLoop
        rw [hr]
        simp only []
        exact (ih _ s).mpr ⟨pre, v, post, e1, e2, fun pre' w post' e => e3 (u :: pre') w post' (by rw [e]; rfl)⟩

/-- The situation of a fetch through mirrors. -/
structure Mirrored (conf : Option (List Str)) (destdir u : Str) (us : List Str) (fs : FS) : Prop where
  dirName : DirName destdir
  dir : fs.get destdir = some .dir
  dest : fs.get (target destdir u) ≠ some .dir
  mirrors : ∃ name archive ms, kind u = .mirror name archive ∧ filename archive ≠ [] ∧ getMirrors conf name = .ok (some ms) ∧
    us = ms.map (fun m => Path.joinPath m [archive])
  remote : ∀ v ∈ us, kind v = .remote

theorem mirrored_filename {conf : Option (List Str)} {destdir u : Str} {us : List Str} {fs : FS}
    (h : Mirrored conf destdir u us fs) : filename u ≠ [] ∧ ∀ v ∈ us, filename v = filename u := by
  obtain ⟨name, archive, ms, hk, hf, hg, rfl⟩ := h.mirrors
  have e : filename u = filename archive := by
    rcases kind_mirror hk with e | e
    · exact e
    · rw [e] at hf; exact absurd rfl hf
  refine ⟨by rw [e]; exact hf, fun v hv => ?_⟩
  obtain ⟨m, hm, rfl⟩ := List.mem_map.mp hv
  rw [filename_join m archive ((getMirrors_ne hg).2 m hm), e]

theorem mirrored_fetch {conf : Option (List Str)} {destdir u : Str} {us : List Str} {fs : FS} (net : Net) (n : Nat)
    (h : Mirrored conf destdir u us fs) : fetch net conf destdir (n + 1) fs u = mirrorLoop (fetch net conf destdir n) fs us := by
  have hf := (mirrored_filename h).1
  obtain ⟨name, archive, ms, hk, _, hg, rfl⟩ := h.mirrors
  unfold fetch
  rw [checkDir_of h.dir]
  simp only [Tr.bind, List.nil_append]
  rw [if_neg hf, hk]
  simp only []
  unfold fetchMirror
  rw [hg]
  cases ms with
  | nil => exact absurd rfl (getMirrors_ne hg).1
  | cons m ms => rfl

/-- **C37.** A mirror URL of an unknown name fails, with a `NameError`. -/
theorem mirror_unknown (net : Net) (conf : Option (List Str)) (destdir u name archive : Str) (n : Nat) (fs : FS)
    (hd : fs.get destdir = some .dir) (hf : filename u ≠ []) (hk : kind u = .mirror name archive)
    (hg : getMirrors conf name = .ok none) : fetch net conf destdir (n + 1) fs u = ([], .error .nameErr) := by
  unfold fetch
  rw [checkDir_of hd]
  simp only [Tr.bind, List.nil_append]
  rw [if_neg hf, hk]
  simp only []
  unfold fetchMirror
  rw [hg]

/-- **C37**, full statement: a fetch through mirrors succeeds if a mirror serves the file. -/
def MirrorFull : Prop := ∀ (net : Net) (conf : Option (List Str)) (destdir u c : Str) (us : List Str) (fs : FS) (n : Nat),
  Mirrored conf destdir u us fs → fs.get (part (target destdir u)) = none → c ≠ [] → (∀ v ∈ us, Honest (net v) c) →
  (∃ v ∈ us, Reliable (net v) c) →
  ∃ s, (fetch net conf destdir (n + 2) fs u).2 = .ok s ∧ s.get (target destdir u) = some (.file c)

/-- **C37.** A mirror that breaks off at the end of the file spoils the others. -/
theorem mirror_refuted : ¬ MirrorFull := by
  intro h
  obtain ⟨s, e, _⟩ := h (fun u => if u = "h:/x".toList then { probe := .answers true, serve := fun n => some (['1'].drop n, false) }
      else serverOf ['1']) (some ["m h:/".toList, "m g:/".toList]) ['/', 'd'] "mirrors://m/x".toList ['1']
    ["h:/x".toList, "g:/x".toList] [(['/', 'd'], .dir)] 0 ⟨⟨by simp, by decide⟩, by decide, by decide,
      ⟨['m'], ['x'], ["h:/".toList, "g:/".toList], by decide, by decide, by rfl, by decide⟩, by decide⟩ (by decide) (by simp)
    (by
      intro v hv
      by_cases hx : v = "h:/x".toList
      · simp only [hx, if_true]
        intro n data done e
        cases e
        exact ⟨List.prefix_refl _, fun h => by cases h⟩
      · rw [if_neg hx]; exact reliable_honest (serverOf_reliable _))
    ⟨"g:/x".toList, by simp, by rw [if_neg (by decide)]; exact serverOf_reliable _⟩
  have : (fetch (fun u => if u = "h:/x".toList then { probe := .answers true, serve := fun n => some (['1'].drop n, false) }
      else serverOf ['1']) (some ["m h:/".toList, "m g:/".toList]) ['/', 'd'] 2 [(['/', 'd'], .dir)]
      "mirrors://m/x".toList).2 = .error .fetch := by rfl
  rw [this] at e
  cases e

/-- The server does not have the whole file to offer: it sends nothing, or breaks off before the end. -/
def Failing (sv : Server) (c : Str) : Prop := sv.probe ≠ .other ∧ ∀ n data done, sv.serve n = some (data, done) →
  done = false ∧ data <+: c.drop n ∧ n + data.length < c.length

theorem prefix_dropLast_drop {c data : Str} {n : Nat} (h : data <+: c.drop n) (hl : n + data.length < c.length) :
    data <+: c.dropLast.drop n := by
  rw [List.dropLast_eq_take, List.drop_take]
  rw [List.prefix_iff_eq_take] at h ⊢
  rw [List.take_take, Nat.min_eq_left (by omega)]
  exact h

theorem failing_honest {sv : Server} {c : Str} (h : Failing sv c) : Honest sv c.dropLast := by
  intro n data done e
  obtain ⟨h1, h2, h3⟩ := h.2 n data done e
  exact ⟨prefix_dropLast_drop h2 h3, fun hd => by rw [h1] at hd; cases hd⟩

theorem grab_fails {sv : Server} {c : Str} (h : Failing sv c) {fs : FS} {p c0 : Str} (hd : isDir fs (dirname p) = true) :
    (grab sv fs p c0).2 = .error .fetch := by
  unfold grab
  cases he : sv.serve c0.length with
  | none => rfl
  | some x =>
    obtain ⟨data, done⟩ := x
    obtain ⟨rfl, _⟩ := h.2 _ _ _ he
    unfold appendFile
    simp only [hd, if_true]
    rfl

theorem fetchRemote_fails {sv : Server} {c : Str} (h : Failing sv c) {fs : FS} {p c0 : Str} (hd : fs.get (dirname p) = some .dir)
    (hne : dirname p ≠ p) (hp : Part fs p c0) : (fetchRemote sv fs p).2 = .error .fetch := by
  unfold fetchRemote
  rcases hp with hp | ⟨d, _, hp⟩
  · rw [stat_none hp]; exact grab_fails h (isDir_of hd)
  · rw [stat_file hp]
    simp only []
    have hu : (Tr.atomic (unlink fs p)).2 = .ok (fs.del p) := by unfold unlink Tr.atomic; rw [hp]
    have again : (Tr.bind (Tr.atomic (unlink fs p)) (fun fs => grab sv fs p [])).2 = .error .fetch := by
      rw [bind_ok hu]
      exact grab_fails h (isDir_of (by rw [get_del_ne _ hne]; exact hd))
    cases hq : sv.probe with
    | other => exact absurd hq h.1
    | urlError => exact again
    | answers b => cases b with
      | false => exact again
      | true => exact grab_fails h (isDir_of hd)

/-- What holds between the attempts: the directory is there, the partial file is a proper part. -/
structure Between (destdir u c : Str) (s : FS) : Prop where
  dir : s.get destdir = some .dir
  dest : s.get (target destdir u) ≠ some .dir
  part : Part s (part (target destdir u)) c.dropLast

theorem destdir_ne (destdir u : Str) : destdir ≠ target destdir u ∧ destdir ≠ part (target destdir u) :=
  ⟨fun e => by have := congrArg List.length e; simp [target] at this,
   fun e => by have := congrArg List.length e; simp [part, target] at this⟩

/-- One failing mirror. -/
theorem failing_step (net : Net) (conf : Option (List Str)) (destdir u v c : Str) (n : Nat) (s : FS) (hn : DirName destdir)
    (hf : filename u ≠ []) (hv : filename v = filename u) (hk : kind v = .remote) (h : Failing (net v) c)
    (hb : Between destdir u c s) : (fetch net conf destdir (n + 1) s v).2 = .error .fetch ∧
      Between destdir u c (final s (fetch net conf destdir (n + 1) s v)) := by
  have ht : target destdir v = target destdir u := by unfold target; rw [hv]
  rw [fetch_remote_eq net conf destdir v n s hb.dir (by rw [hv]; exact hf) hk, ht]
  have hfail : (fetchRemote (net v) s (part (target destdir u))).2 = .error .fetch :=
    fetchRemote_fails h (by rw [dirname_part hn]; exact hb.dir) (by rw [dirname_part hn]; exact (destdir_ne _ _).2) hb.part
  have hsat := fetchRemote_sat (net v) s (part (target destdir u)) c.dropLast (failing_honest h) hb.part
  rw [bind_error hfail]
  refine ⟨rfl, ?_⟩
  have hsat' : Tr.Sat ((fetchRemote (net v) s (part (target destdir u))).1, (.error .fetch : Except FErr FS))
      (Between destdir u c) (fun _ => True) := by
    refine ⟨fun t ht => ?_, fun _ _ => trivial⟩
    obtain ⟨h1, h2⟩ := hsat.1 t ht
    exact ⟨by rw [h2 _ (destdir_ne _ u).2]; exact hb.dir, by rw [h2 _ (part_ne _).symm]; exact hb.dest, h1⟩
  exact final_sat hb hsat'

/-- **C37**, partial: when each mirror delivers the file or fails before its end, a fetch through mirrors succeeds exactly when
a mirror delivers the file; it then has the file, and otherwise there is a fetch error.  Missing: mirrors that break off after
the last byte (`mirror_refuted`), and those that answer with other errors than fetch errors, which are not caught. -/
theorem mirror_partial (net : Net) (conf : Option (List Str)) (destdir u c : Str) (us : List Str) (fs : FS) (n : Nat)
    (hm : Mirrored conf destdir u us fs) (hp : fs.get (part (target destdir u)) = none) (hc : c ≠ [])
    (hs : ∀ v ∈ us, Reliable (net v) c ∨ Failing (net v) c) :
    ((∃ v ∈ us, Reliable (net v) c) → ∃ s, (fetch net conf destdir (n + 2) fs u).2 = .ok s ∧
      s.get (target destdir u) = some (.file c)) ∧
    ((¬ ∃ v ∈ us, Reliable (net v) c) → (fetch net conf destdir (n + 2) fs u).2 = .error .fetch) := by
  rw [mirrored_fetch net (n + 1) hm]
  obtain ⟨hf, hfn⟩ := mirrored_filename hm
  have hb : Between destdir u c fs := ⟨hm.dir, hm.dest, Or.inl hp⟩
  have hrem := hm.remote
  clear hp
  revert hb
  have hn := hm.dirName
  clear hm
  induction us generalizing fs with
  | nil => intro _; exact ⟨by rintro ⟨v, hv, _⟩; simp at hv, fun _ => rfl⟩
  | cons v us ih =>
    intro hb
    have hv := hfn v (by simp)
    have ht : target destdir v = target destdir u := by unfold target; rw [hv]
    rcases hs v (by simp) with hr | hr
    · have := resume_partial net conf destdir v c fs n hn hb.dir (by rw [ht]; exact hb.dest) (by rw [hv]; exact hf)
        (hrem v (by simp)) hr hc (by rw [ht]; exact (part_dropLast hc).mp hb.part)
      obtain ⟨s, e, hg⟩ := this
      rw [ht] at hg
      have e' : (mirrorLoop (fetch net conf destdir (n + 1)) fs (v :: us)).2 = .ok s := by
        unfold mirrorLoop; rw [e]
      exact ⟨fun _ => ⟨s, e', hg⟩, fun hno => absurd ⟨v, by simp, hr⟩ hno⟩
    · obtain ⟨e, hb'⟩ := failing_step net conf destdir u v c n fs hn hf hv (hrem v (by simp)) hr hb
      have := ih (final fs (fetch net conf destdir (n + 1) fs v)) (fun w hw => hs w (by simp [hw]))
        (fun w hw => hfn w (by simp [hw])) (fun w hw => hrem w (by simp [hw])) hb'
      have e' : (mirrorLoop (fetch net conf destdir (n + 1)) fs (v :: us)).2 =
          (mirrorLoop (fetch net conf destdir (n + 1)) (final fs (fetch net conf destdir (n + 1) fs v)) us).2 := by
        conv => lhs; unfold mirrorLoop
        rw [e]
      rw [e']
      have hnr : ¬ Reliable (net v) c := by
        intro h
        have h0 := h.2 0
        rw [if_pos (List.length_pos_of_ne_nil hc)] at h0
        have := (hr.2 _ _ _ h0).1
        cases this
      refine ⟨fun hex => this.1 ?_, fun hno => this.2 ?_⟩
      · obtain ⟨w, hw, hr'⟩ := hex
        rcases List.mem_cons.mp hw with rfl | hw
        · exact absurd hr' hnr
        · exact ⟨w, hw, hr'⟩
      · rintro ⟨w, hw, hr'⟩
        exact hno ⟨w, by simp [hw], hr'⟩

/-- What holds between attempts that leave nothing. -/
structure Clean (destdir u : Str) (s : FS) : Prop where
  dir : s.get destdir = some .dir
  dest : s.get (target destdir u) ≠ some .dir
  part : s.get (part (target destdir u)) = none

/-- A mirror without the file, or with an empty one. -/
theorem empty_step (net : Net) (conf : Option (List Str)) (destdir u v : Str) (n : Nat) (s : FS) (hn : DirName destdir)
    (hf : filename u ≠ []) (hv : filename v = filename u) (hk : kind v = .remote)
    (h : (net v).serve 0 = none ∨ (net v).serve 0 = some ([], true)) (hb : Clean destdir u s) :
    (fetch net conf destdir (n + 1) s v).2 = .error .fetch ∧ Clean destdir u (final s (fetch net conf destdir (n + 1) s v)) := by
  have ht : target destdir v = target destdir u := by unfold target; rw [hv]
  rw [fetch_remote_eq net conf destdir v n s hb.dir (by rw [hv]; exact hf) hk, ht]
  have hfr : fetchRemote (net v) s (part (target destdir u)) = grab (net v) s (part (target destdir u)) [] := by
    unfold fetchRemote; rw [stat_none hb.part]
  rw [hfr]
  rcases h with h | h
  · have : grab (net v) s (part (target destdir u)) [] = ([], .error .fetch) := by
      unfold grab; rw [show (([] : Str).length) = 0 from rfl, h]
    rw [this]
    exact ⟨rfl, hb⟩
  · have hdir : isDir s (dirname (part (target destdir u))) = true := by rw [dirname_part hn]; exact isDir_of hb.dir
    have e1 : grab (net v) s (part (target destdir u)) [] =
        ([s.put (part (target destdir u)) (.file [])], .ok (s.put (part (target destdir u)) (.file []))) := by
      unfold grab
      rw [show (([] : Str).length) = 0 from rfl, h]
      unfold appendFile
      simp only [hdir, if_true]
      rfl
    have e2 : finish (s.put (part (target destdir u)) (.file [])) (part (target destdir u)) (target destdir u) =
        ([(s.put (part (target destdir u)) (.file [])).del (part (target destdir u))], .error .fetch) := by
      unfold finish
      rw [stat_file (get_put_eq _ _ _)]
      simp only []
      unfold unlink
      rw [get_put_eq]
      rfl
    rw [e1]
    simp only [Tr.bind]
    rw [e2]
    refine ⟨rfl, ?_⟩
    have hfin : final s (([s.put (part (target destdir u)) (.file [])] ++
        [(s.put (part (target destdir u)) (.file [])).del (part (target destdir u))], .error .fetch) : Tr FS) =
        (s.put (part (target destdir u)) (.file [])).del (part (target destdir u)) := rfl
    rw [hfin]
    exact ⟨by rw [get_del_ne _ (destdir_ne _ u).2, get_put_ne _ _ (destdir_ne _ u).2]; exact hb.dir,
      by rw [get_del_ne _ (part_ne _).symm, get_put_ne _ _ (part_ne _).symm]; exact hb.dest, get_del_eq _ _⟩

/-- **C37.** When each mirror delivers a file or none, the file of the first mirror that has one is taken; a mirror with an empty
file counts as one without.  (Here the mirrors may have different files.) -/
theorem mirror_first_partial (net : Net) (conf : Option (List Str)) (destdir u : Str) (us : List Str) (fs : FS) (n : Nat)
    (hm : Mirrored conf destdir u us fs) (hp : fs.get (part (target destdir u)) = none) :
    (∀ pre v post c, us = pre ++ v :: post → (∀ w ∈ pre, (net w).serve 0 = none ∨ (net w).serve 0 = some ([], true)) →
      (net v).serve 0 = some (c, true) → c ≠ [] → ∃ s, (fetch net conf destdir (n + 2) fs u).2 = .ok s ∧
        s.get (target destdir u) = some (.file c)) ∧
    ((∀ w ∈ us, (net w).serve 0 = none ∨ (net w).serve 0 = some ([], true)) →
      (fetch net conf destdir (n + 2) fs u).2 = .error .fetch) := by
  rw [mirrored_fetch net (n + 1) hm]
  obtain ⟨hf, hfn⟩ := mirrored_filename hm
  have hb : Clean destdir u fs := ⟨hm.dir, hm.dest, hp⟩
  have hrem := hm.remote
  clear hp
  revert hb
  have hn := hm.dirName
  clear hm
  have skip : ∀ (us : List Str) (v : Str) (fs : FS), filename v = filename u → kind v = .remote → Clean destdir u fs →
      ((net v).serve 0 = none ∨ (net v).serve 0 = some ([], true)) →
      (mirrorLoop (fetch net conf destdir (n + 1)) fs (v :: us)).2 =
        (mirrorLoop (fetch net conf destdir (n + 1)) (final fs (fetch net conf destdir (n + 1) fs v)) us).2 ∧
      Clean destdir u (final fs (fetch net conf destdir (n + 1) fs v)) := by
    intro us v fs hv hk hb hw
    obtain ⟨e, hb'⟩ := empty_step net conf destdir u v n fs hn hf hv hk hw hb
    refine ⟨?_, hb'⟩
    conv => lhs; unfold mirrorLoop
    rw [e]
  induction us generalizing fs with
  | nil => intro _; exact ⟨fun pre v post c e => by simp at e, fun _ => rfl⟩
  | cons v us ih =>
    intro hb
    have hv := hfn v (by simp)
    have ht : target destdir v = target destdir u := by unfold target; rw [hv]
    constructor
    · intro pre w post c e hpre hw hc
      cases pre with
      | cons x pre =>
        simp at e
        obtain ⟨rfl, e⟩ := e
        obtain ⟨e', hb'⟩ := skip us v fs hv (hrem v (by simp)) hb (hpre v (by simp))
        rw [e']
        exact (ih _ (fun w hw => hfn w (by simp [hw])) (fun w hw => hrem w (by simp [hw])) hb').1 pre w post c e
          (fun x hx => hpre x (by simp [hx])) hw hc
      | nil =>
        simp at e
        obtain ⟨rfl, rfl⟩ := e
        have hdir : isDir fs (dirname (part (target destdir u))) = true := by rw [dirname_part hn]; exact isDir_of hb.dir
        have e1 : (fetchRemote (net v) fs (part (target destdir u))).2 = .ok (fs.put (part (target destdir u)) (.file ([] ++ c))) := by
          unfold fetchRemote
          rw [stat_none hb.part]
          exact grab_ok hdir hw
        have e2 := finish_ok (fs := fs.put (part (target destdir u)) (.file ([] ++ c))) (dest := target destdir u)
          (get_put_eq _ _ _) hc (by rw [get_put_ne _ _ (part_ne _).symm]; exact hb.dest)
        have e3 : (fetch net conf destdir (n + 1) fs v).2 = .ok (((fs.put (part (target destdir u)) (.file ([] ++ c))).del
            (part (target destdir u))).put (target destdir u) (.file c)) := by
          rw [fetch_remote_eq net conf destdir v n fs hb.dir (by rw [hv]; exact hf) (hrem v (by simp)), ht, bind_ok e1, e2]
          rfl
        exact ⟨_, (by unfold mirrorLoop; rw [e3]), get_put_eq _ (target destdir u) _⟩
    · intro hall
      obtain ⟨e', hb'⟩ := skip us v fs hv (hrem v (by simp)) hb (hall v (by simp))
      rw [e']
      exact (ih _ (fun w hw => hfn w (by simp [hw])) (fun w hw => hrem w (by simp [hw])) hb').2
        (fun x hx => hall x (by simp [hx]))

/-- Hypotheses can be met: the first of two mirrors breaks off, the second goes on from there. -/
example : Mirrored (some ["m h:/".toList, "m g:/".toList]) ['/', 'd'] "mirrors://m/x".toList ["h:/x".toList, "g:/x".toList]
      [(['/', 'd'], .dir)] ∧
    Failing { probe := .answers true, serve := fun n => if n = 0 then some (['1'], false) else none } ['1', '2'] ∧
    (fetch (fun u => if u = "h:/x".toList then
        { probe := .answers true, serve := fun n => if n = 0 then some (['1'], false) else none } else serverOf ['1', '2'])
      (some ["m h:/".toList, "m g:/".toList]) ['/', 'd'] 2 [(['/', 'd'], .dir)] "mirrors://m/x".toList).2 =
      .ok [("/d/x".toList, .file ['1', '2']), (['/', 'd'], .dir)] := by
  refine ⟨⟨⟨by simp, by decide⟩, by decide, by decide,
      ⟨['m'], ['x'], ["h:/".toList, "g:/".toList], by decide, by decide, by rfl, by decide⟩, by decide⟩, ⟨by simp, ?_⟩, by rfl⟩
  intro n data done e
  by_cases hn : n = 0
  · subst hn
    simp at e
    obtain ⟨rfl, rfl⟩ := e
    exact ⟨rfl, by decide, by decide⟩
  · simp [hn] at e

/-! ## C68: what a download touches -/

theorem appendFile_keeps (fs : FS) (p c data k : Str) (h : k ≠ p) : (appendFile fs p c data).Keeps fs k := by
  unfold appendFile
  refine keeps_ite (fun _ => ⟨fun s hs => ?_, fun s hs => ?_⟩) (fun _ => keeps_fail _ _ _)
  · obtain ⟨i, _, rfl⟩ := List.mem_map.mp hs
    exact get_put_ne _ _ h
  · simp only [Except.ok.injEq] at hs; subst hs; exact get_put_ne _ _ h

theorem grab_keeps (sv : Server) (fs : FS) (p c k : Str) (h : k ≠ p) : (grab sv fs p c).Keeps fs k := by
  unfold grab
  cases sv.serve c.length with
  | none => exact keeps_fail _ _ _
  | some x =>
    obtain ⟨data, done⟩ := x
    exact Tr.Keeps.bind (appendFile_keeps fs p c data k h) fun t _ => keeps_ite (fun _ => keeps_pure _ _) (fun _ => keeps_fail _ _ _)

theorem fetchRemote_keeps (sv : Server) (fs : FS) (p k : Str) (h : k ≠ p) : (fetchRemote sv fs p).Keeps fs k := by
  have again : (Tr.bind (Tr.atomic (unlink fs p)) (fun fs => grab sv fs p [])).Keeps fs k :=
    Tr.Keeps.bind (unlink_keeps fs p k h) fun t _ => grab_keeps sv t p [] k h
  unfold fetchRemote
  cases stat fs p with
  | none => exact grab_keeps sv fs p [] k h
  | some node =>
    simp only []
    cases sv.probe with
    | other => exact keeps_fail _ _ _
    | urlError => exact again
    | answers b => cases b with
      | false => exact again
      | true => cases node with
        | file c => exact grab_keeps sv fs p c k h
        | link _ => exact keeps_fail _ _ _
        | dir => exact keeps_fail _ _ _

theorem fetchLocal_keeps (fs : FS) (src p k : Str) (h : k ≠ p) : (fetchLocal fs src p).Keeps fs k := by
  unfold fetchLocal
  refine keeps_ite (fun _ => ?_) (fun _ => keeps_fail _ _ _)
  have w : ∀ t c, (writeFile t p c).Keeps t k := fun t c =>
    Tr.Sat.mono (writeFile_sat t p c c (List.prefix_refl c)) (fun s hs => hs.2 k h) (fun s hs => hs.1.2 k h)
  refine Tr.Keeps.bind (w fs []) fun t _ => ?_
  cases stat t src with
  | none => exact keeps_fail _ _ _
  | some x => cases x with
    | file c => exact w t c
    | link _ => exact keeps_fail _ _ _
    | dir => exact keeps_fail _ _ _

theorem finish_keeps (fs : FS) (p dest k : Str) (h : k ≠ p) (h' : k ≠ dest) : (finish fs p dest).Keeps fs k := by
  unfold finish
  cases stat fs p with
  | none => exact keeps_fail _ _ _
  | some x => cases x with
    | file c => cases c with
      | nil => exact Tr.Keeps.bind (unlink_keeps fs p k h) fun t _ => keeps_fail _ _ _
      | cons _ _ => exact rename_keeps fs p dest k h h'
    | link _ => exact rename_keeps fs p dest k h h'
    | dir => exact rename_keeps fs p dest k h h'

theorem mirrorLoop_keeps {f : FS → Str → Tr FS} {k : Str} {us : List Str} {fs : FS}
    (hf : ∀ s u, u ∈ us → s.get k = fs.get k → (f s u).Keeps s k) : (mirrorLoop f fs us).Keeps fs k :=
  mirrorLoop_sat (P := fun t => t.get k = fs.get k) (Q := fun t => t.get k = fs.get k) us fs rfl fun s u hu hs =>
    Tr.Sat.mono (hf s u hu hs) (fun _ h => h.trans hs) (fun _ h => h.trans hs)

/-- **C68.** A download, from whatever sources and in whatever state, touches nothing that exists but the destination and the
partial file beside it. -/
theorem download_frame (net : Net) (conf : Option (List Str)) (destdir u k : Str) (h1 : k ≠ target destdir u)
    (h2 : k ≠ part (target destdir u)) : ∀ (n : Nat) (s : FS) (v : Str), Leads conf u v → s.get k ≠ none →
    (∀ t ∈ (fetch net conf destdir n s v).1, t.get k = s.get k) ∧
    ∀ t, (fetch net conf destdir n s v).2 = .ok t → t.get k = s.get k := by
  intro n
  induction n with
  | zero => intro s v _ _; exact keeps_fail _ _ _
  | succ n ih =>
    intro s v hl hk
    show (fetch net conf destdir (n + 1) s v).Keeps s k
    unfold fetch
    refine Tr.Keeps.bind (checkDir_keeps s destdir k hk) fun t ht => ?_
    by_cases hf : filename v = []
    · rw [if_pos hf]; exact keeps_fail _ _ _
    · rw [if_neg hf]
      have htg : target destdir v = target destdir u := by
        rcases leads_filename hl with e | e
        · unfold target; rw [e]
        · exact absurd e hf
      rw [htg]
      cases hkd : kind v with
      | mirror name archive =>
        simp only []
        unfold fetchMirror
        cases hg : getMirrors conf name with
        | error e => exact keeps_fail _ _ _
        | ok o => cases o with
          | none => exact keeps_fail _ _ _
          | some ms => cases ms with
            | nil => exact keeps_fail _ _ _
            | cons m ms =>
              simp only []
              refine mirrorLoop_keeps fun s' w hw hs' => ?_
              obtain ⟨m', hm', rfl⟩ := List.mem_map.mp hw
              exact ih s' _ (.mirror v name archive _ m' hl hkd hg hm') (by rw [hs', ht]; exact hk)
      | loc src => exact Tr.Keeps.bind (fetchLocal_keeps t src _ k h2) fun t' _ => finish_keeps t' _ _ k h2 h1
      | remote => exact Tr.Keeps.bind (fetchRemote_keeps (net v) t _ k h2) fun t' _ => finish_keeps t' _ _ k h2 h1

/-! ## C38: source archives -/

/-- **C38.** An archive is unpacked only if it is a file of the right hash: what follows the check is reached exactly then, and
otherwise nothing happens but an error. -/
theorem unpack_checked (sha : Str → Str) (go : FS → Tr FS) (fs : FS) (file sum : Str) :
    ((∃ c, stat fs file = some (.file c) ∧ sha c = sum) ∧ unpackSource sha go fs file sum = go fs) ∨
    ((¬ ∃ c, stat fs file = some (.file c) ∧ sha c = sum) ∧ ∃ e, unpackSource sha go fs file sum = ([], .error e)) := by
  unfold unpackSource sha1File
  cases h : stat fs file with
  | none => exact Or.inr ⟨by simp, _, rfl⟩
  | some x => cases x with
    | file c =>
      simp only []
      by_cases e : sha c = sum
      · rw [if_pos e]; exact Or.inl ⟨⟨c, rfl, e⟩, rfl⟩
      · rw [if_neg e]; exact Or.inr ⟨by rintro ⟨c', h', e'⟩; cases h'; exact e e', _, rfl⟩
    | link t => exact Or.inr ⟨by simp, _, rfl⟩
    | dir => exact Or.inr ⟨by simp, _, rfl⟩

/-- **C38.** A cached file of the right hash is used as it is; a missing file, and one of another hash, is fetched. -/
theorem fetch_cached (sha : Str → Str) (get : FS → Tr FS) (fs : FS) (file sum : Str) :
    (∀ c, stat fs file = some (.file c) → sha c = sum → fetchSource sha get fs file sum = ([], .ok fs)) ∧
    (∀ c, stat fs file = some (.file c) → sha c ≠ sum → fetchSource sha get fs file sum = get fs) ∧
    (stat fs file = none → fetchSource sha get fs file sum = get fs) := by
  unfold fetchSource isCached existsP sha1File
  refine ⟨fun c h e => ?_, fun c h e => ?_, fun h => ?_⟩
  · simp [h, e]
  · simp [h, e]
  · simp [h]

/-- **C38.** From sources that have the right file, the archive is there and passes the check whenever the fetch succeeds;
whatever was in the cache before. -/
theorem fetch_then_unpack (sha : Str → Str) (go : FS → Tr FS) (net : Net) (conf : Option (List Str)) (destdir u c sum : Str)
    (fs s : FS) (n : Nat) (hs : Sources net conf fs destdir u c) (hp : Part fs (part (target destdir u)) c) (hc : sha c = sum)
    (h : (fetchSource sha (fun fs => fetch net conf destdir n fs u) fs (target destdir u) sum).2 = .ok s) :
    unpackSource sha go s (target destdir u) sum = go s := by
  unfold fetchSource at h
  have key : ∃ c, stat s (target destdir u) = some (.file c) ∧ sha c = sum := by
    cases hi : isCached sha fs (target destdir u) sum with
    | error e => rw [hi] at h; cases h
    | ok b =>
      rw [hi] at h
      cases b with
      | true =>
        cases h
        unfold isCached sha1File at hi
        by_cases he : existsP fs (target destdir u) = true
        · rw [if_pos he] at hi
          cases hst : stat fs (target destdir u) with
          | none => rw [hst] at hi; cases hi
          | some x => cases x with
            | file c' => rw [hst] at hi; simp at hi; exact ⟨c', rfl, hi⟩
            | link t => rw [hst] at hi; cases hi
            | dir => rw [hst] at hi; cases hi
        · rw [if_neg he] at hi; cases hi
      | false =>
        simp only [] at h
        exact ⟨c, stat_file ((download_partial net conf destdir u c fs n hs hp).2 s h).1, hc⟩
  rcases unpack_checked sha go s (target destdir u) sum with ⟨_, e⟩ | ⟨e, _⟩
  · exact e
  · exact absurd key e

/-- **C38.** A download of the wrong content is not unpacked. -/
theorem wrong_not_unpacked (sha : Str → Str) (go : FS → Tr FS) (net : Net) (conf : Option (List Str)) (destdir u c sum : Str)
    (fs s : FS) (n : Nat) (hs : Sources net conf fs destdir u c) (hp : Part fs (part (target destdir u)) c) (hc : sha c ≠ sum)
    (h : (fetch net conf destdir n fs u).2 = .ok s) : unpackSource sha go s (target destdir u) sum = ([], .error .pisi) := by
  have hst := stat_file ((download_partial net conf destdir u c fs n hs hp).2 s h).1
  unfold unpackSource sha1File
  rw [hst]
  simp only []
  rw [if_neg hc]

example : fetchSource id (fun fs => fetch (fun _ => serverOf ['1', '2']) none ['/', 'd'] 1 fs "h:/x".toList)
    [("/d/x".toList, .file ['9']), (['/', 'd'], .dir)] (target ['/', 'd'] "h:/x".toList) ['1', '2'] =
    ([[("/d/x.part".toList, .file []), ("/d/x".toList, .file ['9']), (['/', 'd'], .dir)],
      [("/d/x.part".toList, .file ['1']), ("/d/x".toList, .file ['9']), (['/', 'd'], .dir)],
      [("/d/x.part".toList, .file ['1', '2']), ("/d/x".toList, .file ['9']), (['/', 'd'], .dir)],
      [("/d/x".toList, .file ['1', '2']), (['/', 'd'], .dir)]], .ok [("/d/x".toList, .file ['1', '2']), (['/', 'd'], .dir)]) := by
  rfl

end Pisi.Fetch
