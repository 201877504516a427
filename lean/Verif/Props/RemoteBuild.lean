/-
Building from a specification on a server uses the files that lie next to it
(C150), and additional files are put where they belong (C151).
-/
import Verif.Spec.RemoteBuild
import Verif.Props.Path
import Verif.Lemmas.Actions

namespace Pisi.RemoteBuild
open Pisi.Path (joinPath joinStep lstripSlash rstrip segs_append segs_slash segs_snoc_slash segs_lstrip
  join_path_denotes joinStep_spec segs_single)
open Pisi.FS (dirname)
open Pisi.Act (osJoin basename headOf headOf_append headOf_cases dirname_eq basename_noslash)
open Pisi.PathSpec Pisi.RemoteBuildSpec

theorem segs_rstrip (p : Str) : segs (rstrip (· = '/') p) = segs p := by
  have key : ∀ l : Str, segs (l.dropWhile (· = '/')).reverse = segs l.reverse := by
    intro l
    induction l with
    | nil => rfl
    | cons x l ih =>
      by_cases hx : x = '/'
      · subst hx
        simp only [List.dropWhile_cons, decide_true, if_true, List.reverse_cons, segs_snoc_slash, ih]
      · simp [hx]
  have := key p.reverse
  rw [List.reverse_reverse] at this
  exact this

theorem segs_headOf (s : Str) : segs s = segs (headOf s) ++ segs (basename s) := by
  conv_lhs => rw [← headOf_append s]
  rcases headOf_cases s with h | ⟨a, h⟩
  · simp [h, segs, segsFrom]
  · rw [h, List.append_assoc, List.singleton_append, segs_append, segs_snoc_slash]

theorem segs_split (s : Str) : segs s = segs (dirname s) ++ segs (basename s) := by
  rw [segs_headOf s, dirname_eq]
  by_cases h : (headOf s).all (· = '/') = true
  · rw [if_pos h]
  · rw [if_neg h, segs_rstrip]

/-! ## Addresses -/

theorem lstrip_noslash {b : Str} (h : '/' ∉ b) : lstripSlash b = b := by
  cases b with
  | nil => rfl
  | cons c b =>
    have : c ≠ '/' := fun e => h (e ▸ List.mem_cons_self ..)
    simp [lstripSlash, this]

theorem takeWhile_all {p : Char → Bool} {l : Str} (h : ∀ c ∈ l, p c = true) : l.takeWhile p = l := by
  induction l with
  | nil => rfl
  | cons c l ih =>
    rw [List.takeWhile_cons, if_pos (h c (List.mem_cons_self ..)),
      ih (fun x hx => h x (List.mem_cons_of_mem _ hx))]

theorem base_last (a b : Str) (hb : '/' ∉ b) :
    ((a ++ '/' :: b).reverse.takeWhile (· ≠ '/')).reverse = b ∧
    ((a ++ '/' :: b).reverse.dropWhile (· ≠ '/')).reverse = a ++ ['/'] := by
  have e : (a ++ '/' :: b).reverse = b.reverse ++ '/' :: a.reverse := by simp
  have hall : ∀ c ∈ b.reverse, decide (c ≠ '/') = true := by
    intro c hc
    simp only [decide_eq_true_eq]
    rintro rfl
    exact hb (List.mem_reverse.1 hc)
  rw [e, List.takeWhile_append_of_pos hall, List.dropWhile_append_of_pos hall]
  simp

theorem dropWhile_mid (p : Char → Bool) (hp : p '/' = false) (y b : Str) :
    ∃ z, (y ++ '/' :: b).dropWhile p = z ++ '/' :: b ∧ ∀ c ∈ z, c ∈ y := by
  induction y with
  | nil => exact ⟨[], by simp [hp], by simp⟩
  | cons c y ih =>
    by_cases hc : p c = true
    · obtain ⟨z, hz, hm⟩ := ih
      refine ⟨z, by simp [hc, hz], fun x hx => List.mem_cons_of_mem _ (hm x hx)⟩
    · exact ⟨c :: y, by simp [hc], by simp⟩

/-- The file name of an address is what comes after its last slash. -/
theorem filename_last {u b : Str} (hu : Remote u) (hb : '/' ∉ b)
    (hc : ∀ c ∈ b, c ≠ '?' ∧ c ≠ '#' ∧ c ≠ ';') : Uri.filename (u ++ '/' :: b) = b := by
  obtain ⟨s, h, y, rfl, hs, hsc, hh, hy⟩ := hu
  have e : s ++ ':' :: '/' :: '/' :: h :: y ++ '/' :: b
      = s ++ ':' :: '/' :: '/' :: (h :: y ++ '/' :: b) := by simp
  have hcol : ∀ c ∈ s, decide (c ≠ ':') = true := by
    intro c hc
    simp only [decide_eq_true_eq]
    rintro rfl
    exact absurd (hsc _ hc) (by decide)
  have hsp : Uri.splitScheme (s ++ ':' :: '/' :: '/' :: (h :: y ++ '/' :: b))
      = (s.map Char.toLower, '/' :: '/' :: (h :: y ++ '/' :: b)) := by
    unfold Uri.splitScheme
    simp only [List.takeWhile_append_of_pos hcol, List.dropWhile_append_of_pos hcol]
    simp only [List.takeWhile_cons, List.dropWhile_cons, ne_eq, not_true_eq_false, decide_false,
      Bool.false_eq_true, if_false, List.append_nil]
    rw [if_pos ⟨hs, List.all_eq_true.2 hsc, Or.inr (Or.inr (by simp [Char.isDigit]))⟩]
  obtain ⟨z, hz, hzm⟩ := dropWhile_mid (fun c => c ≠ '/' && c ≠ '?' && c ≠ '#') (by decide) (h :: y) b
  have hall : ∀ c ∈ z ++ '/' :: b, c ≠ '?' ∧ c ≠ '#' := by
    intro c hc'
    rcases List.mem_append.1 hc' with h' | h'
    · exact hy c (hzm c h')
    · rcases List.mem_cons.1 h' with rfl | h'
      · decide
      · exact ⟨(hc c h').1, (hc c h').2.1⟩
  have hpath : Uri.path (s ++ ':' :: '/' :: '/' :: (h :: y ++ '/' :: b)) = z ++ '/' :: b := by
    unfold Uri.path
    simp only [hsp]
    have h2 : ('/' :: '/' :: (h :: y ++ '/' :: b)).take 2 = ['/', '/'] := rfl
    rw [if_pos h2]
    have h3 : ('/' :: '/' :: (h :: y ++ '/' :: b)).drop 2 = h :: y ++ '/' :: b := rfl
    rw [h3, hz]
    have t1 : (z ++ '/' :: b).takeWhile (· ≠ '#') = z ++ '/' :: b :=
      takeWhile_all (fun c hc' => by simpa using (hall c hc').2)
    have t2 : (z ++ '/' :: b).takeWhile (· ≠ '?') = z ++ '/' :: b :=
      takeWhile_all (fun c hc' => by simpa using (hall c hc').1)
    rw [t1, t2]
    have hdp : Uri.dropParams (z ++ '/' :: b) = z ++ '/' :: b := by
      unfold Uri.dropParams
      rw [(base_last z b hb).1, (base_last z b hb).2,
        takeWhile_all (p := fun c => decide (c ≠ ';')) (fun c hc' => by simpa using (hc c hc').2.2)]
      simp
    by_cases hp : s.map Char.toLower ∈ Uri.usesParams
    · rw [if_pos hp, hdp]
    · rw [if_neg hp]
  rw [e]
  unfold Uri.filename
  rw [hpath]
  exact (base_last z b hb).1

theorem remote_more {u w : Str} (hu : Remote u) (hw : ∀ c ∈ w, c ≠ '?' ∧ c ≠ '#') : Remote (u ++ w) := by
  obtain ⟨s, h, y, rfl, hs, hsc, hh, hy⟩ := hu
  refine ⟨s, h, y ++ w, by simp, hs, hsc, hh, ?_⟩
  intro c hc
  rw [← List.cons_append] at hc
  rcases List.mem_append.1 hc with hc | hc
  · exact hy c hc
  · exact hw c hc

theorem remote_step {u w : Str} (hu : Remote u) (hw : ∀ c ∈ w, c ≠ '?' ∧ c ≠ '#') :
    Remote (joinStep u w) := by
  have hl : ∀ c ∈ lstripSlash w, c ≠ '?' ∧ c ≠ '#' := fun c hc => hw c (List.dropWhile_subset _ hc)
  unfold joinStep
  by_cases h : u = [] ∨ u.getLast? = some '/'
  · rw [if_pos h]; exact remote_more hu hl
  · rw [if_neg h]
    refine remote_more hu ?_
    intro c hc
    rcases List.mem_cons.1 hc with rfl | hc
    · decide
    · exact hl c hc

theorem remote_ne {u : Str} (hu : Remote u) : u ≠ [] := by
  obtain ⟨s, h, y, rfl, hs, _⟩ := hu
  simp

/-- Joining a name to an address and taking the file name gives the name. -/
theorem filename_join {u b : Str} (hu : Remote u) (hb : '/' ∉ b)
    (hc : ∀ c ∈ b, c ≠ '?' ∧ c ≠ '#' ∧ c ≠ ';') : Uri.filename (joinStep u b) = b := by
  unfold joinStep
  rw [lstrip_noslash hb]
  by_cases h : u = [] ∨ u.getLast? = some '/'
  · rw [if_pos h]
    have hlast : u.getLast? = some '/' := h.resolve_left (remote_ne hu)
    obtain ⟨s, x, y, rfl, hs, hsc, hh, hy⟩ := hu
    obtain ⟨y', rfl⟩ : ∃ y', y = y' ++ ['/'] := by
      rcases List.eq_nil_or_concat y with rfl | ⟨y', z, rfl⟩
      · have : x = '/' := by simpa using hlast
        exact absurd this hh
      · have : z = '/' := by simpa [List.getLast?_cons] using hlast
        exact ⟨y', by simp [this]⟩
    have hr : Remote (s ++ ':' :: '/' :: '/' :: x :: y') :=
      ⟨s, x, y', rfl, hs, hsc, hh, fun c hc => hy c (by
        rcases List.mem_cons.1 hc with rfl | hc
        · exact List.mem_cons_self ..
        · exact List.mem_cons_of_mem _ (List.mem_append_left _ hc))⟩
    have := filename_last hr hb hc
    have e : s ++ ':' :: '/' :: '/' :: x :: (y' ++ ['/']) ++ b
        = s ++ ':' :: '/' :: '/' :: x :: y' ++ '/' :: b := by simp
    rw [e, this]
  · rw [if_neg h]
    exact filename_last hu hb hc

theorem plain_dirname {n : Str} (h : Plain n) : ∀ c ∈ dirname n, c ≠ '?' ∧ c ≠ '#' := by
  intro c hc
  have : c ∈ headOf n := by
    rw [dirname_eq] at hc
    by_cases ha : (headOf n).all (· = '/') = true
    · rwa [if_pos ha] at hc
    · rw [if_neg ha] at hc
      unfold rstrip at hc
      exact List.mem_reverse.1 (List.dropWhile_subset _ (List.mem_reverse.1 hc))
  have hm : c ∈ n := by rw [← headOf_append n]; exact List.mem_append_left _ this
  exact ⟨(h.2.2 c hm).1, (h.2.2 c hm).2.1⟩

theorem plain_basename {n : Str} (h : Plain n) : ∀ c ∈ basename n, c ≠ '?' ∧ c ≠ '#' ∧ c ≠ ';' := by
  intro c hc
  exact h.2.2 c (by rw [← headOf_append n]; exact List.mem_append_right _ hc)

theorem segs_files : segs filesDir = [filesDir] := by decide
theorem segs_comar : segs comarDir = [comarDir] := by decide

/-- A file named below `files` is fetched to the same name. -/
theorem fetchBelow_same {u d n : Str} (hu : Remote u) (hn : Plain n) :
    segs (fetchBelow u d n).1 = segs u ++ (filesDir :: segs n) ∧
    segs (fetchBelow u d n).2 = segs d ++ (filesDir :: segs n) := by
  have hf : Uri.filename (joinPath u [filesDir, dirname n, basename n]) = basename n := by
    show Uri.filename (joinStep (joinStep (joinStep u filesDir) (dirname n)) (basename n)) = _
    exact filename_join (remote_step (remote_step hu (by decide)) (plain_dirname hn))
      (basename_noslash n) (plain_basename hn)
  constructor
  · show segs (joinPath u [filesDir, dirname n, basename n]) = _
    rw [(join_path_denotes u _).1, segs_split n]
    simp [segs_files]
  · show segs (joinPath (joinPath d [filesDir, dirname n]) [Uri.filename _]) = _
    rw [hf, (join_path_denotes _ _).1, (join_path_denotes d _).1, segs_split n]
    simp [segs_files]

/-- A script in no directory is fetched to the same name. -/
theorem fetchScript_same {u d n : Str} (hu : Remote u) (hn : Plain n) (hs : '/' ∉ n) :
    segs (fetchScript u d n).1 = segs u ++ (comarDir :: segs n) ∧
    segs (fetchScript u d n).2 = segs d ++ (comarDir :: segs n) := by
  have hf : Uri.filename (joinPath u [comarDir, n]) = n := by
    show Uri.filename (joinStep (joinStep u comarDir) n) = _
    exact filename_join (remote_step hu (by decide)) hs hn.2.2
  constructor
  · show segs (joinPath u [comarDir, n]) = _
    rw [(join_path_denotes u _).1]
    simp [segs_comar]
  · show segs (joinPath (joinPath d [comarDir]) [Uri.filename _]) = _
    rw [hf, (join_path_denotes _ _).1, (join_path_denotes d _).1]
    simp [segs_comar]

theorem segs_below (d n : Str) (hd : '/' ∉ d) (hne : d ≠ []) : segs (d ++ '/' :: n) = d :: segs n := by
  rw [segs_append, segs_single d hd hne]; rfl

/-- Partial (C150): the actions script, all patches and additional files in
whatever directories, and the scripts that lie in `comar` itself are fetched to
where the build reads them.  Missing: scripts in directories below `comar`
(`script_misplaced`), and names with `?`, `#` or `;`. -/
theorem remote_partial (specuri tmp : Str) (s : Source) (hu : Remote (dirname specuri))
    (hn : ∀ n, n ∈ s.patches ∨ n ∈ s.scripts ∨ n ∈ s.additional → Plain n)
    (hs : ∀ n ∈ s.scripts, '/' ∉ n) :
    ∀ n ∈ needed s, Fetched (fetchFiles specuri tmp s) (dirname specuri) (destDir specuri tmp) n := by
  intro n hm
  unfold needed at hm
  rcases List.mem_cons.1 hm with rfl | hm
  · refine ⟨download (joinPath (dirname specuri) [actionsFile]) (destDir specuri tmp),
      List.mem_cons_self .., ?_, ?_⟩
    · show segs (joinPath (dirname specuri) [actionsFile]) = _
      rw [(join_path_denotes _ _).1]
      simp [actionsFile]
    · have hf : Uri.filename (joinPath (dirname specuri) [actionsFile]) = actionsFile :=
        filename_join hu (by decide) (by decide)
      show segs (joinPath (destDir specuri tmp) [Uri.filename _]) = _
      rw [hf, (join_path_denotes _ _).1]
      simp [actionsFile]
  · rcases List.mem_append.1 hm with hm | hm
    · rcases List.mem_append.1 hm with hm | hm
      · obtain ⟨p, hp, rfl⟩ := List.mem_map.1 hm
        refine ⟨fetchBelow (dirname specuri) (destDir specuri tmp) p, ?_, ?_⟩
        · exact List.mem_cons_of_mem _ (List.mem_append_left _ (List.mem_append_left _
            (List.mem_map_of_mem hp)))
        · have := fetchBelow_same (d := destDir specuri tmp) hu (hn p (Or.inl hp))
          rw [show ['f','i','l','e','s','/'] ++ p = filesDir ++ '/' :: p from rfl,
            segs_below filesDir p (by decide) (by decide)]
          exact this
      · obtain ⟨p, hp, rfl⟩ := List.mem_map.1 hm
        refine ⟨fetchScript (dirname specuri) (destDir specuri tmp) p, ?_, ?_⟩
        · exact List.mem_cons_of_mem _ (List.mem_append_left _ (List.mem_append_right _
            (List.mem_map_of_mem hp)))
        · have := fetchScript_same (d := destDir specuri tmp) hu (hn p (Or.inr (Or.inl hp))) (hs p hp)
          rw [show ['c','o','m','a','r','/'] ++ p = comarDir ++ '/' :: p from rfl,
            segs_below comarDir p (by decide) (by decide)]
          exact this
    · obtain ⟨p, hp, rfl⟩ := List.mem_map.1 hm
      refine ⟨fetchBelow (dirname specuri) (destDir specuri tmp) p, ?_, ?_⟩
      · exact List.mem_cons_of_mem _ (List.mem_append_right _ (List.mem_map_of_mem hp))
      · have := fetchBelow_same (d := destDir specuri tmp) hu (hn p (Or.inr (Or.inr hp)))
        rw [show ['f','i','l','e','s','/'] ++ p = filesDir ++ '/' :: p from rfl,
          segs_below filesDir p (by decide) (by decide)]
        exact this

theorem segs_osJoin {a b : Str} (h : b.head? ≠ some '/') : segs (osJoin a b) = segs a ++ segs b := by
  have hb : Act.isAbs b = false := by simpa [Act.isAbs] using h
  unfold osJoin
  rw [if_neg (by simp [hb])]
  by_cases ha : a = [] ∨ a.getLast? = some '/'
  · rw [if_pos ha]
    rcases ha with rfl | ha
    · simp [segs, segsFrom]
    · obtain ⟨a', rfl⟩ : ∃ a', a = a' ++ ['/'] := by
        rcases List.eq_nil_or_concat a with rfl | ⟨a', z, rfl⟩
        · cases ha
        · have : z = '/' := by simpa using ha
          exact ⟨a', by simp [this]⟩
      rw [List.append_assoc, List.singleton_append, segs_append, segs_snoc_slash]
  · rw [if_neg ha, segs_append]

/-- What a build reads is what is needed, in the directory of the
specification. -/
theorem reads_needed (specdir : Str) (s : Source)
    (hn : ∀ n, n ∈ s.patches ∨ n ∈ s.scripts ∨ n ∈ s.additional → Plain n) :
    (reads specdir s).map segs = (needed s).map (fun n => segs specdir ++ segs n) := by
  unfold reads needed
  simp only [List.map_cons, List.map_append, List.map_map]
  congr 1
  · rw [(join_path_denotes _ _).1]; simp [actionsFile]
  congr 1
  congr 1
  · apply List.map_congr_left
    intro p hp
    show segs (joinPath (joinPath specdir [filesDir]) [p]) = segs specdir ++ segs (filesDir ++ '/' :: p)
    rw [(join_path_denotes _ _).1, (join_path_denotes _ _).1, segs_below filesDir p (by decide) (by decide)]
    simp [segs_files]
  · apply List.map_congr_left
    intro p hp
    show segs (osJoin specdir (joinPath comarDir [p])) = segs specdir ++ segs (comarDir ++ '/' :: p)
    rw [segs_osJoin, (join_path_denotes _ _).1, segs_below comarDir p (by decide) (by decide)]
    · simp [segs_comar]
    · show (joinStep comarDir p).head? ≠ _
      unfold joinStep
      rw [if_neg (by decide)]
      simp [comarDir]
  · apply List.map_congr_left
    intro p hp
    have hp' := (hn p (Or.inr (Or.inr hp))).2.1
    show segs (osJoin specdir (osJoin filesDir p)) = segs specdir ++ segs (filesDir ++ '/' :: p)
    have hj : osJoin filesDir p = filesDir ++ '/' :: p := by
      have hb : Act.isAbs p = false := by simpa [Act.isAbs] using hp'
      unfold osJoin
      rw [if_neg (by simp [hb]), if_neg (by decide)]
    rw [hj, segs_osJoin (by simp [filesDir])]

/-- A build from a server reads files that were fetched from next to the
specification, under the same names. -/
theorem build_reads_fetched (specuri tmp : Str) (s : Source) (hu : Remote (dirname specuri))
    (hn : ∀ n, n ∈ s.patches ∨ n ∈ s.scripts ∨ n ∈ s.additional → Plain n)
    (hs : ∀ n ∈ s.scripts, '/' ∉ n) :
    ∀ r ∈ reads (destDir specuri tmp) s, ∃ e ∈ fetchFiles specuri tmp s, ∃ n ∈ needed s,
      segs e.2 = segs r ∧ segs e.1 = segs (dirname specuri) ++ segs n := by
  intro r hr
  have h1 : segs r ∈ (needed s).map (fun n => segs (destDir specuri tmp) ++ segs n) := by
    rw [← reads_needed _ _ hn]; exact List.mem_map_of_mem hr
  obtain ⟨n, hm, he⟩ := List.mem_map.1 h1
  obtain ⟨e, hme, h1, h2⟩ := remote_partial specuri tmp s hu hn hs n hm
  exact ⟨e, hme, n, hm, h2.trans he, h1⟩

theorem lstrip_last (a b : Str) (hb : '/' ∉ b) :
    lstripSlash (a ++ '/' :: b) = b ∨ lstripSlash (a ++ '/' :: b) = lstripSlash a ++ '/' :: b := by
  induction a with
  | nil =>
    left
    have := lstrip_noslash hb
    simpa [lstripSlash] using this
  | cons x a ih =>
    by_cases hx : x = '/'
    · subst hx
      simpa [lstripSlash] using ih
    · right
      simp [lstripSlash, hx]

/-- A script in a directory below `comar` is put into `comar` itself, where
nothing looks for it. -/
theorem script_misplaced {u d a b : Str} (hu : Remote u) (ha : ∀ c ∈ a, c ≠ '?' ∧ c ≠ '#')
    (hb : '/' ∉ b) (hc : ∀ c ∈ b, c ≠ '?' ∧ c ≠ '#' ∧ c ≠ ';') :
    segs (fetchScript u d (a ++ '/' :: b)).2 = segs d ++ (comarDir :: segs b) := by
  have hr : Remote (joinStep u comarDir) := remote_step hu (by decide)
  have hlast : ¬ (joinStep u comarDir = [] ∨ (joinStep u comarDir).getLast? = some '/') := by
    rintro (h | h)
    · exact remote_ne hr h
    · unfold joinStep at h
      by_cases hx : u = [] ∨ u.getLast? = some '/'
      · rw [if_pos hx] at h
        simp [comarDir, lstripSlash] at h
      · rw [if_neg hx] at h
        simp [comarDir, lstripSlash] at h
  have hf : Uri.filename (joinPath u [comarDir, a ++ '/' :: b]) = b := by
    show Uri.filename (joinStep (joinStep u comarDir) (a ++ '/' :: b)) = _
    rw [joinStep, if_neg hlast]
    rcases lstrip_last a b hb with h | h
    · rw [h]
      exact filename_last hr hb hc
    · rw [h]
      have : joinStep u comarDir ++ '/' :: (lstripSlash a ++ '/' :: b)
          = (joinStep u comarDir ++ '/' :: lstripSlash a) ++ '/' :: b := by simp
      rw [this]
      refine filename_last (remote_more hr ?_) hb hc
      intro c hc'
      rcases List.mem_cons.1 hc' with rfl | hc'
      · decide
      · exact ha c (List.dropWhile_subset _ hc')
  show segs (joinPath (joinPath d [comarDir]) [Uri.filename _]) = _
  rw [hf, (join_path_denotes _ _).1, (join_path_denotes d _).1]
  simp [segs_comar]

/-- A specification at `http://h/p/pspec.xml` with a patch and an additional
file in directories, and one script. -/
def exUri : Str := ['h','t','t','p',':','/','/','h','/','p','/','p','s','p','e','c','.','x','m','l']

/-- See `exUri`. -/
def exSource : Source :=
  { patches := [['a','/','b']], scripts := [['s','.','p','y']], additional := [['c','/','d']] }

theorem exRemote : Remote (dirname exUri) :=
  ⟨['h','t','t','p'], 'h', ['/','p'], by decide, by decide, by decide, by decide, by decide⟩

example : fetchFiles exUri ['/','t'] exSource =
    [("http://h/p/actions.py".toList, "/t/p/actions.py".toList),
     ("http://h/p/files/a/b".toList, "/t/p/files/a/b".toList),
     ("http://h/p/comar/s.py".toList, "/t/p/comar/s.py".toList),
     ("http://h/p/files/c/d".toList, "/t/p/files/c/d".toList)] := by decide +kernel

/-- The hypotheses of `remote_partial` and `build_reads_fetched` are met. -/
example : Remote (dirname exUri) ∧ (∀ n ∈ exSource.patches ++ exSource.scripts ++ exSource.additional, Plain n) ∧
    ∀ n ∈ exSource.scripts, '/' ∉ n := by
  refine ⟨exRemote, ?_, by decide⟩
  unfold Plain
  decide

/-- The full statement is false: a script `s/x` is put at `comar/x`. -/
theorem remote_refuted : ¬ RemoteFull := by
  intro h
  have hp : Plain ['s','/','x'] := by unfold Plain; decide
  have := h exUri ['/','t'] { patches := [], scripts := [['s','/','x']], additional := [] } exRemote (by
    intro n hn
    rcases hn with hn | hn | hn
    · cases hn
    · rw [List.mem_singleton.1 hn]; exact hp
    · cases hn) ['c','o','m','a','r','/','s','/','x'] (by decide)
  revert this
  unfold Fetched
  decide +kernel

/-! ## Additional files (C151) -/

theorem segsFrom_len {a b : Str} (w : Str) (ha : a ≠ []) (hb : b ≠ []) :
    (segsFrom a w).length = (segsFrom b w).length := by
  induction w generalizing a b with
  | nil => simp [segsFrom, ha, hb]
  | cons c w ih =>
    by_cases hc : c = '/'
    · simp [segsFrom, hc, ha, hb]
    · simp only [segsFrom, if_neg hc]
      exact ih (by simp) (by simp)

theorem segs_glued {w : Str} (hw : w ≠ []) (hh : w.head? ≠ some '/') :
    ∀ (a cur : Str), a ≠ [] → a.getLast? ≠ some '/' →
      (segsFrom cur (a ++ w)).length + 1 = (segsFrom cur a).length + (segs w).length := by
  intro a
  induction a with
  | nil => intro _ h; exact absurd rfl h
  | cons c a ih =>
    intro cur _ hl
    by_cases ha : a = []
    · subst ha
      have hc : c ≠ '/' := by simpa using hl
      cases w with
      | nil => exact absurd rfl hw
      | cons d w =>
        have hd : d ≠ '/' := by simpa using hh
        have := segsFrom_len (a := cur ++ [c] ++ [d]) (b := [d]) w (by simp) (by simp)
        simp only [segs, List.cons_append, List.nil_append, segsFrom, if_neg hc, if_neg hd]
        rw [if_neg (by simp), this, List.length_singleton]
        omega
    · have hl' : a.getLast? ≠ some '/' := by
        rw [List.getLast?_cons] at hl
        cases h : a.getLast? with
        | none => simp
        | some x => simpa [h] using hl
      by_cases hc : c = '/'
      · by_cases hcur : cur = []
        · simp only [List.cons_append, segsFrom, if_pos hc, if_pos hcur]
          exact ih [] ha hl'
        · simp only [List.cons_append, segsFrom, if_pos hc, if_neg hcur, List.length_cons]
          have := ih [] ha hl'
          omega
      · simp only [List.cons_append, segsFrom, if_neg hc]
        exact ih _ ha hl'

theorem basename_head (t : Str) : (basename t).head? ≠ some '/' := by
  intro h
  exact basename_noslash t (List.mem_of_mem_head? h)

/-- An additional file is put at its target exactly when the target begins with
a slash or has no directory. -/
theorem additional_iff (install target : Str) (hi : install ≠ []) (hl : install.getLast? ≠ some '/') :
    segs (additionalDest install target) = segs install ++ segs target ↔
      target.head? = some '/' ∨ dirname target = [] := by
  unfold additionalDest
  rw [segs_osJoin (basename_head target), segs_split target, ← List.append_assoc,
    List.append_left_inj]
  by_cases hd : dirname target = []
  · simp [hd, segs, segsFrom]
  · have habs := Act.isAbs_dirname target
    by_cases h : target.head? = some '/'
    · simp only [h, true_or, iff_true]
      obtain ⟨w, hw⟩ : ∃ w, dirname target = '/' :: w := by
        have : Act.isAbs (dirname target) = true := by rw [habs]; simp [Act.isAbs, h]
        cases hx : dirname target with
        | nil => exact absurd hx hd
        | cons c w =>
          rw [hx] at this
          have : c = '/' := by simpa [Act.isAbs] using this
          exact ⟨w, by rw [this]⟩
      rw [hw, segs_append, segs_slash]
    · simp only [h, hd, or_self, iff_false]
      have hh : (dirname target).head? ≠ some '/' := by
        have : Act.isAbs target = false := by simpa [Act.isAbs] using h
        rw [this] at habs
        simpa [Act.isAbs] using habs
      have := segs_glued hd hh install [] hi hl
      intro e
      have e' := congrArg List.length e
      rw [List.length_append] at e'
      unfold segs at e' this
      omega

/-- Partial (C151): additional files with a target that begins with a slash are
put there.  Missing: relative targets with a directory, whose directory is glued
to the name of the install directory (`additional_iff`). -/
theorem additional_partial (install target : Str) (hi : install ≠ []) (hl : install.getLast? ≠ some '/')
    (ht : target.head? = some '/') :
    segs (additionalDest install target) = segs install ++ segs target :=
  (additional_iff install target hi hl).2 (Or.inl ht)

/-- The files of a specification with distinct targets do not meet. -/
theorem additional_apart (install t t' : Str) (hi : install ≠ []) (hl : install.getLast? ≠ some '/')
    (ht : t.head? = some '/') (ht' : t'.head? = some '/') (h : segs t ≠ segs t') :
    segs (additionalDest install t) ≠ segs (additionalDest install t') := by
  rw [additional_partial install t hi hl ht, additional_partial install t' hi hl ht']
  intro e
  exact h (List.append_cancel_left e)

example : additionalDest "/t/install".toList "/etc/x".toList = "/t/install/etc/x".toList := by decide +kernel
example : additionalDest "/t/install".toList "etc/x".toList = "/t/installetc/x".toList := by decide +kernel

/-- The full statement is false. -/
theorem additional_refuted : ¬ AdditionalFull := by
  intro h
  have := h ['/','i'] ['e','/','x'] (by decide) (by decide) (by decide)
  revert this
  decide +kernel

end Pisi.RemoteBuild
