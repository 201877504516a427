import Verif.Props.Tar

/-!
# Compressed source archives and the package format 1.0
-/
namespace Pisi.Tar
open Pisi.Path Pisi.PathSpec Pisi.Unpack Pisi.TarSpec

theorem lzmaOutput_append (x : Str) : lzmaOutput (x ++ lzmaSuffix) = some x := by
  simp [lzmaOutput, lzmaSuffix]

theorem rstripChars_prefix (chars a : Str) : rstripChars chars a <+: a := by
  unfold rstripChars Path.rstrip
  have := List.reverse_prefix.2 (List.dropWhile_suffix (l := a.reverse) (fun x => decide (x ∈ chars)))
  rwa [List.reverse_reverse] at this

theorem rstripChars_self (chars a : Str) : rstripChars chars a = a ↔ ∀ c, a.getLast? = some c → c ∉ chars := by
  constructor
  · intro h c hc hm
    obtain ⟨b, rfl⟩ := List.getLast?_eq_some_iff.1 hc
    rw [rstripChars_append _ _ _ (by simpa using hm)] at h
    have := (rstripChars_prefix chars b).length_le
    rw [h] at this
    simp at this
    omega
  · intro h
    rcases List.eq_nil_or_concat a with e | ⟨b, c, e⟩
    · subst e; rfl
    · rw [List.concat_eq_append] at e
      subst e
      exact rstripChars_last chars b c (h c (by simp))

/-- C141: the file that is opened is the one that was decompressed exactly if its name does not end in one of the characters
of `.lzma`. -/
theorem opened_iff (x : Str) : withoutSuffix (x ++ lzmaSuffix) = x ↔ ∀ c, x.getLast? = some c → c ∉ lzmaSuffix := by
  unfold withoutSuffix
  rw [rstripChars_append _ _ _ (fun c hc => hc), rstripChars_self]

/-- C141, full statement: a cached source archive can be unpacked, with its content, and is still cached afterwards. -/
def SourceFull : Prop := ∀ (sha : Str → Str) (unlzma : Str → Option Str) (t : AType) (path hash x y : Str) (c : Cache),
  c path = some x → sha x = hash → (t = .tarlzma → unlzma x = some y ∧ lzmaSuffix <:+ path) → (t ≠ .tarlzma → y = x) →
  ∃ c', unpackSource sha unlzma t path hash c = some (y, c') ∧ isCached sha path hash c' = true

/-- C141 for the other types: the archive is unpacked and stays. -/
theorem source_partial (sha : Str → Str) (unlzma : Str → Option Str) (t : AType) (path hash x : Str) (c : Cache)
    (hc : c path = some x) (hh : sha x = hash) (ht : t ≠ .tarlzma) :
    unpackSource sha unlzma t path hash c = some (x, c) ∧ isCached sha path hash c = true := by
  unfold unpackSource isCached
  rw [hc]
  simp only [hh, if_true, decide_true, and_true]
  cases t <;> first | exact absurd rfl ht | simp [readArchive, hc]

/-- C141 for `tarlzma`: the content is unpacked if the name without `.lzma` does not end in one of these characters, but the
archive is no longer in the cache; the other files of the cache are as before. -/
theorem source_lzma (sha : Str → Str) (unlzma : Str → Option Str) (z hash x y : Str) (c : Cache)
    (hc : c (z ++ lzmaSuffix) = some x) (hh : sha x = hash) (hu : unlzma x = some y)
    (hz : ∀ a, z.getLast? = some a → a ∉ lzmaSuffix) :
    ∃ c', unpackSource sha unlzma .tarlzma (z ++ lzmaSuffix) hash c = some (y, c') ∧
      isCached sha (z ++ lzmaSuffix) hash c' = false ∧ ∀ p, p ≠ z → p ≠ z ++ lzmaSuffix → c' p = c p := by
  have hne : z ≠ z ++ lzmaSuffix := by
    intro e
    have := congrArg List.length e
    simp [lzmaSuffix] at this
  refine ⟨fun p => if p = z ++ lzmaSuffix then none else if p = z then some y else c p, ?_, by simp [isCached], ?_⟩
  · simp [unpackSource, hc, hh, readArchive, lzmaD, lzmaOutput_append, hu, (opened_iff z).2 hz, hne]
  · intro p h1 h2
    simp [h1, h2]

/-- C141: other names are not found after decompression, unless a file of the shorter name happens to be in the cache. -/
theorem source_lost (sha : Str → Str) (unlzma : Str → Option Str) (z hash x y : Str) (c : Cache) (a : Char)
    (hc : c (z ++ lzmaSuffix) = some x) (hh : sha x = hash) (hu : unlzma x = some y)
    (hz : z.getLast? = some a) (ha : a ∈ lzmaSuffix) (hno : c (withoutSuffix (z ++ lzmaSuffix)) = none) :
    unpackSource sha unlzma .tarlzma (z ++ lzmaSuffix) hash c = none := by
  have h1 : withoutSuffix (z ++ lzmaSuffix) ≠ z := fun e => (opened_iff z).1 e a hz ha
  have h2 : withoutSuffix (z ++ lzmaSuffix) ≠ z ++ lzmaSuffix := by
    intro e
    rw [e, hc] at hno
    cases hno
  simp [unpackSource, hc, hh, readArchive, lzmaD, lzmaOutput_append, hu, h1, h2, hno]

example : (∀ a, (['s', '.', 't', 'a', 'r'] : Str).getLast? = some a → a ∉ lzmaSuffix) ∧
    (['d', 'a', 't', 'a'] : Str).getLast? = some 'a' ∧ 'a' ∈ lzmaSuffix := by decide

/-- C141 is false of the code. -/
theorem source_refuted : ¬ SourceFull := by
  intro h
  obtain ⟨c', h1, h2⟩ := h id some .tarlzma (['s', '.', 't', 'a', 'r'] ++ lzmaSuffix) ['x'] ['x'] ['x']
    (fun p => if p = ['s', '.', 't', 'a', 'r'] ++ lzmaSuffix then some ['x'] else none) (by simp) rfl
    (fun _ => ⟨rfl, List.suffix_append _ _⟩) (fun e => absurd rfl e)
  obtain ⟨c'', h3, h4, _⟩ := source_lzma id some ['s', '.', 't', 'a', 'r'] ['x'] ['x'] ['x']
    (fun p => if p = ['s', '.', 't', 'a', 'r'] ++ lzmaSuffix then some ['x'] else none) (by simp) rfl rfl (by decide)
  rw [h1] at h3
  cases h3
  rw [h2] at h4
  cases h4

/-! ## The format 1.0 -/

/-- A source is taken from the cache if and only if there is a file of its name with the expected hash. -/
theorem isCached_exact (sha : Str → Str) (path hash : Str) (c : Cache) :
    isCached sha path hash c = true ↔ ∃ x, c path = some x ∧ sha x = hash := by
  unfold isCached
  cases c path <;> simp

theorem splitOn_last (c : Char) (s : Str) : ∃ a l, splitOn c s = l ++ [a] := by
  rcases List.eq_nil_or_concat (splitOn c s) with e | ⟨l, a, e⟩
  · exfalso
    cases s with
    | nil => simp [splitOn] at e
    | cons x xs =>
      unfold splitOn at e
      split at e
      · cases e
      · split at e <;> cases e
  · exact ⟨a, l, by rw [e, List.concat_eq_append]⟩

theorem subpath_install (r : Str) : subpath installName (installName ++ '/' :: r) = true := by
  unfold subpath
  rw [prefix_iff]
  have h1 : splitpath installName = [installName] := by decide
  rw [h1]
  unfold splitpath
  rw [splitOn_append]
  have h2 : splitOn '/' installName = [installName] := by decide
  obtain ⟨a, l, e⟩ := splitOn_last '/' r
  rw [h2, e]
  simp only
  split
  · rw [← List.append_assoc, List.dropLast_concat]; simp
  · simp

theorem outpath_install (r : Str) : ∃ out, outpath installName (installName ++ '/' :: r) = some out ∧ segs out = segs r := by
  obtain ⟨out, h1, h2⟩ := rebase_partial installName (installName ++ '/' :: r) (.inl (by decide)) (subpath_install r)
  have ho : outpath installName (installName ++ '/' :: r) = some out := by
    unfold outpath
    rw [if_neg (by decide), if_pos (subpath_install r), h1]
  refine ⟨out, ho, ?_⟩
  have := (outpath_root installName _ out (by decide) ho).1
  rw [segs_append] at this
  exact (List.append_cancel_left this).symm

theorem packZip_mem (built : Files) (I : Loc) (pre : Str) (paths : List Str) (ms : List Member)
    (h : packZip built I pre paths = some ms) :
    (∀ p ∈ paths, ∃ m ∈ ms, addZip built I pre p = some m) ∧ (∀ m ∈ ms, ∃ p ∈ paths, addZip built I pre p = some m) := by
  induction paths generalizing ms with
  | nil => cases h; simp
  | cons p ps ih =>
    unfold packZip at h
    cases h1 : addZip built I pre p with
    | none => rw [h1] at h; cases h
    | some m =>
      rw [h1] at h
      cases h2 : packZip built I pre ps with
      | none => rw [h2] at h; cases h
      | some ms' =>
        rw [h2] at h
        cases h
        obtain ⟨a, b⟩ := ih ms' h2
        constructor
        · intro q hq
          rcases List.mem_cons.1 hq with e | hq
          · subst e; exact ⟨m, by simp, h1⟩
          · obtain ⟨k, hk, e⟩ := a q hq
            exact ⟨k, by simp [hk], e⟩
        · intro k hk
          rcases List.mem_cons.1 hk with e | hk
          · subst e; exact ⟨p, by simp, h1⟩
          · obtain ⟨q, hq, e⟩ := b k hk
            exact ⟨q, by simp [hq], e⟩

theorem packZip_pairwise (built : Files) (I : Loc) (pre : Str) (R : Str → Str → Prop) (S : Member → Member → Prop)
    (hRS : ∀ p q m k, R p q → addZip built I pre p = some m → addZip built I pre q = some k → S m k)
    (paths : List Str) (ms : List Member) (h : packZip built I pre paths = some ms) (hp : paths.Pairwise R) : ms.Pairwise S := by
  induction paths generalizing ms with
  | nil => cases h; exact .nil
  | cons p ps ih =>
    unfold packZip at h
    cases h1 : addZip built I pre p with
    | none => rw [h1] at h; cases h
    | some m =>
      rw [h1] at h
      cases h2 : packZip built I pre ps with
      | none => rw [h2] at h; cases h
      | some ms' =>
        rw [h2] at h
        cases h
        obtain ⟨a, b⟩ := List.pairwise_cons.1 hp
        refine List.pairwise_cons.2 ⟨fun k hk => ?_, ih ms' h2 b⟩
        obtain ⟨q, hq, e⟩ := (packZip_mem built I pre ps ms' h2).2 k hk
        exact hRS p q m k (a q hq) h1 e

theorem lstrip_last (p : Str) (h : p.getLast? ≠ some '/') : (lstripSlash p).getLast? ≠ some '/' := by
  unfold lstripSlash
  intro e
  obtain ⟨b, hb⟩ := List.getLast?_eq_some_iff.1 e
  have hs := List.dropWhile_suffix (l := p) (fun c => decide (c = '/'))
  rw [hb] at hs
  obtain ⟨t, ht⟩ := hs
  apply h
  rw [← ht, ← List.append_assoc, List.getLast?_concat]

/-- What `add_to_archive` makes of a path of an ordinary package. -/
theorem addZip_spec {built : Files} {I : Loc} {p : Str} {m : Member} (hp : segs p ≠ []) (hl : p.getLast? ≠ some '/')
    (h : addZip built I installName p = some m) :
    (∃ out, subpath installName m.name = true ∧ outpath installName m.name = some out ∧ segs out = segs p) ∧
    segs m.name = installName :: segs p ∧
    ((m.isDir = true ∧ ∃ k, built (I ++ segs p) = some (.dir k)) ∨
     (m.isDir = false ∧ ((∃ c k, built (I ++ segs p) = some (.file c k) ∧ m.content = c ∧ m.attr = storedAttr false k) ∨
       ∃ t, built (I ++ segs p) = some (.link t) ∧ m.content = t ∧ m.attr = symmagic))) := by
  have hins : segs installName = [installName] := by decide
  have hne : lstripSlash p ≠ [] := by
    intro e
    apply hp
    rw [← segs_lstrip, e]; rfl
  have hlast : (installName ++ '/' :: lstripSlash p).getLast? ≠ some '/' := by
    have := lstrip_last p hl
    rcases List.eq_nil_or_concat (lstripSlash p) with e | ⟨a, b, e⟩
    · exact absurd e hne
    · rw [List.concat_eq_append] at e
      rw [e] at this ⊢
      rw [List.getLast?_concat] at this
      have e2 : installName ++ '/' :: (a ++ [b]) = (installName ++ '/' :: a) ++ [b] := by simp
      rw [e2, List.getLast?_concat]
      exact this
  have plain : ∀ k : Member, k.name = joinPath installName [p] →
      (∃ out, subpath installName k.name = true ∧ outpath installName k.name = some out ∧ segs out = segs p) ∧
      segs k.name = installName :: segs p ∧ k.isDir = false := by
    intro k hk
    rw [join_install] at hk
    obtain ⟨out, h1, h2⟩ := outpath_install (lstripSlash p)
    rw [← hk] at h1
    refine ⟨⟨out, by rw [hk]; exact subpath_install _, h1, by rw [h2, segs_lstrip]⟩, ?_, ?_⟩
    · rw [hk, segs_append, segs_lstrip, hins]; rfl
    · simp only [Member.isDir, hk, hlast, decide_false]
  unfold addZip at h
  simp only [names_segs] at h
  cases hx : built (I ++ segs p) with
  | none => rw [hx] at h; cases h
  | some x =>
    rw [hx] at h
    cases x with
    | dir k =>
      cases h
      simp only [join_install]
      have e : installName ++ '/' :: lstripSlash p ++ ['/'] = installName ++ '/' :: (lstripSlash p ++ ['/']) := by simp
      obtain ⟨out, h1, h2⟩ := outpath_install (lstripSlash p ++ ['/'])
      rw [← e] at h1
      refine ⟨⟨out, by rw [e]; exact subpath_install _, h1, by rw [h2, segs_snoc_slash, segs_lstrip]⟩, ?_, .inl ⟨by
        simp only [Member.isDir, List.getLast?_concat, decide_true], k, rfl⟩⟩
      rw [e, segs_append, segs_snoc_slash, segs_lstrip, hins]; rfl
    | link t =>
      cases h
      obtain ⟨a, b, c⟩ := plain ⟨joinPath installName [p], symmagic, t⟩ rfl
      exact ⟨a, b, .inr ⟨c, .inr ⟨t, rfl, rfl, rfl⟩⟩⟩
    | file c k =>
      cases h
      obtain ⟨a, b, d⟩ := plain ⟨joinPath installName [p], storedAttr false k, c⟩ rfl
      exact ⟨a, b, .inr ⟨d, .inl ⟨c, k, rfl, rfl, rfl⟩⟩⟩

/-- A file is not taken for a link: the attributes of a link are those of a link with the mode 0755. -/
theorem stored_not_link (k : Nat) (h : k < 0xA1ED) : storedAttr false k ≠ symmagic := by
  intro e
  have h1 : storedAttr false k >>> 16 = k &&& 0xFFFF := by
    unfold storedAttr
    rw [if_neg (by simp), Nat.shiftLeft_shiftRight]
  rw [e] at h1
  have h2 : k &&& 0xFFFF = k := by
    have := Nat.and_two_pow_sub_one_eq_mod k 16
    have h3 : (2 : Nat) ^ 16 - 1 = 0xFFFF := by decide
    rw [h3] at this
    rw [this]
    exact Nat.mod_eq_of_lt (by omega)
  rw [h2] at h1
  have h4 : symmagic >>> 16 = 0xA1ED := by decide
  omega

/-- C142, full statement: a package of the format 1.0, an ordinary one or one of debug files, installs what was built (the
modes apart). -/
def ZipFull : Prop := ∀ (n : Nat) (pre : Str) (built : Files) (ino : Loc → Nat) (I T : Loc) (paths : List Str) (fs : Files)
  (ms : List Member), pre = "install".toList ∨ pre = "debug".toList → Built built ino I paths →
  (∀ p ∈ paths, p.getLast? ≠ some '/') → (∀ p ∈ paths, ∀ c k, built (I ++ segs p) = some (.file c k) → k < 0xA1ED) →
  Ready fs T paths → packZip built I pre paths = some ms →
  (unpackDirFlat n installName T ms ⟨fs, []⟩).2 = true → ∀ p ∈ paths,
    (∀ t, built (I ++ segs p) = some (.link t) → (unpackDirFlat n installName T ms ⟨fs, []⟩).1.fs (T ++ segs p) = some (.link t)) ∧
    (∀ c k, built (I ++ segs p) = some (.file c k) →
      ∃ k', (unpackDirFlat n installName T ms ⟨fs, []⟩).1.fs (T ++ segs p) = some (.file c k'))

/-- C142 for ordinary packages: after unpacking without error every file is there with its content and the mode that the
format keeps, and every link with its target. -/
theorem zip_partial (n : Nat) (built : Files) (ino : Loc → Nat) (I T : Loc) (paths : List Str) (fs : Files)
    (ms : List Member) (hb : Built built ino I paths)
    (hlast : ∀ p ∈ paths, p.getLast? ≠ some '/') (hmode : ∀ p ∈ paths, ∀ c k, built (I ++ segs p) = some (.file c k) → k < 0xA1ED)
    (hr : Ready fs T paths) (hpack : packZip built I installName paths = some ms)
    (hok : (unpackDirFlat n installName T ms ⟨fs, []⟩).2 = true) (p : Str) (hp : p ∈ paths) :
    (∀ t, built (I ++ segs p) = some (.link t) → (unpackDirFlat n installName T ms ⟨fs, []⟩).1.fs (T ++ segs p) = some (.link t)) ∧
    (∀ c k, built (I ++ segs p) = some (.file c k) →
      (unpackDirFlat n installName T ms ⟨fs, []⟩).1.fs (T ++ segs p) = some (.file c (filePerm (storedAttr false k)))) := by
  obtain ⟨hm1, hm2⟩ := packZip_mem built I installName paths ms hpack
  have spec : ∀ m ∈ ms, ∃ q ∈ paths, addZip built I installName q = some m ∧ ∀ out, outpath installName m.name = some out →
      segs out = segs q := by
    intro m hm
    obtain ⟨q, hq, e⟩ := hm2 m hm
    obtain ⟨⟨out, _, h2, h3⟩, _⟩ := addZip_spec (hb.clean q hq).2 (hlast q hq) e
    refine ⟨q, hq, e, fun o ho => ?_⟩
    rw [h2] at ho
    cases ho
    exact h3
  have hfine := fine_of_clean fs T (subpath installName) installName ms
    (fun m hm out _ ho => by
      obtain ⟨q, hq, _, e⟩ := spec m hm
      obtain ⟨h1, h2⟩ := hb.clean q hq
      exact ⟨⟨(outpath_root installName m.name out (by decide) ho).2, by rw [e out ho]; exact h1.2.1, by rw [e out ho]; exact h1.2.2⟩,
        fun _ => by rw [e out ho]; exact h2⟩)
    (fun m hm k hk om ok _ _ hom hok' _ hpre => by
      obtain ⟨q, hq, _, e⟩ := spec m hm
      obtain ⟨r, hr', _, e'⟩ := spec k hk
      rw [e om hom, e' ok hok'] at hpre ⊢
      exact hb.apart r hr' q hq hpre)
    (fun r t hrt m hm out _ ho hpre => by
      obtain ⟨q, hq, _, e⟩ := spec m hm
      rw [e out ho] at hpre ⊢
      apply Classical.byContradiction
      intro hne
      by_cases e0 : r = []
      · subst e0
        rw [List.append_nil] at hrt
        by_cases hT0 : T = []
        · subst hT0
          exact hr.root t hrt
        · obtain ⟨x, hx⟩ := hr.real.1 T hT0 (List.prefix_refl _)
          rw [hx] at hrt; cases hrt
      · rcases hr.above r ⟨e0, q, hq, hpre, hne⟩ with h | ⟨x, h⟩ <;> (rw [h] at hrt; cases hrt))
  obtain ⟨m, hm, hadd⟩ := hm1 p hp
  obtain ⟨⟨out, hsub, hout, hsegs⟩, _, hkind⟩ := addZip_spec (hb.clean p hp).2 (hlast p hp) hadd
  have content : m.isDir = false → (unpackDirFlat n installName T ms ⟨fs, []⟩).1.fs (T ++ segs p) = some m.node := by
    intro hd
    have := cond_content hr.real n (subpath installName) installName ms hfine
      (packZip_pairwise built I installName (fun a b => a ∈ paths ∧ b ∈ paths ∧ segs a ≠ segs b) _ (by
        rintro a b x y ⟨ha, hb', hab⟩ hx hy oa ob hoa hob
        obtain ⟨⟨o1, _, h1, h2⟩, _⟩ := addZip_spec (hb.clean a ha).2 (hlast a ha) hx
        obtain ⟨⟨o2, _, h3, h4⟩, _⟩ := addZip_spec (hb.clean b hb').2 (hlast b hb') hy
        rw [h1] at hoa
        rw [h3] at hob
        cases hoa; cases hob
        rw [names_segs, names_segs, h2, h4]
        exact hab) paths ms hpack (hb.distinct.imp_of_mem (fun ha hb' h => ⟨ha, hb', h⟩))) ⟨fs, []⟩ (ok_init T fs hr.real _ _ _) hok m hm out hsub hout hd (by
        intro k hk ok hok' _ _ _ hpre
        obtain ⟨r, hr', _, e'⟩ := spec k hk
        rw [names_segs, names_segs, e' ok hok', hsegs] at hpre ⊢
        exact hb.apart r hr' p hp hpre)
    rwa [names_segs, hsegs] at this
  constructor
  · intro t ht
    rcases hkind with ⟨_, k, hk⟩ | ⟨hd, ⟨c, k, hk, _⟩ | ⟨t', hk, hc, ha⟩⟩
    · rw [ht] at hk; cases hk
    · rw [ht] at hk; cases hk
    · rw [ht] at hk
      cases hk
      rw [content hd, Member.node, if_pos ha, hc]
  · intro c k hck
    rcases hkind with ⟨_, k', hk⟩ | ⟨hd, ⟨c', k', hk, hc, ha⟩ | ⟨t', hk, _, _⟩⟩
    · rw [hck] at hk; cases hk
    · rw [hck] at hk
      cases hk
      rw [content hd, Member.node, if_neg (by rw [ha]; exact stored_not_link k (hmode p hp c k hck)), hc, ha]
    · rw [hck] at hk; cases hk

example : packZip demoBuilt [['b']] installName demoPaths = some [⟨installName ++ ['/', 'u', '/', 'f'], 0o4755 <<< 16, ['x']⟩,
      ⟨installName ++ ['/', 'u', '/', 'l'], symmagic, ['f']⟩, ⟨installName ++ ['/', 'e', '/'], 0o1777 <<< 16, []⟩,
      ⟨installName ++ ['/', 'g'], 0o4755 <<< 16, ['x']⟩] ∧ (∀ p ∈ demoPaths, p.getLast? ≠ some '/') ∧
    Unpack.demo [['t']] = some (.dir 493) ∧
    (∀ ms, packZip demoBuilt [['b']] installName demoPaths = some ms →
      (unpackDirFlat 9 installName [['t']] ms ⟨Unpack.demo, []⟩).2 = true) := by
  refine ⟨by decide +kernel, by decide +kernel, by decide, fun ms h => ?_⟩
  have e : packZip demoBuilt [['b']] installName demoPaths = some [⟨installName ++ ['/', 'u', '/', 'f'], 0o4755 <<< 16, ['x']⟩,
      ⟨installName ++ ['/', 'u', '/', 'l'], symmagic, ['f']⟩, ⟨installName ++ ['/', 'e', '/'], 0o1777 <<< 16, []⟩,
      ⟨installName ++ ['/', 'g'], 0o4755 <<< 16, ['x']⟩] := by decide +kernel
  rw [e] at h
  cases h
  decide +kernel

/-- C142 is false of the code: the links of a debug package are stored below `debug`, and not installed. -/
theorem zip_refuted : ¬ ZipFull := by
  intro h
  have := (h 9 debugName (fun l => if l = [['b'], ['l']] then some (.link ['x']) else none) (fun _ => 0) [['b']] [['t']] [['l']]
    Unpack.demo [⟨debugName ++ ['/', 'l'], symmagic, ['x']⟩] (.inr (by decide))
    ⟨by
      intro p hp
      rw [List.mem_singleton.1 hp]
      exact ⟨⟨by rw [← isAbs_iff]; decide, by decide, by decide⟩, by decide⟩, by decide, by decide, by decide, by decide⟩
    (by decide) (by
      intro p hp c k hck
      rw [List.mem_singleton.1 hp] at hck
      have e : segs ['l'] = [['l']] := by decide
      rw [e] at hck
      simp at hck)
    ⟨demo_real.1, by
      intro q c hq hs
      exfalso
      have h1 : [['t']] ++ (q ++ [c]) ≠ [['t']] := by simp
      have h2 : [['t']] ++ (q ++ [c]) ≠ [['e']] := by simp
      unfold Unpack.demo at hs
      rw [if_neg (by simp [-List.cons_append])] at hs
      simp at hs, by
      rintro q ⟨hq, p, hp, hqp, hne⟩
      rw [List.mem_singleton.1 hp] at hqp hne
      have e : segs ['l'] = [['l']] := by decide
      rw [e] at hqp hne
      rcases q with _ | ⟨a, q⟩
      · exact absurd rfl hq
      · obtain ⟨rfl, hq'⟩ := List.cons_prefix_cons.1 hqp
        rw [List.prefix_nil.1 hq'] at hne
        exact absurd rfl hne, by intro t h; cases h⟩
    (by decide +kernel) (by decide +kernel) ['l'] (by simp)).1 ['x'] (by decide)
  revert this
  decide +kernel

end Pisi.Tar
