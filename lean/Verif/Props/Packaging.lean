import Verif.Lemmas.Packaging
import Mathlib.Data.List.Nodup

/-!
# Theorems on collecting built files into packages
-/
namespace Pisi.Pack
open Pisi.FS

section
variable {sha : Str → Str} {fs : FS} {walk : Str → List Triple} {glob : Str → List Str} {o : Opts} {pkg : Pkg}
  {others : List Pkg} {inst : Str}

theorem joinPath_abs {a p : Str} (ha : a ≠ []) (hl : a.getLast? ≠ some '/') (hp : ∃ r, p = '/' :: r ∧ Proper r) :
    Path.joinPath a [p] = a ++ p := by
  obtain ⟨r, rfl, hr⟩ := hp
  obtain ⟨c, t, rfl, hc⟩ := proper_head hr
  unfold Path.joinPath
  simp only [List.foldl_cons, List.foldl_nil]
  unfold Path.joinStep
  rw [if_neg (by simp [ha, hl])]
  unfold Path.lstripSlash
  rw [List.dropWhile_cons_of_pos (by simp), List.dropWhile_cons_of_neg (by simpa using hc)]

theorem mem_expand (hr : BuildRoot fs inst) (ha : AbsPaths pkg) (x : Str) :
    x ∈ expand glob pkg inst ↔ ∃ i ∈ pkg.files, x ∈ glob (inst ++ i.path) := by
  unfold expand
  rw [List.mem_flatMap]
  constructor
  · rintro ⟨i, hi, hx⟩; rw [joinPath_abs hr.ne hr.last (ha i hi)] at hx; exact ⟨i, hi, hx⟩
  · rintro ⟨i, hi, hx⟩; rw [← joinPath_abs hr.ne hr.last (ha i hi)] at hx; exact ⟨i, hi, hx⟩

/-- What is taken for an expanded path `x`: the path itself if it is a file or a link; if it is a directory, all below it that no
other package claims. -/
def Collected (fs : FS) (coll : List Str) (inst x f : Str) : Prop :=
  (f = x ∧ (isFile fs x = true ∨ isLink fs x = true)) ∨
  (fs.get x = some .dir ∧ Below x f ∧ Leaf fs f ∧ ¬ Excl coll inst f)

theorem leafItem_fst (f : Str) : (leafItem sha fs f).1 = f := by unfold leafItem; split <;> rfl

theorem yield_iff (coll : List Str) (x f : Str) :
    (∃ it, Yield sha fs coll inst x it ∧ it.1 = f) ↔ Collected fs coll inst x f := by
  unfold Yield Collected
  constructor
  · rintro ⟨it, ⟨h, rfl⟩ | ⟨h, h', rfl⟩ | ⟨h, g, h1, h2, h3, rfl⟩, rfl⟩
    · exact .inl ⟨rfl, .inl h⟩
    · exact .inl ⟨rfl, .inr h'⟩
    · exact .inr ⟨h, by rw [leafItem_fst]; exact ⟨h1, h2, h3⟩⟩
  · rintro (⟨rfl, h⟩ | ⟨h, h1, h2, h3⟩)
    · cases hf : isFile fs f with
      | true => exact ⟨_, .inl ⟨rfl, rfl⟩, rfl⟩
      | false => exact ⟨_, .inr (.inl ⟨rfl, h.resolve_left (by simp [hf]), rfl⟩), rfl⟩
    · exact ⟨_, .inr (.inr ⟨h, f, h1, h2, h3, rfl⟩), leafItem_fst f⟩

theorem leaf_has {f : Str} (h : Leaf fs f) : fs.has f = true := by
  unfold Leaf at h
  cases hg : fs.get f with
  | none => rw [hg] at h; exact h.elim
  | some nd => exact has_of_get hg

theorem isFile_has {f : Str} (h : isFile fs f = true) : fs.has f = true := by
  unfold isFile stat at h
  cases hg : fs.get f with
  | none => simp [statN, hg] at h
  | some n => exact has_of_get hg

theorem yield_rel (hr : BuildRoot fs inst) (hg : GlobBelow fs glob inst pkg) {coll : List Str} {i : PathInfo} (hi : i ∈ pkg.files)
    {x : Str} (hx : x ∈ glob (inst ++ i.path)) {it : Item} (hy : Yield sha fs coll inst x it) :
    ∃ r, it.1 = inst ++ '/' :: r ∧ Proper r := by
  obtain ⟨hh, r, rfl⟩ := hg i hi x hx
  have hc : Collected fs coll inst (inst ++ '/' :: r) it.1 := (yield_iff coll _ _).mp ⟨it, hy, rfl⟩
  rcases hc with ⟨e, _⟩ | ⟨_, hb, hl, _⟩
  · exact ⟨r, e, hr.names r hh⟩
  · have hlh := leaf_has hl
    rcases hb with e | ⟨q, e⟩
    · rw [e] at hlh ⊢; exact ⟨r, rfl, hr.names r hlh⟩
    · rw [e] at hlh ⊢; exact ⟨r ++ '/' :: q, by simp, hr.names _ (by simpa using hlh)⟩

theorem expand_below (hr : BuildRoot fs inst) (ha : AbsPaths pkg) (hg : GlobBelow fs glob inst pkg) :
    ∀ x ∈ expand glob pkg inst, Below inst x := by
  intro x hx
  obtain ⟨i, hi, hx⟩ := (mem_expand hr ha x).mp hx
  obtain ⟨_, r, rfl⟩ := hg i hi x hx
  exact .inr ⟨r, rfl⟩

/-- **C89.** The files of a package are exactly those that its listed paths expand to: the path itself for a file or a link,
everything below that is not claimed by another package for a directory; static libraries are left to the static package. -/
theorem files_exact (hr : BuildRoot fs inst) (hw : Walks fs walk) (ha : AbsPaths pkg) (hg : GlobBelow fs glob inst pkg)
    {d : Dict Str FileInfo} (hd : genFiles sha fs walk glob o pkg others inst = .ok d) (r : Str) :
    d.has r = true ↔ ∃ i ∈ pkg.files, ∃ x ∈ glob (inst ++ i.path),
      Collected fs (pathCollision o pkg others) inst x (inst ++ '/' :: r) ∧ ¬ Skips fs o pkg (inst ++ '/' :: r) := by
  obtain ⟨items, h1, h2⟩ := genFiles_items (sha := sha) (o := o) (others := others) hr hw (expand_below hr ha hg)
  rw [hd] at h2
  have hp : ∀ it ∈ items, ∃ r, it.1 = inst ++ '/' :: r ∧ Proper r := by
    intro it hit
    obtain ⟨x, hx, hy⟩ := (h1 it).mp hit
    obtain ⟨i, hi, hx⟩ := (mem_expand hr ha x).mp hx
    exact yield_rel hr hg hi hx hy
  rw [(addItem_fold hr.ne hr.last items hp [] d h2.symm r).1]
  simp only [Dict.has, Dict.get_nil, Option.isSome_none, Bool.false_eq_true, false_or]
  constructor
  · rintro ⟨it, hit, h3, h4⟩
    obtain ⟨x, hx, hy⟩ := (h1 it).mp hit
    obtain ⟨i, hi, hx⟩ := (mem_expand hr ha x).mp hx
    exact ⟨i, hi, x, hx, (yield_iff _ _ _).mp ⟨it, hy, h3⟩, by rw [← h3]; exact h4⟩
  · rintro ⟨i, hi, x, hx, hc, hs⟩
    obtain ⟨it, hy, he⟩ := (yield_iff (sha := sha) _ _ _).mpr hc
    exact ⟨it, (h1 it).mpr ⟨x, (mem_expand hr ha x).mpr ⟨i, hi, hx⟩, hy⟩, he, by rw [he]; exact hs⟩

/-- **C89.** Whatever is recorded was built: a file, a link or an empty directory in the build root. -/
theorem files_built (hr : BuildRoot fs inst) (hw : Walks fs walk) (ha : AbsPaths pkg) (hg : GlobBelow fs glob inst pkg)
    {d : Dict Str FileInfo} (hd : genFiles sha fs walk glob o pkg others inst = .ok d) (r : Str) (h : d.has r = true) :
    Leaf fs (inst ++ '/' :: r) := by
  obtain ⟨i, hi, x, hx, hc, _⟩ := (files_exact hr hw ha hg hd r).mp h
  rcases hc with ⟨rfl, hk⟩ | ⟨_, _, hl, _⟩
  · obtain ⟨n, hn⟩ := get_of_has (hg i hi _ hx).1
    unfold Leaf
    rw [hn]
    cases n with
    | file _ => trivial
    | link _ => trivial
    | dir => simp [isFile, isLink, stat, statN, hn] at hk
  · exact hl

/-- **C89, C95.** What is recorded for a path: its own name, its size, and a hash that is the hash of the content for a file, none for
a directory, the hash of the target for a link – or that of the file a link leads to, if the link itself is listed. -/
theorem entry_exact (hr : BuildRoot fs inst) (hw : Walks fs walk) (ha : AbsPaths pkg) (hg : GlobBelow fs glob inst pkg)
    {d : Dict Str FileInfo} (hd : genFiles sha fs walk glob o pkg others inst = .ok d) (r : Str) (info : FileInfo)
    (h : d.get r = some info) :
    info.path = r ∧ info.size = dirSize fs walk (inst ++ '/' :: r) ∧
    fileType glob r pkg.files inst = .ok (info.type, info.permanent) ∧
    (∀ c, fs.get (inst ++ '/' :: r) = some (.file c) → info.hash = some (sha c)) ∧
    (fs.get (inst ++ '/' :: r) = some .dir → info.hash = none) ∧
    (∀ t, fs.get (inst ++ '/' :: r) = some (.link t) → info.hash = some (sha t) ∨
      ∃ i ∈ pkg.files, inst ++ '/' :: r ∈ glob (inst ++ i.path) ∧
        ∃ c, stat fs (inst ++ '/' :: r) = some (.file c) ∧ info.hash = some (sha c)) := by
  obtain ⟨items, h1, h2⟩ := genFiles_items (sha := sha) (o := o) (others := others) hr hw (expand_below hr ha hg)
  rw [hd] at h2
  have hp : ∀ it ∈ items, ∃ r, it.1 = inst ++ '/' :: r ∧ Proper r := by
    intro it hit
    obtain ⟨x, hx, hy⟩ := (h1 it).mp hit
    obtain ⟨i, hi, hx⟩ := (mem_expand hr ha x).mp hx
    exact yield_rel hr hg hi hx hy
  rcases (addItem_fold hr.ne hr.last items hp [] d h2.symm r).2 info h with h0 | ⟨it, hit, e1, e2, e3, e4, e5⟩
  · cases h0
  obtain ⟨x, hx, hy⟩ := (h1 it).mp hit
  obtain ⟨i, hi, hx⟩ := (mem_expand hr ha x).mp hx
  refine ⟨e4, e5, e3, ?_⟩
  have hashf : ∀ c, fs.get (inst ++ '/' :: r) = some (.file c) → hashFile sha fs (inst ++ '/' :: r) = .ok (some (sha c)) := by
    intro c hc
    have : isFile fs (inst ++ '/' :: r) = true := by simp [isFile, stat, statN, hc]
    simp [hashFile, this, sha1File, stat, statN, hc]
  have hashd : ∀ hh, fs.get (inst ++ '/' :: r) = some .dir → hashFile sha fs (inst ++ '/' :: r) = .ok hh → hh = none := by
    intro hh hc h
    have hs : stat fs (inst ++ '/' :: r) = some .dir := by simp [stat, statN, hc]
    unfold hashFile at h
    split at h
    · cases h
    · simp [sha1File, hs, isDir] at h; exact h.symm
  have hashl : ∀ hh, isFile fs (inst ++ '/' :: r) = true → hashFile sha fs (inst ++ '/' :: r) = .ok hh →
      ∃ c, stat fs (inst ++ '/' :: r) = some (.file c) ∧ hh = some (sha c) := by
    intro hh hf h
    unfold isFile at hf
    cases hs : stat fs (inst ++ '/' :: r) with
    | none => simp [hs] at hf
    | some n =>
      cases n with
      | file c =>
        refine ⟨c, rfl, ?_⟩
        have : isFile fs (inst ++ '/' :: r) = true := by simp [isFile, hs]
        simp [hashFile, this, sha1File, hs] at h
        exact h.symm
      | link _ => simp [hs] at hf
      | dir => simp [hs] at hf
  rcases hy with ⟨hf, rfl⟩ | ⟨hf, hl, rfl⟩ | ⟨hdir, f, hb, hleaf, hx', rfl⟩
  · dsimp only at e1 e2
    subst e1
    refine ⟨fun c hc => ?_, fun hc => ?_, fun t ht => ?_⟩
    · rw [hashf c hc] at e2; exact (Except.ok.inj e2).symm
    · simp [isFile, stat, statN, hc] at hf
    · obtain ⟨c, hc1, hc2⟩ := hashl _ hf e2
      exact .inr ⟨i, hi, hx, c, hc1, hc2⟩
  · unfold linkItem at e1 e2
    dsimp only at e1 e2
    subst e1
    obtain ⟨t, ht⟩ := link_get hl
    refine ⟨fun c hc => ?_, fun hc => ?_, fun t' ht' => .inl ?_⟩
    · rw [ht] at hc; cases hc
    · rw [ht] at hc; cases hc
    · rw [← Except.ok.inj e2, readlink, ht']
  · rw [leafItem_fst] at e1
    subst e1
    unfold leafItem at e2
    by_cases hl : isLink fs (inst ++ '/' :: r) = true
    · rw [if_pos hl] at e2
      obtain ⟨t, ht⟩ := link_get hl
      refine ⟨fun c hc => ?_, fun hc => ?_, fun t' ht' => .inl ?_⟩
      · rw [ht] at hc; cases hc
      · rw [ht] at hc; cases hc
      · rw [← Except.ok.inj e2, readlink, ht']
    · rw [if_neg hl] at e2
      refine ⟨fun c hc => ?_, fun hc => hashd _ hc e2, fun t ht => ?_⟩
      · dsimp only at e2; rw [hashf c hc] at e2; exact (Except.ok.inj e2).symm
      · exfalso; exact hl (by simp [isLink, ht])

/-- **C95** for links that are not listed themselves: the hash is that of the target. -/
theorem link_hash_partial (hr : BuildRoot fs inst) (hw : Walks fs walk) (ha : AbsPaths pkg) (hg : GlobBelow fs glob inst pkg)
    {d : Dict Str FileInfo} (hd : genFiles sha fs walk glob o pkg others inst = .ok d) (r : Str) (info : FileInfo)
    (h : d.get r = some info) (t : Str) (ht : fs.get (inst ++ '/' :: r) = some (.link t))
    (hn : ∀ i ∈ pkg.files, inst ++ '/' :: r ∉ glob (inst ++ i.path)) : info.hash = some (sha t) := by
  rcases (entry_exact hr hw ha hg hd r info h).2.2.2.2.2 t ht with h | ⟨i, hi, hx, _⟩
  · exact h
  · exact absurd hx (hn i hi)

/-- The first line of an archive. -/
theorem isArFile_of_content {f c : Str} {rest : Str} (h : fs.get f = some (.file c))
    (hc : c = ['!', '<', 'a', 'r', 'c', 'h', '>'] ++ '\n' :: rest) : isArFile fs f = .ok true := by
  unfold isArFile
  subst hc
  simp [stat, statN, h, strip, Path.rstrip, isSpace]

/-- **C89.** Static libraries are only in packages for static libraries, if such packages are made. -/
theorem static_apart (hr : BuildRoot fs inst) (hw : Walks fs walk) (ha : AbsPaths pkg) (hg : GlobBelow fs glob inst pkg)
    {d : Dict Str FileInfo} (hd : genFiles sha fs walk glob o pkg others inst = .ok d) (r : Str) (h : d.has r = true)
    (ho : o.createStatic = true) (hs : arSuffix <:+ inst ++ '/' :: r) (rest : Str)
    (hi : fs.get (inst ++ '/' :: r) = some (.file (['!', '<', 'a', 'r', 'c', 'h', '>'] ++ '\n' :: rest))) :
    staticSuffix <:+ pkg.name := by
  obtain ⟨i, hi', x, hx, hc, hsk⟩ := (files_exact hr hw ha hg hd r).mp h
  apply Classical.byContradiction
  intro hn
  refine hsk ⟨ho, (Path.suffix_iff _ _).mpr hs, ?_, isArFile_of_content hi rfl⟩
  cases he : endsWith pkg.name staticSuffix
  · rfl
  · exact absurd ((Path.suffix_iff _ _).mp he) hn

/-! ## Success -/

theorem strLt_prefix : ∀ (s a b : Str), a <+: s → b <+: s → (strLt a b = true ↔ a.length < b.length) := by
  intro s
  induction s with
  | nil =>
    intro a b ha hb
    rw [List.prefix_nil] at ha hb
    subst ha; subst hb
    simp [strLt]
  | cons c s ih =>
    intro a b ha hb
    cases b with
    | nil => simp [strLt]
    | cons y ys =>
      cases a with
      | nil => simp [strLt]
      | cons x xs =>
        obtain ⟨rfl, ha'⟩ := List.cons_prefix_cons.mp ha
        obtain ⟨rfl, hb'⟩ := List.cons_prefix_cons.mp hb
        simp only [strLt, Nat.lt_irrefl, if_false, List.length_cons, Nat.add_lt_add_iff_right]
        exact ih xs ys ha' hb'

/-- Some element is returned. -/
theorem greatest_mem {l : List Str} {b : Str} (h : greatest l = some b) : b ∈ l := by
  cases l with
  | nil => cases h
  | cons x xs =>
    have key : ∀ (xs : List Str) (m : Str), xs.foldl (fun m y => if strLt m y then y else m) m ∈ m :: xs := by
      intro xs
      induction xs with
      | nil => intro m; simp
      | cons y ys ih =>
        intro m
        simp only [List.foldl_cons]
        have := ih (if strLt m y then y else m)
        rcases List.mem_cons.mp this with h | h
        · rw [h]; split <;> simp
        · simp [h]
    have := key xs x
    rw [show xs.foldl (fun m y => if strLt m y then y else m) x = b from Option.some.inj h] at this
    exact this

theorem greatest_some {l : List Str} (h : l ≠ []) : ∃ b, greatest l = some b := by
  cases l with
  | nil => exact absurd rfl h
  | cons x xs => exact ⟨_, rfl⟩

/-- Among the beginnings of one string the greatest is the longest. -/
theorem greatest_longest {l : List Str} {s b : Str} (hl : ∀ x ∈ l, x <+: s) (h : greatest l = some b) :
    ∀ x ∈ l, x.length ≤ b.length := by
  cases l with
  | nil => intro x hx; simp at hx
  | cons x xs =>
    have key : ∀ (xs : List Str) (m : Str), m <+: s → (∀ y ∈ xs, y <+: s) → ∀ y ∈ m :: xs,
        y.length ≤ (xs.foldl (fun m y => if strLt m y then y else m) m).length := by
      intro xs
      induction xs with
      | nil => intro m _ _ y hy; simp at hy; subst hy; exact Nat.le_refl _
      | cons z zs ih =>
        intro m hm hz y hy
        simp only [List.foldl_cons]
        have hzs := hz z (by simp)
        have hlt := strLt_prefix s m z hm hzs
        by_cases hc : strLt m z = true
        · rw [if_pos hc]
          have h1 := ih z hzs (fun y hy => hz y (by simp [hy]))
          rcases List.mem_cons.mp hy with rfl | hy
          · exact Nat.le_trans (Nat.le_of_lt (hlt.mp hc)) (h1 z (by simp))
          · exact h1 y hy
        · rw [if_neg hc]
          have h1 := ih m hm (fun y hy => hz y (by simp [hy]))
          rcases List.mem_cons.mp hy with rfl | hy
          · exact h1 y (by simp)
          · rcases List.mem_cons.mp hy with rfl | hy
            · have : ¬ m.length < y.length := fun h => hc (hlt.mpr h)
              exact Nat.le_trans (Nat.le_of_not_lt this) (h1 m (by simp))
            · exact h1 y (by simp [hy])
    intro y hy
    have := key xs x (hl x (by simp)) (fun y hy => hl y (by simp [hy])) y hy
    rw [show xs.foldl (fun m y => if strLt m y then y else m) x = b from Option.some.inj h] at this
    exact this

theorem osJoin_rel (hr : BuildRoot fs inst) {r : Str} (hp : Proper r) : osJoin inst r = inst ++ '/' :: r := by
  obtain ⟨c, t, rfl, hc⟩ := proper_head hp
  unfold osJoin
  rw [if_neg (by simpa using hc), if_neg (by simp [hr.ne, hr.last])]

theorem fileType_ok (hr : BuildRoot fs inst) {r : Str} (hp : Proper r) {i : PathInfo} (hi : i ∈ pkg.files)
    {x : Str} (hx : x ∈ glob (inst ++ i.path)) (hxf : x <+: inst ++ '/' :: r) :
    ∃ tp, fileType glob r pkg.files inst = .ok tp := by
  unfold fileType
  rw [osJoin_rel hr hp]
  have hne : ((pkg.files.filter fun i => (glob (inst ++ i.path)).any fun m => decide (m <:+: inst ++ '/' :: r)).map (·.path)) ≠ [] := by
    intro h
    rw [List.map_eq_nil_iff, List.filter_eq_nil_iff] at h
    exact h i hi (List.any_eq_true.mpr ⟨x, hx, by simpa using hxf.isInfix⟩)
  obtain ⟨b, hb⟩ := greatest_some hne
  have hmem := greatest_mem hb
  simp only [hb]
  obtain ⟨j, hj, rfl⟩ := List.mem_map.mp hmem
  have hj' := (List.mem_filter.mp hj).1
  cases hfd : pkg.files.find? (fun i => decide (j.path = i.path)) with
  | none => exact absurd (List.find?_eq_none.mp hfd j hj') (by simp)
  | some k => exact ⟨_, rfl⟩

/-- **C90.** Collecting succeeds when every listed path is absolute and there is no empty directory named like an archive. -/
theorem files_succeed (hr : BuildRoot fs inst) (hw : Walks fs walk) (ha : AbsPaths pkg) (hg : GlobBelow fs glob inst pkg)
    (ho : o.createStatic = false) (hdirs : ∀ f, Below inst f → fs.get f = some .dir → Leaf fs f → ¬ arSuffix <:+ f) :
    ∃ d, genFiles sha fs walk glob o pkg others inst = .ok d := by
  obtain ⟨items, h1, h2⟩ := genFiles_items (sha := sha) (o := o) (others := others) hr hw (expand_below hr ha hg)
  rw [h2]
  have hashok : ∀ f, Below inst f → Leaf fs f → isLink fs f = false → ∃ h, hashFile sha fs f = .ok h := by
    intro f hb hl hnl
    obtain ⟨n, hn⟩ := get_of_has (leaf_has hl)
    cases n with
    | link t => simp [isLink, hn] at hnl
    | file c =>
      have : isFile fs f = true := by simp [isFile, stat, statN, hn]
      exact ⟨some (sha c), by simp [hashFile, this, sha1File, stat, statN, hn]⟩
    | dir =>
      have h3 : endsWith f arSuffix = false := by
        cases he : endsWith f arSuffix
        · rfl
        · exact absurd ((Path.suffix_iff _ _).mp he) (hdirs f hb hn hl)
      exact ⟨none, by simp [hashFile, h3, sha1File, stat, statN, hn, isDir]⟩
  have step : ∀ it ∈ items, ∀ d : Dict Str FileInfo, ∃ d', addItem fs walk glob o pkg inst d it = .ok d' := by
    intro it hit d
    obtain ⟨x, hx, hy⟩ := (h1 it).mp hit
    have hbx := expand_below hr ha hg x hx
    obtain ⟨i, hi, hx⟩ := (mem_expand hr ha x).mp hx
    obtain ⟨r, he, hp⟩ := yield_rel hr hg hi hx hy
    have hxf : x <+: inst ++ '/' :: r := by
      rw [← he]
      rcases (yield_iff (sha := sha) _ _ _).mp ⟨it, hy, rfl⟩ with ⟨e, _⟩ | ⟨_, hb, _⟩
      · rw [e]; exact List.prefix_refl _
      · exact hb.pre
    obtain ⟨tp, ht⟩ := fileType_ok (pkg := pkg) hr hp hi hx hxf
    have hh : ∃ h, it.2 = .ok h := by
      rcases hy with ⟨hf, rfl⟩ | ⟨hf, hl, rfl⟩ | ⟨hdir, f, hb, hleaf, hx', rfl⟩
      · unfold isFile at hf
        cases hs : stat fs x with
        | none => simp [hs] at hf
        | some n =>
          cases n with
          | file c =>
            have : isFile fs x = true := by simp [isFile, hs]
            exact ⟨some (sha c), by simp [hashFile, this, sha1File, hs]⟩
          | link _ => simp [hs] at hf
          | dir => simp [hs] at hf
      · exact ⟨_, rfl⟩
      · unfold leafItem
        by_cases hl : isLink fs f = true
        · rw [if_pos hl]; exact ⟨_, rfl⟩
        · rw [if_neg hl]
          exact hashok f (hbx.trans hb) hleaf (by simpa using hl)
    obtain ⟨h, hh⟩ := hh
    obtain ⟨f, h0⟩ := it
    dsimp only at he hh
    subst he; subst hh
    refine ⟨d.put r ⟨r, tp.1, tp.2, dirSize fs walk (inst ++ '/' :: r), h⟩, ?_⟩
    unfold addItem
    simp [ho, rel_path hr.ne hr.last hp, ht, bind, Except.bind, Except.mapError]
  clear h1 h2
  generalize ([] : Dict Str FileInfo) = d0
  induction items generalizing d0 with
  | nil => exact ⟨d0, rfl⟩
  | cons it items ih =>
    obtain ⟨d1, h⟩ := step it (by simp) d0
    rw [List.foldlM_cons, h]
    exact ih (fun it hit => step it (by simp [hit])) d1

/-! ## One package for each file -/

theorem below_of_le {p q f : Str} (hp : Below p f) (hq : Below q f) (h : p.length ≤ q.length) : Below p q := by
  obtain ⟨t, rfl⟩ := List.prefix_of_prefix_length_le hp.pre hq.pre h
  cases t with
  | nil => exact .inl (by simp)
  | cons c t =>
    obtain ⟨u, hu⟩ := hq.pre
    rcases hp with rfl | ⟨r, rfl⟩
    · have := congrArg List.length hu; simp at this
    · simp only [List.append_assoc, List.append_cancel_left_eq, List.cons_append, List.cons.injEq] at hu
      rw [hu.1]
      exact .inr ⟨t, rfl⟩

theorem subpath_below {p q : Str} (hp : ∃ r, p = '/' :: r ∧ Proper r) (hq : ∃ r, q = '/' :: r ∧ Proper r) :
    Path.subpath p q = true ↔ Below p q := by
  obtain ⟨r, rfl, hr⟩ := hp
  obtain ⟨s, rfl, hs⟩ := hq
  have e : ∀ r : Str, Proper r → Path.splitpath ('/' :: r) = splitOn '/' ('/' :: r) := fun r hr =>
    splitpath_of_last (by simp) (by have := last_append (a := []) hr; simpa using this)
  unfold Path.subpath
  rw [e r hr, e s hs, Path.prefix_iff]
  have hj : ∀ r : Str, joinWith ['/'] (splitOn '/' r) = r := fun r => Path.splits_joinWith r _ (splitOn_splits '/' r)
  constructor
  · rintro ⟨t, ht⟩
    have h1 := hj ('/' :: s)
    rw [← ht] at h1
    cases t with
    | nil => rw [List.append_nil, hj] at h1; exact .inl h1.symm
    | cons c t =>
      rw [Path.joinWith_append _ _ (splitOn_ne_nil _ _) (by simp), hj] at h1
      exact .inr ⟨_, h1.symm⟩
  · rintro (h | ⟨t, h⟩)
    · rw [h]; exact List.prefix_refl _
    · rw [h, Path.splitOn_append]; exact List.prefix_append _ _

/-- A bounded predicate that holds somewhere has a greatest place. -/
theorem exists_max {α : Type} (P : α → Prop) (m : α → Nat) (n : Nat) (hb : ∀ a, P a → m a ≤ n) (h : ∃ a, P a) :
    ∃ a, P a ∧ ∀ b, P b → m b ≤ m a := by
  induction n with
  | zero =>
    obtain ⟨a, ha⟩ := h
    exact ⟨a, ha, fun b hb' => Nat.le_trans (hb b hb') (Nat.zero_le _)⟩
  | succ n ih =>
    by_cases hc : ∃ a, P a ∧ m a = n + 1
    · obtain ⟨a, ha, he⟩ := hc
      exact ⟨a, ha, fun b hb' => by rw [he]; exact hb b hb'⟩
    · refine ih (fun a ha => ?_)
      have := hb a ha
      have hne : m a ≠ n + 1 := fun e => hc ⟨a, ha, e⟩
      omega

theorem literal_below (hl : Literal fs glob) (ha : AbsPaths pkg) : GlobBelow fs glob inst pkg := by
  intro i hi x hx
  obtain ⟨rfl, hh⟩ := (hl _ _).mp hx
  obtain ⟨r, hr, _⟩ := ha i hi
  exact ⟨hh, r, by rw [hr]⟩

theorem mem_pathCollision (h1 : o.createStatic = false) (h2 : o.generateDebug = false) (q : Str) :
    q ∈ pathCollision o pkg others ↔ ∃ p ∈ pkg.files, ∃ other ∈ others, ∃ j ∈ other.files,
      Path.subpath p.path j.path = true ∧ j.path = q := by
  unfold pathCollision
  simp only [h1, h2, Bool.and_false, Bool.or_self, Bool.false_eq_true, if_false, List.mem_flatMap, List.mem_filterMap]
  constructor
  · rintro ⟨p, hp, other, ho, j, hj, h⟩
    split at h
    next hs => exact ⟨p, hp, other, ho, j, hj, hs, Option.some.inj h⟩
    next => cases h
  · rintro ⟨p, hp, other, ho, j, hj, hs, rfl⟩
    exact ⟨p, hp, other, ho, j, hj, by simp [hs]⟩

/-- **C89** without separate static and debug packages: the path itself for a file or a link; for a directory everything below
it but what begins like a path of another package that is below a path of this one. -/
theorem files_plain (hr : BuildRoot fs inst) (hw : Walks fs walk) (ha : AbsPaths pkg) (hb : ∀ p ∈ others, AbsPaths p)
    (hg : GlobBelow fs glob inst pkg) (h1 : o.createStatic = false) (h2 : o.generateDebug = false)
    {d : Dict Str FileInfo} (hd : genFiles sha fs walk glob o pkg others inst = .ok d) (r : Str) :
    d.has r = true ↔ ∃ i ∈ pkg.files, ∃ x ∈ glob (inst ++ i.path),
      (inst ++ '/' :: r = x ∧ (isFile fs x = true ∨ isLink fs x = true)) ∨
      (fs.get x = some .dir ∧ Below x (inst ++ '/' :: r) ∧ Leaf fs (inst ++ '/' :: r) ∧
        ∀ p ∈ pkg.files, ∀ other ∈ others, ∀ j ∈ other.files, Below p.path j.path → ¬ j.path <+: '/' :: r) := by
  rw [files_exact hr hw ha hg hd r]
  have hsk : ¬ Skips fs o pkg (inst ++ '/' :: r) := fun h => by have := h.1; rw [h1] at this; cases this
  have hex : ¬ Excl (pathCollision o pkg others) inst (inst ++ '/' :: r) ↔
      ∀ p ∈ pkg.files, ∀ other ∈ others, ∀ j ∈ other.files, Below p.path j.path → ¬ j.path <+: '/' :: r := by
    unfold Excl
    constructor
    · intro h p hp other hoo j hj hbl hpre
      exact h ⟨j.path, (mem_pathCollision h1 h2 _).mpr ⟨p, hp, other, hoo, j, hj,
        (subpath_below (ha p hp) (hb other hoo j hj)).mpr hbl, rfl⟩, by simpa using hpre⟩
    · rintro h ⟨q, hq, hpre⟩
      obtain ⟨p, hp, other, hoo, j, hj, hsb, rfl⟩ := (mem_pathCollision h1 h2 _).mp hq
      exact h p hp other hoo j hj ((subpath_below (ha p hp) (hb other hoo j hj)).mp hsb) (by simpa using hpre)
  simp only [Collected, hsk, not_false_eq_true, and_true, hex]

/-- The packages of one specification: the lists of files made for all of them. -/
def AllFiles (sha : Str → Str) (fs : FS) (walk : Str → List Triple) (glob : Str → List Str) (o : Opts) (inst : Str)
    (pkgs : List Pkg) (out : Nat → Dict Str FileInfo) : Prop :=
  ∀ i (h : i < pkgs.length), genFiles sha fs walk glob o pkgs[i] (pkgs.eraseIdx i) inst = .ok (out i)

/-- C91, full statement: every built file that a listed path covers is in exactly one package. -/
def OnePackage : Prop := ∀ (sha : Str → Str) (fs : FS) (walk : Str → List Triple) (glob : Str → List Str) (inst : Str)
  (pkgs : List Pkg) (out : Nat → Dict Str FileInfo), BuildRoot fs inst → Walks fs walk → Literal fs glob →
  (∀ p ∈ pkgs, AbsPaths p) → AllFiles sha fs walk glob {} inst pkgs out →
  ∀ r, Leaf fs (inst ++ '/' :: r) → (∃ p ∈ pkgs, Lists p ('/' :: r)) →
  ∃ i, i < pkgs.length ∧ (out i).has r = true ∧ ∀ j, j < pkgs.length → (out j).has r = true → j = i

theorem drop_inst (r : Str) : (inst ++ '/' :: r).drop inst.length = '/' :: r := by simp

/-- **C91** for specifications in which no listed path is a mere beginning of the name of the file, and no package lists a path
between two paths of another one: the file is in the package that lists the deepest path, and in no other. -/
theorem one_package_partial {pkgs : List Pkg} {out : Nat → Dict Str FileInfo} (hr : BuildRoot fs inst) (hw : Walks fs walk)
    (hl : Literal fs glob) (ha : ∀ p ∈ pkgs, AbsPaths p) (h1 : o.createStatic = false) (h2 : o.generateDebug = false)
    (hout : AllFiles sha fs walk glob o inst pkgs out) (hsw : NoSandwich pkgs) (r : Str) (hleaf : Leaf fs (inst ++ '/' :: r))
    (hclear : ∀ p ∈ pkgs, Clear p ('/' :: r)) (hlist : ∃ p ∈ pkgs, Lists p ('/' :: r)) :
    ∃ i, ∃ hi : i < pkgs.length, (out i).has r = true ∧
      (∃ p ∈ pkgs[i].files, Below p.path ('/' :: r) ∧
        ∀ q ∈ pkgs, ∀ j ∈ q.files, Below j.path ('/' :: r) → j.path.length ≤ p.path.length) ∧
      ∀ j, j < pkgs.length → (out j).has r = true → j = i := by
  -- the deepest path
  obtain ⟨a, ⟨hi, hp, hpb⟩, hmax⟩ := exists_max
    (fun a : Nat × PathInfo => ∃ h : a.1 < pkgs.length, a.2 ∈ pkgs[a.1].files ∧ Below a.2.path ('/' :: r))
    (fun a => a.2.path.length) ('/' :: r).length (fun a h => h.2.2.pre.length_le)
    (by
      obtain ⟨p, hp, i, hi, hb⟩ := hlist
      obtain ⟨n, hn, rfl⟩ := List.getElem_of_mem hp
      exact ⟨(n, i), hn, hi, hb⟩)
  have hmax' : ∀ j (hj : j < pkgs.length), ∀ q ∈ pkgs[j].files, Below q.path ('/' :: r) → q.path.length ≤ a.2.path.length :=
    fun j hj q hq hb => hmax (j, q) ⟨hj, hq, hb⟩
  have hfh := leaf_has hleaf
  have hsk : ∀ p : Pkg, ¬ Skips fs o p (inst ++ '/' :: r) := fun p h => by have := h.1; rw [h1] at this; cases this
  have hai := ha _ (List.getElem_mem hi)
  refine ⟨a.1, hi, ?_, ⟨a.2, hp, hpb, ?_⟩, ?_⟩
  · rw [files_exact hr hw hai (literal_below hl hai) (hout a.1 hi)]
    have hxb : Below (inst ++ a.2.path) (inst ++ '/' :: r) := by
      rcases hpb with e | ⟨t, e⟩
      · exact .inl (by rw [e])
      · exact .inr ⟨t, by rw [e]; simp⟩
    have hne : inst ++ a.2.path ≠ [] := by simp [hr.ne]
    have hxh : fs.has (inst ++ a.2.path) = true := by
      rcases hxb with e | ⟨t, e⟩
      · rw [← e]; exact hfh
      · exact has_of_get (hr.tree _ t hne (by rw [← e]; exact hfh))
    refine ⟨a.2, hp, inst ++ a.2.path, (hl _ _).mpr ⟨rfl, hxh⟩, ?_, hsk _⟩
    have hnx : ¬ Excl (pathCollision o pkgs[a.1] (pkgs.eraseIdx a.1)) inst (inst ++ '/' :: r) := by
      rintro ⟨q, hq, hqp⟩
      rw [drop_inst] at hqp
      obtain ⟨p', hp', other, ho, j, hj, hsub, rfl⟩ := (mem_pathCollision h1 h2 q).mp hq
      obtain ⟨k, hk, hke, rfl⟩ := List.mem_eraseIdx_iff_getElem.mp ho
      have haj := ha _ (List.getElem_mem hk)
      have hb1 := (subpath_below (hai p' hp') (haj j hj)).mp hsub
      have hb2 := hclear _ (List.getElem_mem hk) j hj hqp
      have hb3 := below_of_le hb2 hpb (hmax' k hk j hj hb2)
      exact hke (hsw a.1 k hi hk p' hp' j hj a.2 hp hb1 hb3).symm
    by_cases hd : fs.get (inst ++ a.2.path) = some .dir
    · exact .inr ⟨hd, hxb, hleaf, hnx⟩
    · left
      rcases hxb with e | ⟨t, e⟩
      · refine ⟨e, ?_⟩
        obtain ⟨n, hn⟩ := get_of_has hxh
        cases n with
        | dir => exact absurd hn hd
        | file c => left; simp [isFile, stat, statN, hn]
        | link t => right; simp [isLink, hn]
      · exact absurd (hr.tree _ t hne (by rw [← e]; exact hfh)) hd
  · intro q hq j hj hb
    obtain ⟨n, hn, rfl⟩ := List.getElem_of_mem hq
    exact hmax' n hn j hj hb
  · intro j hj hhas
    have haj := ha _ (List.getElem_mem hj)
    obtain ⟨q, hq, x, hx, hc, _⟩ := (files_exact hr hw haj (literal_below hl haj) (hout j hj) r).mp hhas
    obtain ⟨rfl, hxh⟩ := (hl _ _).mp hx
    have hqb : Below q.path ('/' :: r) := by
      rcases hc with ⟨e, _⟩ | ⟨_, hb, _⟩
      · exact .inl (List.append_cancel_left e)
      · rcases hb with e | ⟨t, e⟩
        · exact .inl (List.append_cancel_left e)
        · exact .inr ⟨t, List.append_cancel_left (by rw [e]; simp)⟩
    have hle := hmax' j hj q hq hqb
    have hqa := below_of_le hqb hpb hle
    apply Classical.byContradiction
    intro hji
    rcases hc with ⟨e, _⟩ | ⟨_, hb, _, hnx⟩
    · have e := List.append_cancel_left e
      have : Below a.2.path q.path := by rw [← e]; exact hpb
      exact hji (hsw j a.1 hj hi q hq a.2 hp q hq hqa this)
    · apply hnx
      refine ⟨a.2.path, (mem_pathCollision h1 h2 _).mpr ⟨q, hq, pkgs[a.1], ?_, a.2, hp, ?_, rfl⟩, ?_⟩
      · exact List.mem_eraseIdx_iff_getElem.mpr ⟨a.1, hi, fun e => hji e.symm, rfl⟩
      · exact (subpath_below (haj q hq) (hai a.2 hp)).mpr hqa
      · rw [drop_inst]; exact hpb.pre

/-! ## Types -/

/-- C92, full statement: the type and permanence of a file are those of the deepest listed path above it. -/
def TypeOfDeepest : Prop := ∀ (fs : FS) (glob : Str → List Str) (inst : Str) (pkg : Pkg) (r : Str), BuildRoot fs inst →
  Literal fs glob → AbsPaths pkg → Leaf fs (inst ++ '/' :: r) → Proper r → Lists pkg ('/' :: r) →
  ∃ i ∈ pkg.files, Below i.path ('/' :: r) ∧ (∀ j ∈ pkg.files, Below j.path ('/' :: r) → j.path.length ≤ i.path.length) ∧
    fileType glob r pkg.files inst = .ok (i.fileType, i.permanent)

/-- **C92** when no listed path is a mere beginning of the name, and the name of the build root does not occur again within the
path. -/
theorem type_of_deepest_partial (hr : BuildRoot fs inst) (hl : Literal fs glob) {r : Str}
    (hleaf : Leaf fs (inst ++ '/' :: r)) (hclear : Clear pkg ('/' :: r)) (hlist : Lists pkg ('/' :: r))
    (honce : ∀ a b, inst ++ '/' :: r = a ++ inst ++ b → a = []) :
    ∃ i ∈ pkg.files, Below i.path ('/' :: r) ∧ (∀ j ∈ pkg.files, Below j.path ('/' :: r) → j.path.length ≤ i.path.length) ∧
      fileType glob r pkg.files inst = .ok (i.fileType, i.permanent) := by
  have hfh := leaf_has hleaf
  have hp := hr.names r hfh
  have hmatch : ∀ i ∈ pkg.files, ((glob (inst ++ i.path)).any fun m => decide (m <:+: inst ++ '/' :: r)) = true ↔
      Below i.path ('/' :: r) := by
    intro i hi
    rw [List.any_eq_true]
    constructor
    · rintro ⟨m, hm, hin⟩
      obtain ⟨rfl, _⟩ := (hl _ _).mp hm
      obtain ⟨u, v, huv⟩ := (of_decide_eq_true hin)
      have hu : u = [] := honce u (i.path ++ v) (by rw [← huv]; simp)
      subst hu
      exact hclear i hi ⟨v, List.append_cancel_left (as := inst) (by rw [← huv]; simp)⟩
    · intro hb
      have hne : inst ++ i.path ≠ [] := by simp [hr.ne]
      have hxb : Below (inst ++ i.path) (inst ++ '/' :: r) := by
        rcases hb with e | ⟨t, e⟩
        · exact .inl (by rw [e])
        · exact .inr ⟨t, by rw [e]; simp⟩
      have hxh : fs.has (inst ++ i.path) = true := by
        rcases hxb with e | ⟨t, e⟩
        · rw [← e]; exact hfh
        · exact has_of_get (hr.tree _ t hne (by rw [← e]; exact hfh))
      exact ⟨inst ++ i.path, (hl _ _).mpr ⟨rfl, hxh⟩, decide_eq_true hxb.pre.isInfix⟩
  unfold fileType
  rw [osJoin_rel hr hp]
  have hmem : ∀ p, p ∈ (pkg.files.filter fun i => (glob (inst ++ i.path)).any fun m => decide (m <:+: inst ++ '/' :: r)).map (·.path) ↔
      ∃ i ∈ pkg.files, Below i.path ('/' :: r) ∧ i.path = p := by
    intro p
    rw [List.mem_map]
    constructor
    · rintro ⟨i, hi, rfl⟩
      obtain ⟨h1, h2⟩ := List.mem_filter.mp hi
      exact ⟨i, h1, (hmatch i h1).mp h2, rfl⟩
    · rintro ⟨i, hi, hb, rfl⟩
      exact ⟨i, List.mem_filter.mpr ⟨hi, (hmatch i hi).mpr hb⟩, rfl⟩
  dsimp only
  generalize ((pkg.files.filter fun i => (glob (inst ++ i.path)).any fun m => decide (m <:+: inst ++ '/' :: r)).map (·.path)) = l at hmem ⊢
  obtain ⟨i0, hi0, hb0⟩ := hlist
  obtain ⟨b, hb⟩ := greatest_some (l := l) (List.ne_nil_of_mem ((hmem i0.path).mpr ⟨i0, hi0, hb0, rfl⟩))
  have hpre : ∀ x ∈ l, x <+: '/' :: r := by
    intro x hx; obtain ⟨i, _, hbi, rfl⟩ := (hmem x).mp hx; exact hbi.pre
  have hlong := greatest_longest hpre hb
  obtain ⟨j, hj, hjb, hje⟩ := (hmem b).mp (greatest_mem hb)
  simp only [hb]
  cases hfd : pkg.files.find? (fun i => decide (b = i.path)) with
  | none => exact absurd (List.find?_eq_none.mp hfd j hj) (by simp [hje])
  | some k =>
    have hk := List.mem_of_find?_eq_some hfd
    have hke : b = k.path := by simpa using List.find?_some hfd
    refine ⟨k, hk, ?_, ?_, rfl⟩
    · rw [← hke, ← hje]; exact hjb
    · intro q hq hqb
      rw [← hke]
      exact hlong _ ((hmem _).mpr ⟨q, hq, hqb, rfl⟩)

/-! ## Files left over -/

theorem mem_abandoned (hr : BuildRoot fs inst) (hw : Walks fs walk) (pkgs : List Pkg) (f : Str) :
    f ∈ abandoned walk glob pkgs inst ↔ (∃ r, f = inst ++ '/' :: r ∧ fs.has f = true ∧ isDir fs f = false) ∧
      ∀ p ∈ pkgs, ∀ i ∈ p.files, ∀ x ∈ glob (inst ++ i.path), ¬ x <+: f := by
  unfold abandoned
  simp only [List.mem_flatMap, List.mem_filterMap]
  have hany : ∀ g : Str, ((pkgs.flatMap fun p => p.files.flatMap fun i => glob (inst ++ i.path)).any fun p => startsWith g p) = true ↔
      ∃ p ∈ pkgs, ∃ i ∈ p.files, ∃ x ∈ glob (inst ++ i.path), x <+: g := by
    intro g
    simp only [List.any_eq_true, List.mem_flatMap, startsWith, Path.prefix_iff]
    constructor
    · rintro ⟨x, ⟨p, hp, i, hi, hx⟩, h⟩; exact ⟨p, hp, i, hi, x, hx, h⟩
    · rintro ⟨p, hp, i, hi, x, hx, h⟩; exact ⟨x, ⟨p, hp, i, hi, hx⟩, h⟩
  constructor
  · rintro ⟨t, ht, n, hn, h⟩
    obtain ⟨hb, hd⟩ := ((hw inst).roots t.1).mp ⟨t, ht, rfl⟩
    obtain ⟨hne, hlast⟩ := root_last hr hb (has_of_get hd)
    have hn' := ((hw inst).files t ht n).mp hn
    rw [joinPath_one hne hlast (noslash_head hn'.2.1)] at h
    split at h
    next => cases h
    next hc =>
      cases h
      refine ⟨?_, ?_⟩
      · rcases hb with e | ⟨r, e⟩
        · exact ⟨n, by rw [e], hn'.2.2.1, hn'.2.2.2⟩
        · exact ⟨r ++ '/' :: n, by rw [e]; simp, hn'.2.2.1, hn'.2.2.2⟩
      · intro p hp i hi x hx hpre
        exact hc ((hany _).mpr ⟨p, hp, i, hi, x, hx, hpre⟩)
  · rintro ⟨⟨r, rfl, hh, hd⟩, hno⟩
    obtain ⟨dd, n, he, hn, hb⟩ := below_split (top := inst) (f := inst ++ '/' :: r) (.inr ⟨r, rfl⟩)
      (by intro e; have := congrArg List.length e; simp at this)
    have hdne : dd ≠ [] := by
      rintro rfl
      rcases hb with e | ⟨_, e⟩
      · exact hr.ne e.symm
      · simp at e
    have hdir := hr.tree dd n hdne (by rw [← he]; exact hh)
    obtain ⟨t, ht, hte⟩ := ((hw inst).roots dd).mpr ⟨hb, hdir⟩
    obtain ⟨hne, hlast⟩ := root_last hr hb (has_of_get hdir)
    have hnn : n ≠ [] := by
      rintro rfl
      have := last_append (a := inst) (hr.names r hh)
      rw [he] at this; simp at this
    refine ⟨t, ht, n, ((hw inst).files t ht n).mpr ⟨hnn, hn, ?_, ?_⟩, ?_⟩
    · rw [hte, ← he]; exact hh
    · rw [hte, ← he]; exact hd
    · rw [hte, joinPath_one hne hlast (noslash_head hn), ← he, if_neg]
      intro h
      obtain ⟨p, hp, i, hi, x, hx, hpre⟩ := (hany _).mp h
      exact hno p hp i hi x hx hpre

/-- **C93.** A file reported as left over is in no package. -/
theorem abandoned_sound {pkgs : List Pkg} {out : Nat → Dict Str FileInfo} (hr : BuildRoot fs inst) (hw : Walks fs walk)
    (ha : ∀ p ∈ pkgs, AbsPaths p) (hg : ∀ p ∈ pkgs, GlobBelow fs glob inst p)
    (hout : AllFiles sha fs walk glob o inst pkgs out) (f : Str) (hf : f ∈ abandoned walk glob pkgs inst) :
    ∃ r, f = inst ++ '/' :: r ∧ fs.has f = true ∧ ∀ i, i < pkgs.length → (out i).has r = false := by
  obtain ⟨⟨r, rfl, hh, _⟩, hno⟩ := (mem_abandoned hr hw pkgs f).mp hf
  refine ⟨r, rfl, hh, fun i hi => ?_⟩
  cases hhas : (out i).has r with
  | false => rfl
  | true =>
    exfalso
    have hm := List.getElem_mem hi
    obtain ⟨p, hp, x, hx, hc, _⟩ := (files_exact hr hw (ha _ hm) (hg _ hm) (hout i hi) r).mp hhas
    refine hno _ hm p hp x hx ?_
    rcases hc with ⟨e, _⟩ | ⟨_, hb, _⟩
    · rw [e]; exact List.prefix_refl _
    · exact hb.pre

/-- C93, full statement: files that are in no package are reported. -/
def AbandonedComplete : Prop := ∀ (sha : Str → Str) (fs : FS) (walk : Str → List Triple) (glob : Str → List Str) (inst : Str)
  (pkgs : List Pkg) (out : Nat → Dict Str FileInfo), BuildRoot fs inst → Walks fs walk → Literal fs glob →
  (∀ p ∈ pkgs, AbsPaths p) → AllFiles sha fs walk glob {} inst pkgs out →
  ∀ r c, fs.get (inst ++ '/' :: r) = some (.file c) → (∀ i, i < pkgs.length → (out i).has r = false) →
  inst ++ '/' :: r ∈ abandoned walk glob pkgs inst

/-- **C93** under the conditions of `one_package_partial`. -/
theorem abandoned_complete_partial {pkgs : List Pkg} {out : Nat → Dict Str FileInfo} (hr : BuildRoot fs inst)
    (hw : Walks fs walk) (hl : Literal fs glob) (ha : ∀ p ∈ pkgs, AbsPaths p) (h1 : o.createStatic = false)
    (h2 : o.generateDebug = false) (hout : AllFiles sha fs walk glob o inst pkgs out) (hsw : NoSandwich pkgs) (r c : Str)
    (hf : fs.get (inst ++ '/' :: r) = some (.file c)) (hclear : ∀ p ∈ pkgs, Clear p ('/' :: r))
    (hno : ∀ i, i < pkgs.length → (out i).has r = false) :
    inst ++ '/' :: r ∈ abandoned walk glob pkgs inst := by
  rw [mem_abandoned hr hw]
  refine ⟨⟨r, rfl, has_of_get hf, by simp [isDir, stat, statN, hf]⟩, ?_⟩
  intro p hp i hi x hx hpre
  obtain ⟨rfl, _⟩ := (hl _ _).mp hx
  have hb := hclear p hp i hi ((List.prefix_append_right_inj inst).mp hpre)
  obtain ⟨k, hk, hhas, _⟩ := one_package_partial hr hw hl ha h1 h2 hout hsw r (by simp [Leaf, hf]) hclear ⟨p, hp, i, hi, hb⟩
  rw [hno k hk] at hhas
  cases hhas

/-! ## Size -/

/-- No name and no directory is listed twice by `os.walk`. -/
structure WalkOnce (walk : Str → List Triple) : Prop where
  roots : ∀ top, ((walk top).map Prod.fst).Nodup
  files : ∀ top, ∀ t ∈ walk top, t.2.2.Nodup

/-- C94, full statement: the installed size is the sum of the sizes of the files of the package. -/
def SizeSum : Prop := ∀ (sha : Str → Str) (fs : FS) (walk : Str → List Triple) (glob : Str → List Str) (inst : Str) (pkg : Pkg)
  (d : Dict Str FileInfo), BuildRoot fs inst → Walks fs walk → WalkOnce walk → Literal fs glob → AbsPaths pkg →
  genFiles sha fs walk glob {} pkg [] inst = .ok d → installedSize fs walk glob pkg inst = (d.map fun e => e.2.size).sum

/-- The files counted for an expanded path. -/
def counted (fs : FS) (walk : Str → List Triple) (x : Str) : List Str :=
  if isDir fs x && !isLink fs x then (walk x).flatMap fun t => t.2.2.map fun n => t.1 ++ '/' :: n else [x]

theorem entrySize_eq (f : Str) (hh : fs.has f = true) (hd : fs.get f ≠ some .dir) (hld : isLink fs f = true → isDir fs f = false) :
    dirSize fs walk f = entrySize fs f := by
  obtain ⟨n, hn⟩ := get_of_has hh
  unfold dirSize entrySize
  cases n with
  | dir => exact absurd hn hd
  | file c =>
    have h1 : isLink fs f = false := by simp [isLink, hn]
    have h2 : isDir fs f = false := by simp [isDir, stat, statN, hn]
    have h3 : existsP fs f = true := by simp [existsP, stat, statN, hn]
    simp [h1, h2, h3]
  | link t =>
    have h1 : isLink fs f = true := by simp [isLink, hn]
    simp [h1, hld h1]

theorem sum_flatMap {α : Type} (l : List α) (f : α → List Nat) : (l.flatMap f).sum = (l.map fun a => (f a).sum).sum := by
  induction l with
  | nil => rfl
  | cons a l ih => simp [ih]

theorem sum_zero (l : List Nat) (h : ∀ v ∈ l, v = 0) : l.sum = 0 := by
  induction l with
  | nil => rfl
  | cons a l ih => simp [h a (by simp), ih (fun v hv => h v (by simp [hv]))]

/-- **C89.** Every path is recorded once. -/
theorem files_once (hr : BuildRoot fs inst) (hw : Walks fs walk) (ha : AbsPaths pkg) (hg : GlobBelow fs glob inst pkg)
    {d : Dict Str FileInfo} (hd : genFiles sha fs walk glob o pkg others inst = .ok d) : d.Uniq := by
  obtain ⟨items, h1, h2⟩ := genFiles_items (sha := sha) (o := o) (others := others) hr hw (expand_below hr ha hg)
  rw [hd] at h2
  have hp : ∀ it ∈ items, ∃ r, it.1 = inst ++ '/' :: r ∧ Proper r := by
    intro it hit
    obtain ⟨x, hx, hy⟩ := (h1 it).mp hit
    obtain ⟨i, hi, hx⟩ := (mem_expand hr ha x).mp hx
    exact yield_rel hr hg hi hx hy
  have key : ∀ (items : List Item) (d0 d : Dict Str FileInfo), (∀ it ∈ items, ∃ r, it.1 = inst ++ '/' :: r ∧ Proper r) →
      d0.Uniq → items.foldlM (addItem fs walk glob o pkg inst) d0 = .ok d → d.Uniq := by
    intro items
    induction items with
    | nil => intro d0 d _ h0 h; cases h; exact h0
    | cons it items ih =>
      intro d0 d hp h0 h
      obtain ⟨r, he, hpr⟩ := hp it (by simp)
      obtain ⟨f, h'⟩ := it
      dsimp only at he
      subst he
      rw [List.foldlM_cons] at h
      cases h1 : addItem fs walk glob o pkg inst d0 (inst ++ '/' :: r, h') with
      | error e => rw [h1] at h; cases h
      | ok d1 =>
        rw [h1] at h
        refine ih d1 d (fun it hit => hp it (by simp [hit])) ?_ h
        rcases addItem_ok hr.ne hr.last hpr h1 with ⟨_, rfl⟩ | ⟨_, hh, t, p, _, _, rfl⟩
        · exact h0
        · exact Dict.uniq_put h0 _ _
  exact key items [] d hp Dict.uniq_nil h2.symm

theorem dirSize_counted (hr : BuildRoot fs inst) (hw : Walks fs walk) {x : Str} (hx : Below inst x)
    (hnl : ∀ f, Below inst f → isLink fs f = true → isDir fs f = false) :
    dirSize fs walk x = ((counted fs walk x).map (dirSize fs walk)).sum := by
  unfold counted
  by_cases hc : (isDir fs x && !isLink fs x) = true
  · rw [if_pos hc]
    simp only [Bool.and_eq_true, Bool.not_eq_true'] at hc
    conv => lhs; unfold dirSize
    rw [if_neg (by simp [hc.1]), if_neg (by simp [hc.2]), List.map_flatMap, sum_flatMap]
    congr 1
    apply List.map_congr_left
    intro t ht
    obtain ⟨hb, hd⟩ := ((hw x).roots t.1).mp ⟨t, ht, rfl⟩
    obtain ⟨hne, hlast⟩ := root_last hr (hx.trans hb) (has_of_get hd)
    rw [List.map_map]
    congr 1
    apply List.map_congr_left
    intro n hn
    have hn' := ((hw x).files t ht n).mp hn
    rw [joinPath_one hne hlast (noslash_head hn'.2.1)]
    refine (entrySize_eq _ hn'.2.2.1 ?_ (hnl _ ((hx.trans hb).trans (.inr ⟨n, rfl⟩)))).symm
    intro h
    have := hn'.2.2.2
    rw [isDir_get h] at this
    cases this
  · rw [if_neg hc]; simp

/-- **C94** for a package none of whose paths is listed twice or below another one or claimed by another package, without links
to directories. -/
theorem size_sum_partial {d : Dict Str FileInfo} (hr : BuildRoot fs inst) (hw : Walks fs walk) (hw1 : WalkOnce walk)
    (ha : AbsPaths pkg) (hg : GlobBelow fs glob inst pkg) (ho : o.createStatic = false)
    (hcoll : pathCollision o pkg others = []) (hnl : ∀ f, Below inst f → isLink fs f = true → isDir fs f = false)
    (hapart : (expand glob pkg inst).Pairwise fun x y => ¬ Below x y ∧ ¬ Below y x)
    (hd : genFiles sha fs walk glob o pkg others inst = .ok d) :
    installedSize fs walk glob pkg inst = (d.map fun e => e.2.size).sum := by
  have hu := files_once hr hw ha hg hd
  have hxs : ∀ x ∈ expand glob pkg inst, Below inst x ∧ fs.has x = true := by
    intro x hx
    obtain ⟨i, hi, hx'⟩ := (mem_expand hr ha x).mp hx
    exact ⟨expand_below hr ha hg x hx, (hg i hi x hx').1⟩
  -- what is counted lies below the path it is counted for and is no directory
  have hcb : ∀ x ∈ expand glob pkg inst, ∀ f ∈ counted fs walk x, Below x f ∧ fs.has f = true ∧ fs.get f ≠ some .dir := by
    intro x hx f hf
    unfold counted at hf
    split at hf
    · obtain ⟨t, ht, hf⟩ := List.mem_flatMap.mp hf
      obtain ⟨n, hn, rfl⟩ := List.mem_map.mp hf
      obtain ⟨hb, _⟩ := ((hw x).roots t.1).mp ⟨t, ht, rfl⟩
      have hn' := ((hw x).files t ht n).mp hn
      refine ⟨hb.trans (.inr ⟨n, rfl⟩), hn'.2.2.1, fun h => ?_⟩
      have := hn'.2.2.2
      rw [isDir_get h] at this
      cases this
    next hc =>
      simp only [List.mem_singleton] at hf
      subst hf
      refine ⟨.inl rfl, (hxs f hx).2, fun h => ?_⟩
      simp [isDir_get h, isLink_dir h] at hc
  have hcn : ∀ x ∈ expand glob pkg inst, (counted fs walk x).Nodup := by
    intro x hx
    unfold counted
    split
    · rw [List.nodup_flatMap]
      refine ⟨fun t ht => ?_, ?_⟩
      · refine List.Nodup.map_on ?_ (hw1.files x t ht)
        intro a _ b _ e
        simpa using e
      · have hnd := hw1.roots x
        rw [List.Nodup, List.pairwise_map] at hnd
        refine hnd.imp_of_mem ?_
        intro t u ht hu hne f hf1 hf2
        obtain ⟨n, hn, rfl⟩ := List.mem_map.mp hf1
        obtain ⟨m, hm, e⟩ := List.mem_map.mp hf2
        have h1 := (((hw x).files t ht n).mp hn).2.1
        have h2 := (((hw x).files u hu m).mp hm).2.1
        exact hne (by
          have e1 := congrArg List.reverse e
          simp only [List.reverse_append, List.reverse_cons, List.append_assoc, List.singleton_append] at e1
          have key : ∀ (a b c d : Str), '/' ∉ a → '/' ∉ b → a ++ '/' :: c = b ++ '/' :: d → c = d := by
            intro a
            induction a with
            | nil =>
              intro b c d _ hb h
              cases b with
              | nil => simpa using h
              | cons y b => simp at h; simp [← h.1] at hb
            | cons x a ih =>
              intro b c d ha hb h
              cases b with
              | nil => simp at h; simp [h.1] at ha
              | cons y b =>
                simp at h ha hb
                exact ih b c d ha.2 hb.2 h.2
          have := key m.reverse n.reverse u.1.reverse t.1.reverse (by simpa using h2) (by simpa using h1) e1
          have := congrArg List.reverse this
          simpa using this.symm)
    · simp
  have hall : ((expand glob pkg inst).flatMap (counted fs walk)).Nodup := by
    rw [List.nodup_flatMap]
    refine ⟨hcn, ?_⟩
    refine hapart.imp_of_mem ?_
    intro x y hx hy hxy f hf1 hf2
    have h1 := (hcb x hx f hf1).1
    have h2 := (hcb y hy f hf2).1
    rcases Nat.le_total x.length y.length with h | h
    · exact hxy.1 (below_of_le h1 h2 h)
    · exact hxy.2 (below_of_le h2 h1 h)
  -- the entries of the list of files that are no directories
  let nd : Str × FileInfo → Bool := fun e => decide (fs.get (inst ++ '/' :: e.1) ≠ some .dir)
  have hsize : ∀ e ∈ d, e.2.size = dirSize fs walk (inst ++ '/' :: e.1) := by
    intro e he
    exact (entry_exact hr hw ha hg hd e.1 e.2 ((Dict.mem_iff_get hu e.1 e.2).mp he)).2.1
  have hhas : ∀ e ∈ d, d.has e.1 = true := fun e he => by
    rw [Dict.has, (Dict.mem_iff_get hu e.1 e.2).mp he]; rfl
  have hzero : ∀ e ∈ d, nd e = false → e.2.size = 0 := by
    intro e he hne
    have hdir : fs.get (inst ++ '/' :: e.1) = some .dir := by simpa [nd] using hne
    have hl := files_built hr hw ha hg hd e.1 (hhas e he)
    unfold Leaf at hl
    rw [hdir] at hl
    rw [hsize e he]
    unfold dirSize
    rw [if_neg (by simp [isDir_get hdir]), if_neg (by simp [isLink_dir hdir])]
    apply sum_zero
    intro v hv
    obtain ⟨t, ht, rfl⟩ := List.mem_map.mp hv
    have hte : t.2.2 = [] := by
      cases h : t.2.2 with
      | nil => rfl
      | cons n ns =>
        exfalso
        have hn := ((hw _).files t ht n).mp (by rw [h]; simp)
        obtain ⟨hb, _⟩ := ((hw _).roots t.1).mp ⟨t, ht, rfl⟩
        rcases hb with e1 | ⟨q, e1⟩
        · rw [e1] at hn; have := hl n; rw [hn.2.2.1] at this; cases this
        · rw [e1] at hn
          have := hl (q ++ '/' :: n)
          rw [show inst ++ '/' :: e.1 ++ '/' :: (q ++ '/' :: n) = inst ++ '/' :: e.1 ++ '/' :: q ++ '/' :: n by simp] at this
          rw [hn.2.2.1] at this; cases this
    simp [hte]
  have hperm : ((d.filter nd).map fun e => inst ++ '/' :: e.1).Perm ((expand glob pkg inst).flatMap (counted fs walk)) := by
    rw [List.perm_ext_iff_of_nodup _ hall]
    · intro f
      constructor
      · intro hf
        obtain ⟨e, he, rfl⟩ := List.mem_map.mp hf
        obtain ⟨he, hn⟩ := List.mem_filter.mp he
        have hn : fs.get (inst ++ '/' :: e.1) ≠ some .dir := by simpa [nd] using hn
        obtain ⟨i, hi, x, hx, hc, _⟩ := (files_exact hr hw ha hg hd e.1).mp (hhas e he)
        refine List.mem_flatMap.mpr ⟨x, (mem_expand hr ha x).mpr ⟨i, hi, hx⟩, ?_⟩
        unfold counted
        rcases hc with ⟨rfl, hk⟩ | ⟨hxd, hb, hl, _⟩
        · rw [if_neg]
          · simp
          · intro h
            simp only [Bool.and_eq_true, Bool.not_eq_true'] at h
            rcases hk with hk | hk
            · unfold isFile at hk; unfold isDir at h
              cases hs : stat fs (inst ++ '/' :: e.1) with
              | none => rw [hs] at hk; cases hk
              | some n => rw [hs] at hk h; cases n <;> simp_all
            · rw [hk] at h; cases h.2
        · rw [if_pos (by simp [isDir_get hxd, isLink_dir hxd])]
          have hfh := leaf_has hl
          have hne : inst ++ '/' :: e.1 ≠ x := by intro h; rw [h] at hn; exact hn hxd
          obtain ⟨dd, n, he', hns, hbd⟩ := below_split hb hne
          have hxb := expand_below hr ha hg x ((mem_expand hr ha x).mpr ⟨i, hi, hx⟩)
          have hdne : dd ≠ [] := by
            rintro rfl
            rcases hxb.trans hbd with e2 | ⟨_, e2⟩
            · exact hr.ne e2.symm
            · simp at e2
          have hdir := hr.tree dd n hdne (by rw [← he']; exact hfh)
          obtain ⟨t, ht, hte⟩ := ((hw x).roots dd).mpr ⟨hbd, hdir⟩
          have hnn : n ≠ [] := by
            rintro rfl
            have := (root_last hr (.inr ⟨e.1, rfl⟩) hfh).2
            rw [he'] at this; simp at this
          have hnd : isDir fs (inst ++ '/' :: e.1) = false := by
            obtain ⟨m, hm⟩ := get_of_has hfh
            cases m with
            | dir => exact absurd hm hn
            | file c => simp [isDir, stat, statN, hm]
            | link t => exact hnl _ (.inr ⟨_, rfl⟩) (by simp [isLink, hm])
          refine List.mem_flatMap.mpr ⟨t, ht, List.mem_map.mpr ⟨n, ((hw x).files t ht n).mpr ⟨hnn, hns, ?_, ?_⟩, ?_⟩⟩
          · rw [hte, ← he']; exact hfh
          · rw [hte, ← he']; exact hnd
          · rw [hte, ← he']
      · intro hf
        obtain ⟨x, hx, hf⟩ := List.mem_flatMap.mp hf
        obtain ⟨hb, hfh, hnd⟩ := hcb x hx f hf
        obtain ⟨i, hi, hx'⟩ := (mem_expand hr ha x).mp hx
        obtain ⟨_, rx, hrx⟩ := hg i hi x hx'
        obtain ⟨r, rfl⟩ : ∃ r, f = inst ++ '/' :: r := by
          rcases hb with e | ⟨t, e⟩
          · exact ⟨rx, by rw [e, hrx]⟩
          · exact ⟨rx ++ '/' :: t, by rw [e, hrx]; simp⟩
        have hcol : Collected fs (pathCollision o pkg others) inst x (inst ++ '/' :: r) := by
          by_cases hxd : fs.get x = some .dir
          · refine .inr ⟨hxd, hb, ?_, ?_⟩
            · unfold Leaf
              obtain ⟨m, hm⟩ := get_of_has hfh
              rw [hm]
              cases m with
              | dir => exact absurd hm hnd
              | file _ => trivial
              | link _ => trivial
            · rw [hcoll]; rintro ⟨q, hq, _⟩; simp at hq
          · left
            have hxh := (hxs x hx).2
            obtain ⟨m, hm⟩ := get_of_has hxh
            have e : inst ++ '/' :: r = x := by
              rcases hb with e | ⟨t, e⟩
              · exact e
              · exfalso
                have hne : x ≠ [] := by rw [hrx]; simp
                exact hxd (hr.tree x t hne (by rw [← e]; exact hfh))
            refine ⟨e, ?_⟩
            cases m with
            | dir => exact absurd hm hxd
            | file c => left; simp [isFile, stat, statN, hm]
            | link t => right; simp [isLink, hm]
        have hh := (files_exact hr hw ha hg hd r).mpr ⟨i, hi, x, hx', hcol, fun h => by have := h.1; rw [ho] at this; cases this⟩
        unfold Dict.has at hh
        obtain ⟨info, hinfo⟩ := Option.isSome_iff_exists.mp hh
        refine List.mem_map.mpr ⟨(r, info), List.mem_filter.mpr ⟨(Dict.mem_iff_get hu r info).mpr hinfo, ?_⟩, rfl⟩
        simpa [nd] using hnd
    · have h1 : ((d.filter nd).map Prod.fst).Nodup := by
        have : ((d.filter nd).map Prod.fst).Sublist (d.map Prod.fst) := List.filter_sublist.map _
        exact hu.sublist this
      have h2 : ((d.filter nd).map fun e => inst ++ '/' :: e.1) = ((d.filter nd).map Prod.fst).map fun r => inst ++ '/' :: r := by
        rw [List.map_map]; rfl
      rw [h2]
      refine List.Nodup.map_on ?_ h1
      intro a _ b _ e
      simpa using e
  have hsum1 : (d.map fun e => e.2.size).sum = ((d.filter nd).map fun e => e.2.size).sum := by
    clear hperm hsize hhas hd hu
    induction d with
    | nil => rfl
    | cons e d ih =>
      have ih := ih (fun e he => hzero e (by simp [he]))
      by_cases hc : nd e = true
      · rw [List.filter_cons_of_pos hc]; simp [ih]
      · rw [List.filter_cons_of_neg hc]
        have := hzero e (by simp) (by simpa using hc)
        simp [ih, this]
  rw [hsum1]
  have hsum2 : ((d.filter nd).map fun e => e.2.size) =
      ((d.filter nd).map fun e => inst ++ '/' :: e.1).map (dirSize fs walk) := by
    rw [List.map_map]
    apply List.map_congr_left
    intro e he
    exact hsize e (List.mem_filter.mp he).1
  rw [hsum2, (hperm.map _).sum_nat, List.map_flatMap, sum_flatMap]
  unfold installedSize
  congr 1
  apply List.map_congr_left
  intro x hx
  exact dirSize_counted hr hw (hxs x hx).1 hnl

end

/-! ## Concrete cases -/

/-- Names in a directory. -/
def names (fs : FS) (d : Str) (isd : Bool) : List Str :=
  fs.keys.filterMap fun k =>
    if d ++ ['/'] <+: k ∧ k.drop (d.length + 1) ≠ [] ∧ '/' ∉ k.drop (d.length + 1) ∧ isDir fs k = isd then
      some (k.drop (d.length + 1)) else none

/-- One possible result of `os.walk`. -/
def theWalk (fs : FS) (top : Str) : List Triple :=
  (fs.keys.filter fun d => decide ((d = top ∨ top ++ ['/'] <+: d) ∧ fs.get d = some .dir)).map fun d =>
    (d, names fs d true, names fs d false)

/-- `glob` without wild cards. -/
def theGlob (fs : FS) (p : Str) : List Str := if fs.has p then [p] else []

theorem theGlob_literal (fs : FS) : Literal fs (theGlob fs) := by
  intro p x
  unfold theGlob
  by_cases h : fs.has p = true
  · rw [if_pos h]; simp [h]
  · rw [if_neg h]; simp [h]

theorem mem_names (fs : FS) (d n : Str) (b : Bool) : n ∈ names fs d b ↔
    n ≠ [] ∧ '/' ∉ n ∧ fs.has (d ++ '/' :: n) = true ∧ isDir fs (d ++ '/' :: n) = b := by
  unfold names
  rw [List.mem_filterMap]
  constructor
  · rintro ⟨k, hk, h⟩
    split at h
    next hc =>
      obtain ⟨⟨t, rfl⟩, h2, h3, h4⟩ := hc
      have hd : (d ++ ['/'] ++ t).drop (d.length + 1) = t := by
        rw [List.drop_append_of_le_length (by simp)]; simp
      rw [hd] at h h2 h3
      cases h
      have e : d ++ ['/'] ++ n = d ++ '/' :: n := by simp
      rw [e] at hk h4
      exact ⟨h2, h3, (Dict.mem_keys fs _).mp hk, h4⟩
    next => cases h
  · rintro ⟨h1, h2, h3, h4⟩
    have hd : (d ++ '/' :: n).drop (d.length + 1) = n := by
      rw [show d ++ '/' :: n = (d ++ ['/']) ++ n by simp, List.drop_append_of_le_length (by simp)]; simp
    refine ⟨d ++ '/' :: n, (Dict.mem_keys fs _).mpr h3, ?_⟩
    rw [hd, if_pos ⟨⟨n, by simp⟩, h1, h2, h4⟩]

theorem theWalk_walks (fs : FS) : Walks fs (theWalk fs) := by
  intro top
  have hmem : ∀ t, t ∈ theWalk fs top ↔ (Below top t.1 ∧ fs.get t.1 = some .dir) ∧
      t = (t.1, names fs t.1 true, names fs t.1 false) := by
    intro t
    unfold theWalk
    rw [List.mem_map]
    constructor
    · rintro ⟨d, hd, rfl⟩
      obtain ⟨_, h⟩ := List.mem_filter.mp hd
      obtain ⟨h1, h2⟩ := of_decide_eq_true h
      refine ⟨⟨?_, h2⟩, rfl⟩
      rcases h1 with h1 | ⟨r, h1⟩
      · exact .inl h1
      · exact .inr ⟨r, by rw [← h1]; simp⟩
    · rintro ⟨⟨h1, h2⟩, h3⟩
      refine ⟨t.1, List.mem_filter.mpr ⟨(Dict.mem_keys fs _).mpr (has_of_get h2), decide_eq_true ⟨?_, h2⟩⟩, h3.symm⟩
      rcases h1 with h1 | ⟨r, h1⟩
      · exact .inl h1
      · exact .inr ⟨r, by rw [h1]; simp⟩
  refine ⟨fun d => ⟨?_, ?_⟩, ?_, ?_⟩
  · rintro ⟨t, ht, rfl⟩; exact ((hmem t).mp ht).1
  · intro h; exact ⟨(d, names fs d true, names fs d false), (hmem _).mpr ⟨h, rfl⟩, rfl⟩
  · intro t ht n
    rw [((hmem t).mp ht).2]
    exact mem_names fs t.1 n true
  · intro t ht n
    rw [((hmem t).mp ht).2]
    exact mem_names fs t.1 n false

/-- A check for `BuildRoot`. -/
def rootOk (fs : FS) (inst : Str) : Bool :=
  (fs.keys.all fun k => (List.range k.length).all fun i =>
    i = 0 || k[i]? ≠ some '/' || fs.get (k.take i) = some .dir) &&
  inst ≠ [] && inst.getLast? ≠ some '/' &&
  fs.keys.all fun k => !(inst ++ ['/']).isPrefixOf k || (splitOn '/' (k.drop (inst.length + 1))).all (· ≠ [])

theorem rootOk_sound {fs : FS} {inst : Str} (h : rootOk fs inst = true) : BuildRoot fs inst := by
  unfold rootOk at h
  simp only [Bool.and_eq_true, List.all_eq_true, List.mem_range, Bool.or_eq_true, decide_eq_true_eq,
    Bool.not_eq_true'] at h
  obtain ⟨⟨⟨h1, h2⟩, h3⟩, h4⟩ := h
  refine ⟨?_, h2, h3, ?_⟩
  · intro a r ha hh
    have := h1 _ ((Dict.mem_keys fs _).mpr hh) a.length (by simp)
    rcases this with (h | h) | h
    · exact absurd (List.length_eq_zero_iff.mp h) ha
    · simp at h
    · simpa using h
  · intro r hh c hc
    rcases h4 _ ((Dict.mem_keys fs _).mpr hh) with h | h
    · exfalso
      have : (inst ++ ['/']) <+: inst ++ '/' :: r := ⟨r, by simp⟩
      rw [List.isPrefixOf_iff_prefix.mpr this] at h; cases h
    · have hd : (inst ++ '/' :: r).drop (inst.length + 1) = r := by
        rw [show inst ++ '/' :: r = (inst ++ ['/']) ++ r by simp, List.drop_append_of_le_length (by simp)]; simp
      rw [hd] at h
      exact h c hc

theorem names_nodup {fs : FS} (h : fs.keys.Nodup) (d : Str) (b : Bool) : (names fs d b).Nodup := by
  unfold names
  refine List.Nodup.filterMap ?_ h
  intro k k' n h1 h2
  rw [Option.mem_def] at h1 h2
  split at h1
  next hc =>
    split at h2
    next hc' =>
      obtain ⟨t, rfl⟩ := hc.1
      obtain ⟨t', rfl⟩ := hc'.1
      have hd : ∀ t : Str, (d ++ ['/'] ++ t).drop (d.length + 1) = t := by
        intro t; rw [List.drop_append_of_le_length (by simp)]; simp
      rw [hd] at h1 h2
      rw [Option.some.inj h1, Option.some.inj h2]
    next => cases h2
  next => cases h1

theorem theWalk_once {fs : FS} (h : fs.keys.Nodup) : WalkOnce (theWalk fs) := by
  constructor
  · intro top
    unfold theWalk
    rw [List.map_map]
    have : (Prod.fst ∘ fun d => (d, names fs d true, names fs d false)) = (id : Str → Str) := rfl
    rw [this, List.map_id]
    exact h.filter _
  · intro top t ht
    unfold theWalk at ht
    obtain ⟨d, _, rfl⟩ := List.mem_map.mp ht
    exact names_nodup h d false

/-- A build root with `/s/do/x`, `/s/dok`, `/s/e` (empty), `/s/l` (a link). -/
def exFS : FS := [("/i".toList, .dir), ("/i/s".toList, .dir), ("/i/s/do".toList, .dir), ("/i/s/do/x".toList, .file ['1']),
  ("/i/s/dok".toList, .file ['2', '2']), ("/i/s/e".toList, .dir), ("/i/s/l".toList, .link "/t".toList)]

theorem exRoot : BuildRoot exFS "/i".toList := rootOk_sound (by decide)

def exSha : Str → Str := fun c => '#' :: c

def exA : Pkg := ⟨['a'], [⟨"/s".toList, some ['d'], none⟩]⟩
def exB : Pkg := ⟨['b'], [⟨"/s/do".toList, some ['D'], some ['t']⟩]⟩

theorem leaf_file {fs : FS} {f c : Str} (h : fs.get f = some (.file c)) : Leaf fs f := by simp [Leaf, h]

theorem exAbs : AbsPaths exA ∧ AbsPaths exB := by
  constructor <;> intro i hi <;> simp only [exA, exB, List.mem_singleton] at hi <;> subst hi
  · exact ⟨['s'], rfl, by unfold Proper; decide⟩
  · exact ⟨"s/do".toList, rfl, by unfold Proper; decide⟩

/-- The lists of files made for the two packages: `/s/dok` is in neither. -/
def exOut : Nat → Dict Str FileInfo
  | 0 => [("s/e".toList, ⟨"s/e".toList, some ['d'], none, 0, none⟩),
      ("s/l".toList, ⟨"s/l".toList, some ['d'], none, 2, some "#/t".toList⟩)]
  | _ => [("s/do/x".toList, ⟨"s/do/x".toList, some ['D'], some ['t'], 1, some "#1".toList⟩)]

theorem exAll : AllFiles exSha exFS (theWalk exFS) (theGlob exFS) {} "/i".toList [exA, exB] exOut := by
  intro i hi
  match i, hi with
  | 0, _ => rfl
  | 1, _ => rfl

/-- C91 fails: `/usr/share/docbook` is in no package if one lists `/usr/share` and another one `/usr/share/doc`. -/
theorem one_package_refuted : ¬ OnePackage := by
  intro h
  obtain ⟨i, hi, hh, _⟩ := h exSha exFS (theWalk exFS) (theGlob exFS) "/i".toList [exA, exB] exOut exRoot (theWalk_walks _)
    (theGlob_literal _) (by intro p hp; simp at hp; rcases hp with rfl | rfl; exacts [exAbs.1, exAbs.2]) exAll "s/dok".toList
    (leaf_file (c := ['2', '2']) (by decide)) ⟨exA, by simp, _, List.mem_singleton.mpr rfl, .inr ⟨"dok".toList, rfl⟩⟩
  match i, hi with
  | 0, _ => exact absurd hh (by decide)
  | 1, _ => exact absurd hh (by decide)

/-- C93 fails for the same file: it is not reported as left over. -/
theorem abandoned_complete_refuted : ¬ AbandonedComplete := by
  intro h
  have := h exSha exFS (theWalk exFS) (theGlob exFS) "/i".toList [exA, exB] exOut exRoot (theWalk_walks _)
    (theGlob_literal _) (by intro p hp; simp at hp; rcases hp with rfl | rfl; exacts [exAbs.1, exAbs.2]) exAll "s/dok".toList
    ['2', '2'] (by decide) (by
      intro i hi
      match i, hi with
      | 0, _ => decide
      | 1, _ => decide)
  exact absurd this (by decide)

/-- C92 fails for the same file: its type is that of `/usr/share/doc`. -/
theorem type_of_deepest_refuted : ¬ TypeOfDeepest := by
  intro h
  obtain ⟨i, hi, hb, _, ht⟩ := h exFS (theGlob exFS) "/i".toList ⟨['a'], exA.files ++ exB.files⟩ "s/dok".toList exRoot
    (theGlob_literal _) (by
      intro i hi
      rcases List.mem_append.mp hi with hi | hi
      · exact exAbs.1 i hi
      · exact exAbs.2 i hi) (leaf_file (c := ['2', '2']) (by decide)) (by unfold Proper; decide)
    ⟨⟨"/s".toList, some ['d'], none⟩, by simp [exA], .inr ⟨"dok".toList, rfl⟩⟩
  have h2 : fileType (theGlob exFS) "s/dok".toList (exA.files ++ exB.files) "/i".toList = .ok (some ['D'], some ['t']) := rfl
  rw [h2] at ht
  simp only [exA, exB, List.cons_append, List.nil_append, List.mem_cons, List.not_mem_nil, or_false] at hi
  rcases hi with rfl | rfl
  · exact absurd ht (by decide)
  · rcases hb with e | ⟨t, e⟩
    · exact absurd e (by decide)
    · revert e
      simp

/-- The case meets the hypotheses of `one_package_partial` for `/s/do/x` and `/s/l`. -/
example : NoSandwich [exA, exB] ∧ (∀ p ∈ [exA, exB], Clear p "/s/do/x".toList) ∧ (∀ p ∈ [exA, exB], Clear p "/s/l".toList) ∧
    (exOut 1).has "s/do/x".toList = true ∧ (exOut 0).has "s/l".toList = true := by
  refine ⟨?_, ?_, ?_, by decide, by decide⟩
  · intro i j hi hj p hp q hq p' hp' h1 h2
    have nb : ¬ Below "/s/do".toList "/s".toList := by
      rintro (e | ⟨t, e⟩)
      · exact absurd e (by decide)
      · have := congrArg List.length e; simp at this
    match i, j, hi, hj with
    | 0, 0, _, _ => rfl
    | 1, 1, _, _ => rfl
    | 0, 1, _, _ =>
      simp only [List.getElem_cons_zero, List.getElem_cons_succ, exA, exB, List.mem_singleton] at hp hq hp'
      subst hp; subst hq; subst hp'
      exact absurd h2 nb
    | 1, 0, _, _ =>
      simp only [List.getElem_cons_zero, List.getElem_cons_succ, exA, exB, List.mem_singleton] at hp hq hp'
      subst hp; subst hq; subst hp'
      exact absurd h1 nb
  · intro p hp i hi _
    simp only [List.mem_cons, List.not_mem_nil, or_false] at hp
    rcases hp with rfl | rfl <;> simp only [exA, exB, List.mem_singleton] at hi <;> subst hi
    · exact .inr ⟨"do/x".toList, rfl⟩
    · exact .inr ⟨['x'], rfl⟩
  · intro p hp i hi hpre
    simp only [List.mem_cons, List.not_mem_nil, or_false] at hp
    rcases hp with rfl | rfl <;> simp only [exA, exB, List.mem_singleton] at hi <;> subst hi
    · exact .inr ⟨['l'], rfl⟩
    · exact absurd hpre (by decide)

/-- `/s` and `/s/d/y` are listed by one package, `/s/d` by another one: `/s/d/y/z` is in neither. -/
def nestFS : FS := [("/i".toList, .dir), ("/i/s".toList, .dir), ("/i/s/d".toList, .dir), ("/i/s/d/y".toList, .dir),
  ("/i/s/d/y/z".toList, .file ['1'])]
def nestA : Pkg := ⟨['a'], [⟨"/s".toList, none, none⟩, ⟨"/s/d/y".toList, none, none⟩]⟩
def nestB : Pkg := ⟨['b'], [⟨"/s/d".toList, none, none⟩]⟩

/-- C91 fails even if names are no mere beginnings of others: nothing of a directory is packaged if its parent is listed by another
package and the parent of that by the same one. -/
theorem nested_lost : BuildRoot nestFS "/i".toList ∧ Leaf nestFS "/i/s/d/y/z".toList ∧
    (∀ p ∈ [nestA, nestB], Clear p "/s/d/y/z".toList ∧ Lists p "/s/d/y/z".toList) ∧
    genFiles exSha nestFS (theWalk nestFS) (theGlob nestFS) {} nestA [nestB] "/i".toList = .ok [] ∧
    genFiles exSha nestFS (theWalk nestFS) (theGlob nestFS) {} nestB [nestA] "/i".toList = .ok [] := by
  refine ⟨rootOk_sound (by decide), leaf_file (c := ['1']) (by decide), ?_, rfl, rfl⟩
  intro p hp
  simp only [List.mem_cons, List.not_mem_nil, or_false] at hp
  rcases hp with rfl | rfl
  · refine ⟨?_, ⟨_, List.mem_cons_self .., .inr ⟨"d/y/z".toList, rfl⟩⟩⟩
    intro i hi _
    simp only [nestA, List.mem_cons, List.not_mem_nil, or_false] at hi
    rcases hi with rfl | rfl
    · exact .inr ⟨"d/y/z".toList, rfl⟩
    · exact .inr ⟨['z'], rfl⟩
  · refine ⟨?_, ⟨_, List.mem_cons_self .., .inr ⟨"y/z".toList, rfl⟩⟩⟩
    intro i hi _
    simp only [nestB, List.mem_cons, List.not_mem_nil, or_false] at hi
    subst hi
    exact .inr ⟨"y/z".toList, rfl⟩

/-- C91 with wild cards, full statement. -/
def OnePackageGlob : Prop := ∀ (sha : Str → Str) (fs : FS) (walk : Str → List Triple) (glob : Str → List Str) (inst : Str)
  (pkgs : List Pkg) (out : Nat → Dict Str FileInfo), BuildRoot fs inst → Walks fs walk →
  (∀ p ∈ pkgs, AbsPaths p ∧ GlobBelow fs glob inst p) → AllFiles sha fs walk glob {} inst pkgs out →
  ∀ r i j, i < pkgs.length → j < pkgs.length → (out i).has r = true → (out j).has r = true → i = j

def wildFS : FS := [("/i".toList, .dir), ("/i/a".toList, .file ['1'])]
/-- `*` matches `a`. -/
def wildGlob (p : Str) : List Str := if p = "/i/*".toList ∨ p = "/i/a".toList then ["/i/a".toList] else []

/-- C91 fails with wild cards: a file that one package lists by name and another one by a pattern is in both. -/
theorem one_package_glob_refuted : ¬ OnePackageGlob := by
  intro h
  have hg : ∀ p, GlobBelow wildFS wildGlob "/i".toList p := by
    intro p i _ x hx
    unfold wildGlob at hx
    split at hx
    · simp only [List.mem_singleton] at hx
      subst hx
      exact ⟨by decide, ['a'], rfl⟩
    · simp at hx
  have := h exSha wildFS (theWalk wildFS) wildGlob "/i".toList
    [⟨['a'], [⟨"/*".toList, none, none⟩]⟩, ⟨['b'], [⟨"/a".toList, none, none⟩]⟩]
    (fun _ => [(['a'], ⟨['a'], none, none, 1, some "#1".toList⟩)]) (rootOk_sound (by decide)) (theWalk_walks _) (by
      intro p hp
      refine ⟨?_, hg p⟩
      simp only [List.mem_cons, List.not_mem_nil, or_false] at hp
      rcases hp with rfl | rfl <;> intro i hi <;> simp only [List.mem_singleton] at hi <;> subst hi
      · exact ⟨['*'], rfl, by unfold Proper; decide⟩
      · exact ⟨['a'], rfl, by unfold Proper; decide⟩) (by
      intro i hi
      match i, hi with
      | 0, _ => rfl
      | 1, _ => rfl) ['a'] 0 1 (by decide) (by decide) (by decide) (by decide)
  cases this

/-- C95, full statement for links: the hash recorded is that of the target. -/
def LinkHash : Prop := ∀ (sha : Str → Str) (fs : FS) (walk : Str → List Triple) (glob : Str → List Str) (inst : Str) (pkg : Pkg)
  (d : Dict Str FileInfo), BuildRoot fs inst → Walks fs walk → Literal fs glob → AbsPaths pkg →
  genFiles sha fs walk glob {} pkg [] inst = .ok d → ∀ r t info, fs.get (inst ++ '/' :: r) = some (.link t) →
  d.get r = some info → info.hash = some (sha t)

def linkFS : FS := [("/i".toList, .dir), ("/i/l".toList, .link "/f".toList), ("/f".toList, .file ['1'])]

/-- It is the hash of the file on the build host that the link leads to, if the link itself is listed. -/
theorem link_hash_refuted : ¬ LinkHash := by
  intro h
  have := h exSha linkFS (theWalk linkFS) (theGlob linkFS) "/i".toList ⟨['a'], [⟨"/l".toList, none, none⟩]⟩
    [(['l'], ⟨['l'], none, none, 2, some "#1".toList⟩)] (rootOk_sound (by decide)) (theWalk_walks _) (theGlob_literal _) (by
      intro i hi
      simp only [List.mem_singleton] at hi
      subst hi
      exact ⟨['l'], rfl, by unfold Proper; decide⟩) rfl ['l'] "/f".toList _ (by decide) rfl
  exact absurd this (by decide)

/-- The case meets the hypotheses of `files_succeed` and `files_exact`. -/
example : ∀ f, Below "/i".toList f → exFS.get f = some .dir → Leaf exFS f → ¬ arSuffix <:+ f := by
  intro f _ hd _
  have hk := (Dict.mem_keys exFS f).mpr (by rw [hd]; rfl)
  simp only [exFS, Dict.keys, List.map_cons, List.map_nil, List.mem_cons, List.not_mem_nil, or_false] at hk
  rcases hk with rfl | rfl | rfl | rfl | rfl | rfl | rfl <;> decide

/-- A relative path makes the collecting fail. -/
example : genFiles exSha exFS (theWalk exFS) (theGlob exFS) {} ⟨['a'], [⟨"s".toList, none, none⟩]⟩ [] "/i".toList =
    .error .pisi := rfl

/-- So does an empty directory named like an archive. -/
example : genFiles exSha [("/i".toList, .dir), ("/i/x.a".toList, .dir)] (theWalk [("/i".toList, .dir), ("/i/x.a".toList, .dir)])
    (theGlob [("/i".toList, .dir), ("/i/x.a".toList, .dir)]) {} ⟨['a'], [⟨"/x.a".toList, none, none⟩]⟩ [] "/i".toList =
    .error .os := rfl

/-- A static library is left to the static package. -/
def arFS : FS := [("/i".toList, .dir), ("/i/x.a".toList, .file "!<arch>\nx".toList), ("/i/y".toList, .file [])]
example : (genFiles exSha arFS (theWalk arFS) (theGlob arFS) ⟨true, false⟩ ⟨['p'], [⟨"/x.a".toList, none, none⟩, ⟨"/y".toList, none, none⟩]⟩ []
      "/i".toList).toOption.map Dict.keys = some [['y']] ∧
    (genFiles exSha arFS (theWalk arFS) (theGlob arFS) ⟨true, false⟩ ⟨"p-static".toList, [⟨"/x.a".toList, none, none⟩]⟩ []
      "/i".toList).toOption.map Dict.keys = some ["x.a".toList] := ⟨rfl, rfl⟩

def sizeFS : FS := [("/i".toList, .dir), ("/i/s".toList, .dir), ("/i/s/d".toList, .dir), ("/i/s/d/x".toList, .file ['1'])]

/-- C94 fails for a package that lists a directory and one below it: what is below both counts twice. -/
theorem size_sum_refuted : ¬ SizeSum := by
  intro h
  have := h exSha sizeFS (theWalk sizeFS) (theGlob sizeFS) "/i".toList
    ⟨['a'], [⟨"/s".toList, none, none⟩, ⟨"/s/d".toList, none, none⟩]⟩
    [("s/d/x".toList, ⟨"s/d/x".toList, none, none, 1, some "#1".toList⟩)] (rootOk_sound (by decide)) (theWalk_walks _)
    (theWalk_once (by decide)) (theGlob_literal _) (by
      intro i hi
      simp only [List.mem_cons, List.not_mem_nil, or_false] at hi
      rcases hi with rfl | rfl
      · exact ⟨['s'], rfl, by unfold Proper; decide⟩
      · exact ⟨"s/d".toList, rfl, by unfold Proper; decide⟩) rfl
  exact absurd this (by decide)

/-- A link to a directory does not count although it is recorded with a size. -/
example : let fs : FS := [("/i".toList, .dir), ("/i/s".toList, .dir), ("/i/s/l".toList, .link "/i".toList)]
    installedSize fs (theWalk fs) (theGlob fs) ⟨['a'], [⟨"/s".toList, none, none⟩]⟩ "/i".toList = 0 ∧
    genFiles exSha fs (theWalk fs) (theGlob fs) {} ⟨['a'], [⟨"/s".toList, none, none⟩]⟩ [] "/i".toList =
      .ok [("s/l".toList, ⟨"s/l".toList, none, none, 2, some "#/i".toList⟩)] := ⟨rfl, rfl⟩

/-- The case meets the hypotheses of `size_sum_partial`. -/
example : pathCollision {} exA [] = [] ∧ (expand (theGlob exFS) exA "/i".toList).Pairwise (fun x y => ¬ Below x y ∧ ¬ Below y x) ∧
    (∀ f, Below "/i".toList f → isLink exFS f = true → isDir exFS f = false) ∧
    installedSize exFS (theWalk exFS) (theGlob exFS) exA "/i".toList = 5 := by
  refine ⟨rfl, ?_, ?_, rfl⟩
  · have : expand (theGlob exFS) exA "/i".toList = ["/i/s".toList] := rfl
    rw [this]; simp
  · intro f _ hl
    obtain ⟨t, ht⟩ := link_get hl
    have hk := (Dict.mem_keys exFS f).mpr (by rw [ht]; rfl)
    simp only [exFS, Dict.keys, List.map_cons, List.map_nil, List.mem_cons, List.not_mem_nil, or_false] at hk
    rcases hk with rfl | rfl | rfl | rfl | rfl | rfl | rfl
    all_goals first | (exfalso; exact absurd hl (by decide)) | decide

end Pisi.Pack
