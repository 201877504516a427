import Verif.Spec.Cache
import Verif.Lemmas.ActionsCopy
import Verif.Props.ActionsPlace
import Verif.Props.ActionsEffects

/-! # C165: what is left of the cache -/
namespace Pisi.Cache
open Pisi.Act Pisi.CacheSpec
open Pisi.Path (joinPath)

/-- The place a directory is meant to have. -/
def place (c : Cfg) (d : Str) : Loc := absComps c.cwd (Config.subdir c.dest d)

theorem look_rmtree {fs : FS} {p : Loc} (hp : p ≠ []) (q : Loc) :
    look (fs.filter fun e => ¬ p <+: e.1) q = if p <+: q then none else look fs q := by
  unfold look
  by_cases hq : q = []
  · subst hq
    have : ¬ p <+: [] := fun h => hp (List.prefix_nil.mp h)
    simp [this]
  · rw [if_neg hq, if_neg hq]
    induction fs with
    | nil => simp [Dict.get]
    | cons a fs ih =>
      obtain ⟨k, v⟩ := a
      by_cases hk : p <+: k
      · rw [List.filter_cons_of_neg (by simpa using hk), ih]
        by_cases hq' : p <+: q
        · rw [if_pos hq', if_pos hq']
        · rw [if_neg hq', if_neg hq']
          have : k ≠ q := fun e => hq' (e ▸ hk)
          simp [Dict.get, this]
      · rw [List.filter_cons_of_pos (by simpa using hk)]
        by_cases hkq : k = q
        · subst hkq
          rw [if_neg hk]; simp [Dict.get]
        · simp only [Dict.get, if_neg hkq]
          exact ih

theorem absComps_rstrip (cwd : Str) {d : Str} (h0 : comps d ≠ []) :
    Path.rstrip (· = '/') d ≠ [] ∧ absComps cwd (Path.rstrip (· = '/') d) = absComps cwd d := by
  have h1 : Path.rstrip (· = '/') d ≠ [] := fun h => h0 (by rw [← comps_rstrip, h, comps_nil])
  refine ⟨h1, ?_⟩
  have hp : Path.rstrip (· = '/') d <+: d := by
    unfold Path.rstrip
    rw [← List.reverse_suffix, List.reverse_reverse]
    exact List.dropWhile_suffix _
  have : isAbs (Path.rstrip (· = '/') d) = isAbs d := by
    obtain ⟨t, ht⟩ := hp
    cases hr : Path.rstrip (· = '/') d with
    | nil => exact absurd hr h1
    | cons a r =>
      rw [hr] at ht
      rw [← ht]
      rfl
  unfold absComps
  rw [this, comps_rstrip]

/-- One directory: made if it is not there, and removed. -/
theorem one {cwd d : Str} {fs : FS} (hs : Pack.strip d = d) (hl : LinkFree fs) (hR : Rooted fs) (hd : dotdot ∉ absComps cwd d)
    (h0 : comps d ≠ []) (hnf : NoFileAbove fs (absComps cwd d)) :
    ∃ fs', seq (checkDir cwd d) (cleanDir cwd d) fs = (fs', .ok ()) ∧ LinkFree fs' ∧ Rooted fs' ∧
      ∀ q, look fs' q = if absComps cwd d <+: q then none else if q <+: absComps cwd d then some .dir else look fs q := by
  obtain ⟨hr, hc⟩ := absComps_rstrip cwd h0
  have hne : absComps cwd d ≠ [] := by
    unfold absComps
    split
    · exact h0
    · simp [h0]
  generalize hcs : absComps cwd d = cs at *
  -- after `check_dir` everything on the way is a directory
  have hmk : ∃ f, checkDir cwd d fs = (f, .ok ()) ∧ LinkFree f ∧ ∀ q, look f q = if q <+: cs then some .dir else look fs q := by
    unfold checkDir
    rw [hs]
    dsimp only
    rw [hc]
    by_cases hex : existsC fs cs
    · rw [if_pos ⟨hr, hex⟩]
      refine ⟨fs, rfl, hl, fun q => ?_⟩
      obtain ⟨n, hst⟩ := Option.isSome_iff_exists.mp hex
      obtain ⟨h1, h2⟩ := (stat_iff hl hd n).mp hst
      by_cases hq : q <+: cs
      · rw [if_pos hq]
        by_cases he : q = cs
        · subst he
          rw [h2]
          cases n with
          | dir => rfl
          | file c => exact absurd h2 (hnf _ hq c)
          | link t => exact absurd h2 (look_not_link hl _ _)
        · exact h1 q hq he
      · rw [if_neg hq]
    · rw [if_neg (fun h => hex h.2)]
      have hno : look fs cs = none := by
        cases hlk : look fs cs with
        | none => rfl
        | some n =>
          refine absurd ?_ hex
          have : stat fs cs = some n := (stat_iff hl hd n).mpr ⟨hR _ (by rw [hlk]; simp), hlk⟩
          unfold existsC
          rw [this]; rfl
      obtain ⟨f, hf⟩ := makedirsC_ok cs [] fs hl (by simpa using hd) hne (by simp [look]) (by intro q hq hq'; simp at hq; exact absurd hq hq')
        (by simpa [NoFileAbove] using hnf) (by simpa using hno)
      obtain ⟨h1, h2⟩ := makedirsC_exact cs [] fs f hl (by simpa using hd) hf
      refine ⟨f, hf, h1, fun q => ?_⟩
      rw [h2 q]
      by_cases hq : q <+: cs
      · rw [if_pos hq]
        by_cases hq0 : q = []
        · subst hq0; simp [look]
        · cases hlk : look fs q with
          | none => simp [hq, hq0]
          | some n =>
            simp only [reduceCtorEq, and_false, if_false]
            cases n with
            | dir => rfl
            | file c => exact absurd hlk (hnf _ hq c)
            | link t => exact absurd hlk (look_not_link hl _ _)
      · simp [hq]
  obtain ⟨f, hf, hlf, hlk⟩ := hmk
  have hrd : Reached f cs := fun q hq _ => by rw [hlk, if_pos hq]
  have hcd : look f cs = some .dir := by rw [hlk, if_pos List.prefix_rfl]
  refine ⟨f.filter fun e => ¬ cs <+: e.1, ?_, linkFree_filter hlf _, ?_, ?_⟩
  · unfold seq
    rw [hf]
    dsimp only
    unfold cleanDir
    rw [hcs, if_pos]
    · unfold call rmtreeC
      rw [(lresolve_iff hlf hd cs).mpr ⟨rfl, hrd⟩]
      dsimp only
      rw [if_pos ⟨hcd, hne⟩]
    · unfold existsC
      rw [(stat_iff hlf hd .dir).mpr ⟨hrd, hcd⟩]; rfl
  · intro p hp q hq hqp
    rw [look_rmtree hne] at hp ⊢
    by_cases h1 : cs <+: p
    · rw [if_pos h1] at hp; exact absurd rfl hp
    · rw [if_neg h1, hlk] at hp
      have h2 : ¬ cs <+: q := fun h => h1 (h.trans hq)
      rw [if_neg h2, hlk]
      by_cases h3 : q <+: cs
      · rw [if_pos h3]
      · rw [if_neg h3]
        have h4 : ¬ p <+: cs := fun h => h3 (hq.trans h)
        rw [if_neg h4] at hp
        exact hR p hp q hq hqp
  · intro q
    rw [look_rmtree hne, hlk]

/-- What is wanted: the command succeeds, what is in the three directories is gone and nothing else is changed. -/
def DeleteCacheFull : Prop := ∀ (c : Cfg) (fs : FS), Rooted fs →
  (∀ d ∈ [c.packages, c.archives, c.tmp], Pack.strip (Config.subdir c.dest d) = Config.subdir c.dest d ∧
    dotdot ∉ place c d ∧ comps (Config.subdir c.dest d) ≠ [] ∧ NoFileAbove fs (place c d)) →
  ∃ fs', deleteCache c fs = (fs', .ok ()) ∧ Emptied ([c.packages, c.archives, c.tmp].map (place c)) fs fs'

/-- C165: true when there are no symbolic links and the directory for temporary files can be written to. -/
theorem deleteCache_partial (c : Cfg) (fs : FS) (hR : Rooted fs) (hl : LinkFree fs) (hw : c.writable = true)
    (hd : ∀ d ∈ [c.packages, c.archives, c.tmp], Pack.strip (Config.subdir c.dest d) = Config.subdir c.dest d ∧
      dotdot ∉ place c d ∧ comps (Config.subdir c.dest d) ≠ [] ∧ NoFileAbove fs (place c d)) :
    ∃ fs', deleteCache c fs = (fs', .ok ()) ∧ Emptied ([c.packages, c.archives, c.tmp].map (place c)) fs fs' := by
  obtain ⟨a1, a2, a3, a4⟩ := hd c.packages (by simp)
  obtain ⟨b1, b2, b3, b4⟩ := hd c.archives (by simp)
  obtain ⟨c1, c2, c3, c4⟩ := hd c.tmp (by simp)
  obtain ⟨f1, e1, l1, r1, k1⟩ := one a1 hl hR a2 a3 a4
  have nf : ∀ {f g : FS} {a b : Loc}, NoFileAbove f b →
      (∀ q, look g q = if a <+: q then none else if q <+: a then some .dir else look f q) → NoFileAbove g b := by
    intro f g a b h hk q hq x
    rw [hk]
    split
    · simp
    · split
      · simp
      · exact h q hq x
  obtain ⟨f2, e2, l2, r2, k2⟩ := one b1 l1 r1 b2 b3 (nf b4 k1)
  obtain ⟨f3, e3, l3, r3, k3⟩ := one c1 l2 r2 c2 c3 (nf (nf c4 k1) k2)
  refine ⟨f3, ?_, ?_⟩
  · unfold deleteCache
    rw [show Config.tmpDir c.dest c.tmp c.writable c.user = Config.subdir c.dest c.tmp by rw [hw]; rfl]
    have hseq : ∀ {a b k : Act} {f g : FS}, seq a b f = (g, .ok ()) → seq a (seq b k) f = k g := by
      intro a b k f g h
      unfold seq at h ⊢
      generalize a f = r at h ⊢
      obtain ⟨s, x⟩ := r
      cases x with
      | error e => simp at h
      | ok u => cases u; dsimp only at h ⊢; rw [h]
    rw [hseq e1, hseq e2, e3]
  · intro q
    simp only [List.map_cons, List.map_nil, List.mem_cons, List.not_mem_nil, or_false, exists_eq_or_imp, exists_eq_left]
    have k1 := k1 q
    have k2 := k2 q
    have k3 := k3 q
    have neq : ∀ {a : Loc}, ¬ a <+: q → q ≠ a := fun h e => h (e ▸ List.prefix_rfl)
    change look f1 q = if place c c.packages <+: q then none else if q <+: place c c.packages then some .dir else look fs q at k1
    change look f2 q = if place c c.archives <+: q then none else if q <+: place c c.archives then some .dir else look f1 q at k2
    change look f3 q = if place c c.tmp <+: q then none else if q <+: place c c.tmp then some .dir else look f2 q at k3
    have na : ∀ {d : Loc}, NoFileAbove fs d → q <+: d → look fs q = none ∨ look fs q = some .dir := by
      intro d h hq
      cases hlk : look fs q with
      | none => exact Or.inl rfl
      | some n => cases n with
        | dir => exact Or.inr rfl
        | file x => exact absurd hlk (h q hq x)
        | link t => exact absurd hlk (look_not_link hl _ _)
    have mid : ∀ {d : Loc}, NoFileAbove fs d → q <+: d → look f3 q = some .dir →
        (q <+: place c c.packages ∨ q <+: place c c.archives ∨ q <+: place c c.tmp) → look f3 q = look fs q ∨ look fs q = none ∧
          look f3 q = some .dir ∧ (q <+: place c c.packages ∨ q <+: place c c.archives ∨ q <+: place c c.tmp) := by
      intro d h hq h3 ho
      rcases na h hq with h' | h'
      · exact Or.inr ⟨h', h3, ho⟩
      · exact Or.inl (by rw [h3, h'])
    by_cases t1 : place c c.tmp <+: q
    · rw [if_pos (Or.inr (Or.inr t1)), k3, if_pos t1]; exact Or.inl rfl
    rw [if_neg t1] at k3
    by_cases t2 : q <+: place c c.tmp
    · rw [if_pos t2] at k3
      split
      · exact Or.inr ⟨k3, Or.inr (Or.inr ⟨t2, neq t1⟩)⟩
      · exact mid c4 t2 k3 (Or.inr (Or.inr t2))
    rw [if_neg t2] at k3
    by_cases t3 : place c c.archives <+: q
    · rw [if_pos (Or.inr (Or.inl t3)), k3, k2, if_pos t3]; exact Or.inl rfl
    rw [if_neg t3] at k2
    by_cases t4 : q <+: place c c.archives
    · rw [if_pos t4] at k2
      rw [k2] at k3
      split
      · exact Or.inr ⟨k3, Or.inr (Or.inl ⟨t4, neq t3⟩)⟩
      · exact mid b4 t4 k3 (Or.inr (Or.inl t4))
    rw [if_neg t4] at k2
    by_cases t5 : place c c.packages <+: q
    · rw [if_pos (Or.inl t5), k3, k2, k1, if_pos t5]; exact Or.inl rfl
    rw [if_neg t5] at k1
    rw [if_neg (by rintro (h | h | h) <;> contradiction)]
    by_cases t6 : q <+: place c c.packages
    · rw [if_pos t6] at k1
      rw [k2, k1] at k3
      exact mid a4 t6 k3 (Or.inl t6)
    rw [if_neg t6] at k1
    exact Or.inl (by rw [k3, k2, k1])

/-- Where the directory of packages is a symbolic link to a directory, nothing at all is removed: the command ends with `OSError`. -/
theorem deleteCache_link (c : Cfg) (fs : FS) (hs : Pack.strip (Config.subdir c.dest c.packages) = Config.subdir c.dest c.packages)
    (h0 : comps (Config.subdir c.dest c.packages) ≠ []) (hx : existsC fs (place c c.packages) = true)
    (hk : isLinkC fs (place c c.packages) = true) : deleteCache c fs = (fs, .error .os) := by
  obtain ⟨hr, hc⟩ := absComps_rstrip c.cwd h0
  have h1 : checkDir c.cwd (Config.subdir c.dest c.packages) fs = (fs, .ok ()) := by
    unfold checkDir
    rw [hs]
    dsimp only
    rw [hc, if_pos ⟨hr, hx⟩]
  have h2 : cleanDir c.cwd (Config.subdir c.dest c.packages) fs = (fs, .error .os) := by
    unfold cleanDir
    change (if existsC fs (place c c.packages) = true then _ else _) = _
    rw [if_pos hx]
    change call (rmtreeC (place c c.packages)) fs = _
    unfold isLinkC lstat at hk
    unfold call rmtreeC
    cases hl : lresolve fs (place c c.packages) with
    | none => rfl
    | some p =>
      rw [hl] at hk
      dsimp only [Option.bind_some] at hk ⊢
      cases hp : look fs p with
      | none => rw [hp] at hk; cases hk
      | some n => cases n with
        | link t => simp
        | file x => rw [hp] at hk; cases hk
        | dir => rw [hp] at hk; cases hk
  unfold deleteCache
  rw [seq, h1]
  dsimp only
  rw [seq, h2]

/-- Where `USER` may not write to the directory for temporary files, it is left as it is, or made: only the directory of that user in
`/tmp` is removed. -/
theorem deleteCache_tmp (c : Cfg) (hw : c.writable = false) : deleteCache c =
    seq (checkDir c.cwd (Config.subdir c.dest c.packages)) (seq (cleanDir c.cwd (Config.subdir c.dest c.packages))
      (seq (checkDir c.cwd (Config.subdir c.dest c.archives)) (seq (cleanDir c.cwd (Config.subdir c.dest c.archives))
        (seq (checkDir c.cwd (Config.subdir c.dest c.tmp)) (cleanDir c.cwd ("/tmp/pisi-".toList ++ c.user.getD "root".toList)))))) := by
  unfold deleteCache Config.tmpDir
  rw [hw]
  cases c.user <;> rfl

/-- A computer with `/v/p` (packages), `/v/a` (archives) and `/t`. -/
def here : Cfg := ⟨['/'], ['/'], "/v/p".toList, "/v/a".toList, "/t".toList, true, none⟩
def disk : FS := [([['v']], .dir), ([['v'], ['p']], .dir), ([['v'], ['p'], ['x']], .file ['1']), ([['t']], .dir), ([['k']], .file ['2'])]
/-- The same where the packages are on another disk. -/
def linked : FS := [([['v']], .dir), ([['v'], ['p']], .link ['/', 'b']), ([['b']], .dir), ([['b'], ['x']], .file ['1']), ([['t']], .dir)]

theorem deleteCache_refuted : ¬ DeleteCacheFull := by
  intro h
  have hall : ∀ d ∈ [here.packages, here.archives, here.tmp], Pack.strip (Config.subdir here.dest d) = Config.subdir here.dest d ∧
      dotdot ∉ place here d ∧ comps (Config.subdir here.dest d) ≠ [] ∧ NoFileAbove linked (place here d) := by
    intro d hd
    have hp : ∀ d ∈ [here.packages, here.archives, here.tmp], Pack.strip (Config.subdir here.dest d) = Config.subdir here.dest d ∧
      dotdot ∉ place here d ∧ comps (Config.subdir here.dest d) ≠ [] ∧
        ∀ q ∈ (List.range 4).map (place here d).take, (match look linked q with | some (.file _) => false | _ => true) = true := by
      decide +kernel
    obtain ⟨h1, h2, h3, h4⟩ := hp d hd
    refine ⟨h1, h2, h3, fun q hq c hc => ?_⟩
    have hlen : (place here d).length < 4 := by
      have : ∀ d ∈ [here.packages, here.archives, here.tmp], (place here d).length < 4 := by decide +kernel
      exact this d hd
    have := h4 q (List.mem_map.mpr ⟨q.length, List.mem_range.mpr (Nat.lt_of_le_of_lt hq.length_le hlen), (List.prefix_iff_eq_take.mp hq).symm⟩)
    rw [hc] at this
    cases this
  obtain ⟨fs', h1, -⟩ := h here linked (rooted_of (by decide +kernel)) hall
  rw [deleteCache_link here linked (by decide +kernel) (by decide +kernel) (by decide +kernel) (by decide +kernel)] at h1
  cases h1

example : ∃ fs', deleteCache here disk = (fs', .ok ()) ∧ look fs' [['v'], ['p'], ['x']] = none ∧ look fs' [['v'], ['p']] = none ∧
    look fs' [['t']] = none ∧ look fs' [['v'], ['a']] = none ∧ look fs' [['k']] = some (.file ['2']) := by
  refine ⟨(deleteCache here disk).1, ?_, ?_⟩ <;> decide +kernel

end Pisi.Cache
