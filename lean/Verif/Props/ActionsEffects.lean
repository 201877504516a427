import Verif.Lemmas.ActionsExact
import Verif.Props.Actions

/-! # C114–C117: what the calls of actions scripts do -/
namespace Pisi.Act
open Pisi.Path (joinPath joinStep lstripSlash)

/-! ## C114: insinto -/

/-- **C114**, in full: after an `insinto` that reports no error every file that matched is in the package under its name. -/
def InsintoFull : Prop := ∀ (e : Env) (fs fs1 fs' : FS) (dst src : Str) (sym : Bool), e.Fit → Tidy fs → LinkFree fs →
  Rooted fs → Reached fs (comps e.inst) → NoUp dst → (comps src).getLast? ≠ some dotdot → e.ignore = false →
  makedirs e (joinPath e.inst [dst]) fs = (fs1, .ok ()) → insinto e dst src [] sym fs = (fs', .ok ()) →
  ∀ p ∈ glob fs1 e.cwd src, ¬ comps e.inst <+: e.cs p → dotdot ∉ e.cs p → ∀ c, look fs (e.cs p) = some (.file c) →
    look fs' (comps e.inst ++ comps dst ++ comps (basename p)) = some (.file c)

theorem seq_ok {a b : Act} {fs fs' : FS} (h : seq a b fs = (fs', .ok ())) : ∃ f, a fs = (f, .ok ()) ∧ b f = (fs', .ok ()) := by
  unfold seq at h
  cases hr : a fs with
  | mk f r =>
    rw [hr] at h
    cases r with
    | ok _ => exact ⟨f, rfl, h⟩
    | error x => simp at h

theorem glob_plain {fs : FS} {cwd p : Str} (hm : hasMagic p = false) (hb : basename p ≠ []) :
    glob fs cwd p = if lexistsC fs (absComps cwd p) then [p] else [] := by
  unfold glob globN
  dsimp only
  rw [if_pos hm, if_pos hb]

/-- A copy changes nothing but its destination. -/
theorem copy_frame {e : Env} {src dst : Str} {sym : Bool} {fs : FS} (hs : (comps src).getLast? ≠ some dotdot)
    (ha : isAbs dst = true) (hp : ∀ c ∈ e.cs dst, Proper c) (hl : LinkFree fs) (ht : Tidy fs) (hw : Reached fs (e.cs dst)) :
    Inv (e.cs dst) fs (copy e src dst sym fs).1 :=
  copy_pres hs ha ⟨hp, List.prefix_rfl⟩ fs ⟨hl, ht, hw, fun _ _ => rfl⟩

/-- The copy of a file. -/
theorem copy_file {e : Env} {p dst c : Str} {sym : Bool} {fs fs' : FS} (hm : hasMagic p = false) (hb : basename p ≠ [])
    (hl : LinkFree fs) (hd : dotdot ∉ e.cs dst) (hdp : dotdot ∉ e.cs p) (hr : Reached fs (e.cs p))
    (hc : look fs (e.cs p) = some (.file c)) (hnd : look fs (e.cs dst) ≠ some .dir) (hi : e.ignore = false)
    (hok : copy e p dst sym fs = (fs', .ok ())) : look fs' (e.cs dst) = some (.file c) := by
  unfold copy at hok
  have hls : lstat fs (e.cs p) = some (.file c) := (lstat_iff hl hdp _).mpr ⟨hr, hc⟩
  have hst : stat fs (e.cs p) = some (.file c) := (stat_iff hl hdp _).mpr ⟨hr, hc⟩
  have hg : glob fs e.cwd p = [p] := by
    rw [glob_plain hm hb, if_pos]
    unfold lexistsC
    show (lstat fs (e.cs p)).isSome = true
    rw [hls]; rfl
  rw [hg] at hok
  obtain ⟨f, h1, h2⟩ := seq_ok hok
  have : f = fs' := by simpa [each, skip] using h2
  subst this
  unfold copyOne at h1
  dsimp only at h1
  rw [hls] at h1
  dsimp only at h1
  have hif : isFileC fs (e.cs p) = true := by unfold isFileC; rw [hst]
  rw [if_pos hif] at h1
  have h3 := catching_ok (error_ne hi) h1
  unfold shutilCopy at h3
  dsimp only at h3
  have hdir : ¬ isDirC fs (absComps e.cwd dst) = true := fun h => hnd ((isDirC_iff hl hd).mp h).2
  rw [if_neg hdir] at h3
  unfold call at h3
  split at h3
  · rename_i f2 hf2
    simp only [Prod.mk.injEq, and_true] at h3
    subst h3
    unfold copyFile at hf2
    split at hf2
    · cases hf2
    · change stat fs (absComps e.cwd p) = some (.file c) at hst
      rw [hst] at hf2
      dsimp only at hf2
      unfold writeC at hf2
      split at hf2
      · rename_i q hq
        obtain ⟨rfl, _⟩ := (resolve_iff hl hd q).mp hq
        split at hf2
        · cases hf2
        · simp only [Except.ok.injEq] at hf2
          subst hf2
          have hne : e.cs dst ≠ [] := by
            intro h0; apply hnd; rw [h0]; rfl
          rw [look_put hne, if_pos rfl]
      · cases hf2
  · simp at h3

theorem prefix_same_length {a b : List Str} (h : a <+: b) (hl : a.length = b.length) : a = b :=
  List.IsPrefix.eq_of_length h hl

/-- **C114** for files whose names have no wild cards, come from outside the install directory, differ from one another, and find no
directory in their place. -/
theorem insinto_partial (e : Env) (fs fs1 fs' : FS) (dst src : Str) (sym : Bool) (hf : e.Fit) (ht : Tidy fs) (hl : LinkFree fs)
    (hR : Rooted fs) (hw : Reached fs (comps e.inst)) (hd : NoUp dst) (hsrc : (comps src).getLast? ≠ some dotdot)
    (hi : e.ignore = false) (hmk : makedirs e (joinPath e.inst [dst]) fs = (fs1, .ok ()))
    (hok : insinto e dst src [] sym fs = (fs', .ok ()))
    (hplain : ∀ p ∈ glob fs1 e.cwd src, hasMagic p = false ∧ ¬ comps e.inst <+: e.cs p)
    (hdiff : (glob fs1 e.cwd src).Pairwise fun p q => basename p ≠ basename q)
    (hnd : ∀ p ∈ glob fs1 e.cwd src, look fs1 (comps e.inst ++ comps dst ++ comps (basename p)) ≠ some .dir)
    (hproper : ∀ p ∈ glob fs1 e.cwd src, Proper (basename p))
    (hDf : ∀ c, look fs (comps e.inst ++ comps dst) ≠ some (.file c)) :
    ∀ p ∈ glob fs1 e.cwd src, dotdot ∉ e.cs p → ∀ c, look fs (e.cs p) = some (.file c) →
      look fs' (comps e.inst ++ comps dst ++ comps (basename p)) = some (.file c) := by
  have hgD := good_inst hf hd
  have hnoD : dotdot ∉ e.cs (joinPath e.inst [dst]) := hgD.noup
  have hex := makedirs_exact hl hnoD hi hmk
  have hre := makedirs_reached hl hnoD hi hmk
  have hinv1 : Inv (comps e.inst) fs fs1 := by
    have := makedirs_pres (fs0 := fs) hgD fs ⟨hl, ht, hw, fun _ _ => rfl⟩
    rwa [hmk] at this
  rw [cs_join _ hf.abs] at hre
  have hDp : ∀ c ∈ comps e.inst ++ comps dst, Proper c := fun c hc =>
    (List.mem_append.mp hc).elim (comps_good hf.noup c) (comps_good hd c)
  obtain ⟨f1, h1, h2⟩ := seq_ok hok
  rw [hmk] at h1
  simp only [Prod.mk.injEq, and_true] at h1
  subst h1
  rw [if_pos rfl] at h2
  have hfit : ∀ p ∈ glob fs1 e.cwd src, (comps p).getLast? ≠ some dotdot :=
    fun p hp => fits_last (glob_fits hinv1.tidy hp).2 hsrc
  -- the destination directory, if it is one
  have key : ∀ (ps : List Str) (f : FS), (∀ p ∈ ps, hasMagic p = false ∧ ¬ comps e.inst <+: e.cs p) →
      (∀ p ∈ ps, Proper (basename p)) → (∀ p ∈ ps, (comps p).getLast? ≠ some dotdot) →
      ps.Pairwise (fun p q => basename p ≠ basename q) → LinkFree f → Tidy f →
      (∀ p ∈ ps, Reached f (comps e.inst ++ comps dst ++ comps (basename p))) →
      (∀ p ∈ ps, look f (comps e.inst ++ comps dst ++ comps (basename p)) ≠ some .dir) →
      SameOutside (comps e.inst) fs f →
      each (fun p => fun fs =>
        if existsC fs (e.cs p) then copy e p (joinPath e.inst [joinPath dst [basename p]]) sym fs else (fs, .ok ())) ps f =
        (fs', .ok ()) →
      (∀ p ∈ ps, dotdot ∉ e.cs p → ∀ c, look fs (e.cs p) = some (.file c) →
        look fs' (comps e.inst ++ comps dst ++ comps (basename p)) = some (.file c)) ∧
      ∀ b, Proper b → b ∉ ps.map basename → look fs' (comps e.inst ++ comps dst ++ [b]) = look f (comps e.inst ++ comps dst ++ [b]) := by
    intro ps
    induction ps with
    | nil =>
      intro f _ _ _ _ _ _ _ _ _ h
      have : f = fs' := by simpa [each, skip] using h
      subst this
      exact ⟨by simp, fun _ _ _ => rfl⟩
    | cons p ps ih =>
      intro f hpl hpr hla hpw hfl hft hrd hnd hso h
      have hall := hpl
      obtain ⟨g, hg1, hg2⟩ := seq_ok h
      have hb : basename p ≠ [] := (hpr p List.mem_cons_self).1
      have hcb : comps (basename p) = [basename p] := comps_proper (hpr p List.mem_cons_self)
      have hdest : e.cs (joinPath e.inst [joinPath dst [basename p]]) = comps e.inst ++ comps dst ++ comps (basename p) := by
        rw [cs_join _ hf.abs, comps_join1, List.append_assoc]
      have hgp : ∀ c ∈ comps e.inst ++ comps dst ++ comps (basename p), Proper c := by
        intro c hc
        rcases List.mem_append.mp hc with hc | hc
        · exact hDp c hc
        · rw [hcb] at hc; simp at hc; subst hc; exact hpr p List.mem_cons_self
      have hinv : Inv (comps e.inst ++ comps dst ++ comps (basename p)) f g := by
        dsimp only at hg1
        split at hg1
        · have := copy_frame (e := e) (sym := sym) (fs := f) (src := p) (dst := joinPath e.inst [joinPath dst [basename p]])
            (hla p List.mem_cons_self) (isAbs_join1 _ hf.abs) (by rw [hdest]; exact hgp) hfl hft
            (by rw [hdest]; exact hrd p List.mem_cons_self)
          rw [hdest, hg1] at this
          exact this
        · simp only [Prod.mk.injEq, and_true] at hg1
          subst hg1
          exact ⟨hfl, hft, hrd p List.mem_cons_self, fun _ _ => rfl⟩
      -- other names
      have hother : ∀ b, b ≠ basename p → ∀ q, q <+: comps e.inst ++ comps dst ++ [b] →
          ¬ comps e.inst ++ comps dst ++ comps (basename p) <+: q := by
        intro b hbn q hq hpq
        have := hpq.trans hq
        rw [hcb] at this
        have := prefix_same_length this (by simp)
        simp only [List.append_cancel_left_eq, List.cons.injEq, and_true] at this
        exact hbn this.symm
      have hpw' := List.pairwise_cons.mp hpw
      have hcbs : ∀ q ∈ ps, comps (basename q) = [basename q] := fun q hq => comps_proper (hpr q (List.mem_cons_of_mem _ hq))
      obtain ⟨i1, i2⟩ := ih g (fun q hq => hpl q (List.mem_cons_of_mem _ hq)) (fun q hq => hpr q (List.mem_cons_of_mem _ hq))
        (fun q hq => hla q (List.mem_cons_of_mem _ hq)) hpw'.2 hinv.free hinv.tidy
        (by
          intro q hq r hr hrn
          rw [hcbs q hq] at hr hrn
          rw [hinv.frame r (hother _ (fun h => hpw'.1 q hq h.symm) r hr)]
          have := hrd q (List.mem_cons_of_mem _ hq)
          rw [hcbs q hq] at this
          exact this r hr hrn)
        (by
          intro q hq
          rw [hcbs q hq, hinv.frame _ (hother _ (fun h => hpw'.1 q hq h.symm) _ List.prefix_rfl)]
          have := hnd q (List.mem_cons_of_mem _ hq)
          rwa [hcbs q hq] at this)
        (by
          intro r hr
          rw [hinv.frame r (fun h => hr (((List.prefix_append _ _).trans (List.prefix_append _ _)).trans h))]
          exact hso r hr)
        hg2
      refine ⟨?_, ?_⟩
      · intro q hq hqd c hc
        rcases List.mem_cons.mp hq with rfl | hq
        · have hnotin : basename q ∉ ps.map basename := by
            intro hm
            obtain ⟨r, hr, hrb⟩ := List.mem_map.mp hm
            exact hpw'.1 r hr hrb.symm
          rw [hcb, i2 _ (hpr q List.mem_cons_self) hnotin]
          have hsame : ∀ r, r <+: e.cs q → look f r = look fs r := by
            intro r hr
            exact hso r (fun h => (hpl q List.mem_cons_self).2 (h.trans hr))
          have hrq : Reached f (e.cs q) := by
            intro r hr hrn
            rw [hsame r hr]
            exact hR (e.cs q) (by rw [hc]; simp) r hr hrn
          have hlq : look f (e.cs q) = some (.file c) := by rw [hsame _ List.prefix_rfl, hc]
          dsimp only at hg1
          have hexq : existsC f (e.cs q) = true := by
            unfold existsC; rw [(stat_iff hfl hqd _).mpr ⟨hrq, hlq⟩]; rfl
          rw [if_pos hexq] at hg1
          have := copy_file (hpl q List.mem_cons_self).1 hb hfl (by
              rw [hdest]; intro hx; exact (hgp _ hx).2.2.1 rfl) hqd hrq hlq
            (by rw [hdest]; exact hnd q List.mem_cons_self) hi hg1
          rw [hdest, hcb] at this
          exact this
        · exact i1 q hq hqd c hc
      · intro b hbp hbn
        simp only [List.map_cons, List.mem_cons, not_or] at hbn
        rw [i2 b hbp hbn.2]
        exact hinv.frame _ (hother b hbn.1 _ List.prefix_rfl)
  refine (key _ fs1 (fun p hp => ⟨(hplain p hp).1, (hplain p hp).2⟩) hproper hfit hdiff hinv1.free hinv1.tidy ?_ hnd hinv1.frame h2).1
  intro p hp q hq hne
  rw [comps_proper (hproper p hp)] at hq hne
  -- the directory the file goes to
  by_cases hqd : q = comps e.inst ++ comps dst
  · subst hqd
    rw [hex.2]
    split
    · rfl
    · rename_i hn
      rw [cs_join _ hf.abs] at hn
      have hsome : look fs (comps e.inst ++ comps dst) ≠ none := fun h0 => hn ⟨List.prefix_rfl, h0⟩
      cases hlk : look fs (comps e.inst ++ comps dst) with
      | none => exact absurd hlk hsome
      | some n => cases n with
        | dir => rfl
        | file c => exact absurd hlk (hDf c)
        | link t => exact absurd hlk (look_not_link hl _ _)
  · refine hre q ?_ hqd
    obtain ⟨t, ht⟩ := hq
    rcases List.eq_nil_or_concat t with rfl | ⟨t', y, rfl⟩
    · rw [List.append_nil] at ht; exact absurd ht hne
    · refine ⟨t', ?_⟩
      have := congrArg List.dropLast ht
      rw [List.concat_eq_append, ← List.append_assoc, List.dropLast_concat, List.dropLast_concat] at this
      exact this

theorem rooted_of {fs : FS} (h : ∀ n ∈ fs, ∀ i, i < n.1.length → look fs (n.1.take i) = some .dir) : Rooted fs := by
  intro p hp q hq hne
  have hm : p = [] ∨ ∃ n, (p, n) ∈ fs := by
    unfold look at hp
    split at hp
    · left; assumption
    · obtain ⟨n, hn⟩ := Option.ne_none_iff_exists'.mp hp
      exact Or.inr ⟨n, get_mem hn⟩
  rcases hm with rfl | ⟨n, hn⟩
  · simp at hq; exact absurd hq hne
  · have hlt : q.length < p.length :=
      Nat.lt_of_le_of_ne hq.length_le (fun h => hne (List.IsPrefix.eq_of_length hq h))
    have := h (p, n) hn q.length hlt
    rw [List.prefix_iff_eq_take.mp hq]; exact this

theorem reached_of {fs : FS} {p : Loc} (h : ∀ i, i < p.length → look fs (p.take i) = some .dir) : Reached fs p := by
  intro q hq hne
  have hlt : q.length < p.length :=
    Nat.lt_of_le_of_ne hq.length_le (fun h => hne (List.IsPrefix.eq_of_length hq h))
  rw [List.prefix_iff_eq_take.mp hq]; exact h _ hlt

theorem linkFree_of {fs : FS} (h : ∀ n ∈ fs, (match n.2 with | .link _ => false | _ => true) = true) : LinkFree fs := by
  intro n hn t ht
  have := h n hn
  rw [ht] at this; cases this

def succeeds (r : FS × Except Err Unit) : Bool := match r.2 with
  | .ok _ => true
  | .error _ => false

theorem eq_of_succeeds {r : FS × Except Err Unit} (h : succeeds r = true) : r = (r.1, .ok ()) := by
  obtain ⟨f, x⟩ := r
  cases x with
  | ok _ => rfl
  | error _ => cases h

def dB : Str := ['b']
def dI : Str := ['i', 'n', 's', 't', 'a', 'l', 'l']
def dS : Str := ['s', 'r', 'c']
def nA1 : Str := ['a', '1']
def nAb : Str := ['a', '[', '1', ']']
def nB : Str := ['b', '.', 'h']
def nC : Str := ['c', '.', 'h']

def dirsFS : FS := [([dB], .dir), ([dB, dI], .dir), ([dB, dS], .dir)]
def filesFS : FS := dirsFS ++ [([dB, dS, nB], .file ['x']), ([dB, dS, nC], .file ['y'])]
def bracketFS : FS := dirsFS ++ [([dB, dS, nAb], .file ['x'])]
def bracketsFS : FS := dirsFS ++ [([dB, dS, nAb], .file ['x']), ([dB, dS, nA1], .file ['y'])]

theorem exEnv_fit : exEnv.Fit := ⟨by decide, by decide, by decide, by decide⟩

/-- A case of `insinto_partial`: two header files. -/
example : look (insinto exEnv ['/', 'u'] ['*', '.', 'h'] [] true filesFS).1 [dB, dI, ['u'], nC] = some (.file ['y']) := by
  have h := insinto_partial exEnv filesFS (makedirs exEnv (joinPath exEnv.inst [['/', 'u']]) filesFS).1
    (insinto exEnv ['/', 'u'] ['*', '.', 'h'] [] true filesFS).1 ['/', 'u'] ['*', '.', 'h'] true exEnv_fit (by decide +kernel)
    (linkFree_of (by decide +kernel)) (rooted_of (by decide +kernel)) (reached_of (by decide +kernel)) (by decide) (by decide) rfl
    (eq_of_succeeds (by decide +kernel)) (eq_of_succeeds (by decide +kernel)) (by decide +kernel) (by decide +kernel) (by decide +kernel) (by decide +kernel)
    (by
      intro c
      rw [show look filesFS (comps exEnv.inst ++ comps ['/', 'u']) = none by decide +kernel]; simp)
    nC (by decide +kernel) (by decide +kernel) ['y'] (by decide +kernel)
  rw [← h]; decide +kernel

/-- Not so in full: a file with brackets in its name is left out without a word. -/
theorem insinto_refuted : ¬ InsintoFull := by
  intro h
  have := h exEnv bracketFS (makedirs exEnv (joinPath exEnv.inst [['/', 'u']]) bracketFS).1
    (insinto exEnv ['/', 'u'] ['a', '*'] [] true bracketFS).1 ['/', 'u'] ['a', '*'] true exEnv_fit (by decide +kernel)
    (linkFree_of (by decide +kernel)) (rooted_of (by decide +kernel)) (reached_of (by decide +kernel)) (by decide) (by decide) rfl
    (eq_of_succeeds (by decide +kernel)) (eq_of_succeeds (by decide +kernel)) nAb (by decide +kernel) (by decide +kernel) (by decide +kernel) ['x'] (by decide +kernel)
  revert this
  decide +kernel

/-- Or another file is put in its place. -/
theorem insinto_refuted_other : ∃ fs', insinto exEnv ['/', 'u'] ['a', '*'] [] true bracketsFS = (fs', .ok ()) ∧
    look bracketsFS [dB, dS, nAb] = some (.file ['x']) ∧ look fs' [dB, dI, ['u'], nAb] = some (.file ['y']) :=
  ⟨_, eq_of_succeeds (by decide +kernel), by decide +kernel, by decide +kernel⟩

end Pisi.Act
