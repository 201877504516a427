import Verif.Props.ActionsMisc

/-! # C169: config.guess and config.sub are replaced by the newest -/
namespace Pisi.Act
open Pisi.Path (joinPath joinStep lstripSlash)

/-- `os.walk` comes to every file below, and to nothing else, whatever the names are. -/
theorem osWalk_all {e : Env} {f : FS} (hl : LinkFree f) (hR : Rooted f) (ht : Tidy f) : ∀ (n : Nat) (d : Str), isAbs d = true → dotdot ∉ e.cs d →
    look f (e.cs d) = some .dir → (∀ r, look f (e.cs d ++ r) ≠ none → r.length ≤ n) →
    (∀ df ∈ osWalk e f n d, isAbs df.1 = true ∧ dotdot ∉ e.cs df.1 ∧ e.cs d <+: e.cs df.1 ∧
      ∀ x ∈ df.2, Proper x ∧ ∃ c, look f (e.cs df.1 ++ [x]) = some (.file c)) ∧
    ∀ l x c, e.cs d <+: l → look f (l ++ [x]) = some (.file c) → ∃ df ∈ osWalk e f n d, e.cs df.1 = l ∧ x ∈ df.2 := by
  intro n
  induction n with
  | zero =>
    intro d _ _ _ hdep
    refine ⟨by simp [osWalk], ?_⟩
    rintro l x c ⟨r, rfl⟩ h
    have := hdep (r ++ [x]) (by rw [← List.append_assoc, h]; simp)
    simp at this
  | succ n ih =>
    intro d hc hdd hdir hdep
    have hlist := listdir_names hl hdd hR hdir
    have hnames : ∀ x ∈ namesAt f (e.cs d), Proper x ∧ dotdot ∉ e.cs d ++ [x] ∧ look f (e.cs d ++ [x]) ≠ none := by
      intro x hx
      have h1 := namesAt_look.mp hx
      have h2 := proper_look ht h1 x (by simp)
      refine ⟨h2, ?_, h1⟩
      intro hh
      rcases List.mem_append.mp hh with hh | hh
      · exact hdd hh
      · simp only [List.mem_singleton] at hh; exact h2.2.2.1 hh.symm
    have hdirC : ∀ x ∈ namesAt f (e.cs d), (isDirC f (e.cs (osJoin d x)) = true ↔ look f (e.cs d ++ [x]) = some .dir) := by
      intro x hx
      obtain ⟨h1, h3, h4⟩ := hnames x hx
      rw [cs_osJoin h1, isDirC_iff hl h3]
      exact ⟨fun h => h.2, fun h => ⟨hR _ h4, h⟩⟩
    have hsub : ∀ x ∈ namesAt f (e.cs d), look f (e.cs d ++ [x]) = some .dir → _ := fun x hx hxd =>
      ih (osJoin d x) (by rw [isAbs_osJoin (isAbs_noslash (hnames x hx).1.2.2.2)]; exact hc)
        (by rw [cs_osJoin (hnames x hx).1]; exact (hnames x hx).2.1)
        (by rw [cs_osJoin (hnames x hx).1]; exact hxd) (by
          rw [cs_osJoin (hnames x hx).1]
          intro r hr
          have h1 := hdep (x :: r) (by simpa using hr)
          simp at h1; omega)
    have hun : osWalk e f (n + 1) d = (d, (namesAt f (e.cs d)).filter fun x => !isDirC f (e.cs (osJoin d x))) ::
      ((namesAt f (e.cs d)).filter fun x => isDirC f (e.cs (osJoin d x)) && !isLinkC f (e.cs (osJoin d x))).flatMap fun x =>
        osWalk e f n (osJoin d x) := by
      rw [osWalk, hlist]
    rw [hun]
    constructor
    · intro df hdf
      rcases List.mem_cons.mp hdf with rfl | hdf
      · refine ⟨hc, hdd, List.prefix_rfl, ?_⟩
        intro x hx
        rw [List.mem_filter] at hx
        obtain ⟨h1, _, h4⟩ := hnames x hx.1
        refine ⟨h1, ?_⟩
        have hnd : look f (e.cs d ++ [x]) ≠ some .dir := fun h => by
          have := (hdirC x hx.1).mpr h
          rw [this] at hx; simp at hx
        obtain ⟨y, hy⟩ := Option.ne_none_iff_exists'.mp h4
        cases y with
        | dir => exact absurd hy hnd
        | file c => exact ⟨c, hy⟩
        | link t => exact absurd hy (look_not_link hl _ _)
      · obtain ⟨x, hx, hdf⟩ := List.mem_flatMap.mp hdf
        rw [List.mem_filter, Bool.and_eq_true] at hx
        obtain ⟨h1, h3, h4, h5⟩ := (hsub x hx.1 ((hdirC x hx.1).mp hx.2.1)).1 df hdf
        refine ⟨h1, h3, ?_, h5⟩
        rw [cs_osJoin (hnames x hx.1).1] at h4
        exact (List.prefix_append _ _).trans h4
    · rintro l x c ⟨r, rfl⟩ h
      cases r with
      | nil =>
        rw [List.append_nil] at h ⊢
        refine ⟨_, List.mem_cons_self, rfl, ?_⟩
        have hx : x ∈ namesAt f (e.cs d) := namesAt_look.mpr (by rw [h]; simp)
        rw [List.mem_filter]
        refine ⟨hx, ?_⟩
        have : ¬ isDirC f (e.cs (osJoin d x)) = true := fun hh => by
          have := (hdirC x hx).mp hh
          rw [h] at this; cases this
        simpa using this
      | cons y r =>
        have hyd : look f (e.cs d ++ [y]) = some .dir := by
          refine hR _ (by rw [h]; simp) _ ⟨r ++ [x], by simp⟩ ?_
          intro hh
          have := congrArg List.length hh
          simp at this
        have hy : y ∈ namesAt f (e.cs d) := namesAt_look.mpr (by rw [hyd]; simp)
        obtain ⟨df, h1, h2, h3⟩ := (hsub y hy hyd).2 (e.cs d ++ y :: r) x c
          (by rw [cs_osJoin (hnames y hy).1]; exact ⟨r, by simp⟩) h
        refine ⟨df, ?_, h2, h3⟩
        refine List.mem_cons_of_mem _ (List.mem_flatMap.mpr ⟨y, ?_, h1⟩)
        rw [List.mem_filter, Bool.and_eq_true]
        exact ⟨hy, (hdirC y hy).mpr hyd, by rw [isLinkC_false hl]; rfl⟩

/-- The directory of the newest files. -/
def gnuLoc : Loc := [['u', 's', 'r'], ['s', 'h', 'a', 'r', 'e'], ['g', 'n', 'u', 'c', 'o', 'n', 'f', 'i', 'g']]

/-- The files of the sources that are to be replaced. -/
def Outdated (e : Env) (fs : FS) (q : Loc) : Prop :=
  comps e.cwd <+: q.dropLast ∧ (q.getLast? = some configSub ∨ q.getLast? = some configGuess) ∧ ∃ c, look fs q = some (.file c)

/-- The places `T` have the newest texts, everything else is as it was. -/
structure Renewed (f : FS) (new : Option Str → Str) (T : Loc → Prop) (g : FS) : Prop where
  lf : LinkFree g
  rooted : Rooted g
  yes : ∀ q, T q → look g q = some (.file (new q.getLast?))
  no : ∀ q, ¬ T q → look g q = look f q

theorem gnuconfigFile_step {e : Env} {f g : FS} {new : Option Str → Str} {T : Loc → Prop} (h : Renewed f new T g)
    (hT : ∀ q, T q → comps e.cwd <+: q.dropLast) (hout : ¬ comps e.cwd <+: gnuLoc)
    (hnew : ∀ n, n = configSub ∨ n = configGuess → look f (gnuLoc ++ [n]) = some (.file (new (some n))))
    {root n : Str} (ha : isAbs root = true) (hd : dotdot ∉ e.cs root) (hp : comps e.cwd <+: e.cs root)
    (hn : n = configSub ∨ n = configGuess) (hf : ∃ c, look f (e.cs root ++ [n]) = some (.file c)) :
    ∃ g', gnuconfigFile e root n g = (g', .ok ()) ∧ Renewed f new (fun q => q = e.cs root ++ [n] ∨ T q) g' := by
  classical
  have hnp : Proper n := by rcases hn with rfl | rfl <;> decide
  have hmem : n ∈ [configSub, configGuess] := by simpa using hn
  have hcsp : e.cs (gnuconfigDir ++ n) = gnuLoc ++ [n] := by rcases hn with rfl | rfl <;> rfl
  have hcsd : e.cs (joinPath root [n]) = e.cs root ++ [n] := by
    rw [cs_join _ ha, comps_proper hnp]
    unfold Env.cs absComps
    rw [if_pos ha]
  have hsrc : look g (gnuLoc ++ [n]) = some (.file (new (some n))) := by
    rw [h.no _ ?_, hnew n hn]
    intro ht
    have := hT _ ht
    rw [List.dropLast_concat] at this
    exact hout this
  have htgt : ∃ c, look g (e.cs root ++ [n]) = some (.file c) := by
    by_cases ht : T (e.cs root ++ [n])
    · exact ⟨_, h.yes _ ht⟩
    · rw [h.no _ ht]; exact hf
  obtain ⟨c0, hc0⟩ := htgt
  have hrd : Reached g (e.cs root ++ [n]) := h.rooted _ (by rw [hc0]; simp)
  have hdd : dotdot ∉ e.cs root ++ [n] := by
    intro hh
    rcases List.mem_append.mp hh with hh | hh
    · exact hd hh
    · simp only [List.mem_singleton] at hh; exact hnp.2.2.1 hh.symm
  have hcopy := copy_file_exact (e := e) (p := gnuconfigDir ++ n) (dst := joinPath root [n]) (c := new (some n)) (sym := true) (fs := g)
    (by rcases hn with rfl | rfl <;> decide) (by rcases hn with rfl | rfl <;> decide) h.lf h.rooted (by rw [hcsd]; exact hdd)
    (by rcases hn with rfl | rfl <;> (rw [hcsp]; decide)) (by rw [hcsp]; exact hsrc) (by rw [hcsd, hc0]; simp) (by rw [hcsd]; exact hrd) (by
      rw [hcsp, hcsd]
      intro hh
      have := (List.append_inj' hh rfl).1
      rw [← this] at hp
      exact hout hp)
  refine ⟨g.put (e.cs root ++ [n]) (.file (new (some n))), ?_, ?_⟩
  · unfold gnuconfigFile
    rw [if_pos hmem]
    unfold seq
    dsimp only
    rw [isLinkC_false h.lf, if_neg (by simp)]
    dsimp only
    rw [hcopy, hcsd]
  · refine ⟨linkFree_put h.lf _ (by simp), rooted_file h.rooted (by simp) hrd (by rw [hc0]; simp), ?_, ?_⟩
    · intro q hq
      rw [look_put (by simp)]
      by_cases hqe : q = e.cs root ++ [n]
      · rw [if_pos hqe, hqe, List.getLast?_concat]
      · rw [if_neg hqe]
        exact h.yes q (hq.resolve_left hqe)
    · intro q hq
      rw [look_put (by simp), if_neg (fun hh => hq (.inl hh))]
      exact h.no q fun hh => hq (.inr hh)

theorem each_renewed {α : Type} {f : FS} {new : Option Str → Str} {P : (Loc → Prop) → Prop} (run : α → Act) (items : α → Loc → Prop) :
    ∀ (xs : List α), (∀ x ∈ xs, ∀ T g, P T → Renewed f new T g → ∃ g', run x g = (g', .ok ()) ∧
      Renewed f new (fun q => items x q ∨ T q) g' ∧ P (fun q => items x q ∨ T q)) →
    ∀ T g, P T → Renewed f new T g → ∃ g', each run xs g = (g', .ok ()) ∧ Renewed f new (fun q => (∃ x ∈ xs, items x q) ∨ T q) g' ∧
      P (fun q => (∃ x ∈ xs, items x q) ∨ T q) := by
  intro xs
  induction xs with
  | nil =>
    intro _ T g hP h
    have : (fun q => (∃ x ∈ ([] : List α), items x q) ∨ T q) = T := by funext q; simp
    rw [this]
    exact ⟨g, rfl, h, hP⟩
  | cons x xs ih =>
    intro hx T g hP h
    obtain ⟨g1, h1, h2, hP1⟩ := hx x List.mem_cons_self T g hP h
    obtain ⟨g2, h3, h4, hP2⟩ := ih (fun y hy => hx y (List.mem_cons_of_mem _ hy)) _ g1 hP1 h2
    have : (fun q => (∃ y ∈ x :: xs, items y q) ∨ T q) = fun q => (∃ y ∈ xs, items y q) ∨ items x q ∨ T q := by
      funext q
      apply propext
      constructor
      · rintro (⟨y, hy, h⟩ | h)
        · rcases List.mem_cons.mp hy with rfl | hy
          · exact .inr (.inl h)
          · exact .inl ⟨y, hy, h⟩
        · exact .inr (.inr h)
      · rintro (⟨y, hy, h⟩ | h | h)
        · exact .inl ⟨y, List.mem_cons_of_mem _ hy, h⟩
        · exact .inl ⟨x, List.mem_cons_self, h⟩
        · exact .inr h
    rw [this]
    refine ⟨g2, ?_, h4, hP2⟩
    show seq (run x) (each run xs) g = _
    unfold seq; rw [h1]; exact h3

/-- **C169, full statement.**  After `gnuconfig_update` every `config.sub` and `config.guess` below the current directory, be it a file
or a link to one, can still be read; where there is a newest one in `/usr/share/gnuconfig` it is that. -/
def GnuconfigFull : Prop := ∀ (e : Env) (fs fs' : FS), Tidy fs → Rooted fs → isAbs e.cwd = true → dotdot ∉ comps e.cwd →
  (∀ r, look fs (comps e.cwd ++ r) ≠ none → r.length ≤ e.limit) → ¬ comps e.cwd <+: gnuLoc →
  gnuconfigUpdate e fs = (fs', .ok ()) → ∀ l n c, (n = configSub ∨ n = configGuess) → comps e.cwd <+: l →
  Reached fs (l ++ [n]) → stat fs (l ++ [n]) = some (.file c) →
  ∃ c', stat fs' (l ++ [n]) = some (.file c') ∧ ∀ c'', stat fs (gnuLoc ++ [n]) = some (.file c'') → c' = c''

open Classical in
/-- **C169, partial.**  Where there are no symbolic links and the newest files are there, exactly the files meant are replaced, and
nothing else is changed.  Missing for the full statement: links, and no newest files. -/
theorem gnuconfig_partial (e : Env) (fs : FS) (cs cg : Str) (ht : Tidy fs) (hl : LinkFree fs) (hR : Rooted fs) (ha : isAbs e.cwd = true)
    (hd : dotdot ∉ comps e.cwd) (hdir : look fs (comps e.cwd) = some .dir)
    (hdep : ∀ r, look fs (comps e.cwd ++ r) ≠ none → r.length ≤ e.limit) (hout : ¬ comps e.cwd <+: gnuLoc)
    (hcs : look fs (gnuLoc ++ [configSub]) = some (.file cs)) (hcg : look fs (gnuLoc ++ [configGuess]) = some (.file cg)) :
    ∃ fs', gnuconfigUpdate e fs = (fs', .ok ()) ∧ ∀ q, look fs' q =
      if Outdated e fs q then some (.file (if q.getLast? = some configSub then cs else cg)) else look fs q := by
  have hcwd : e.cs e.cwd = comps e.cwd := by unfold Env.cs absComps; rw [if_pos ha]
  obtain ⟨w1, w2⟩ := osWalk_all (e := e) hl hR ht e.limit e.cwd ha (by rw [hcwd]; exact hd) (by rw [hcwd]; exact hdir) (by rw [hcwd]; exact hdep)
  rw [hcwd] at w1 w2
  let new : Option Str → Str := fun o => if o = some configSub then cs else cg
  have hnew : ∀ n, n = configSub ∨ n = configGuess → look fs (gnuLoc ++ [n]) = some (.file (new (some n))) := by
    rintro n (rfl | rfl)
    · rw [hcs]; rfl
    · rw [hcg]; rfl
  let P : (Loc → Prop) → Prop := fun T => ∀ q, T q → comps e.cwd <+: q.dropLast
  let items : Str × List Str → Loc → Prop := fun df q => ∃ n ∈ df.2, (n = configSub ∨ n = configGuess) ∧ q = e.cs df.1 ++ [n]
  have h0 : Renewed fs new (fun _ => False) fs := ⟨hl, hR, fun _ h => h.elim, fun _ _ => rfl⟩
  obtain ⟨fs', h1, h2, -⟩ := each_renewed (P := P) (f := fs) (new := new) (fun df : Str × List Str => each (gnuconfigFile e df.1) df.2) items
    (osWalk e fs e.limit e.cwd) (by
      intro df hdf T g hP hg
      obtain ⟨a1, a2, a3, a4⟩ := w1 df hdf
      obtain ⟨g', b1, b2, b3⟩ := each_renewed (P := P) (f := fs) (new := new) (gnuconfigFile e df.1)
        (fun n q => (n = configSub ∨ n = configGuess) ∧ q = e.cs df.1 ++ [n]) df.2 (by
          intro n hn T g hP hg
          by_cases hnn : n = configSub ∨ n = configGuess
          · obtain ⟨g', c1, c2⟩ := gnuconfigFile_step hg hP hout hnew a1 a2 a3 hnn (a4 n hn).2
            have hTe : (fun q => ((n = configSub ∨ n = configGuess) ∧ q = e.cs df.1 ++ [n]) ∨ T q) = fun q => q = e.cs df.1 ++ [n] ∨ T q := by
              funext q; simp [hnn]
            rw [hTe]
            refine ⟨g', c1, c2, ?_⟩
            rintro q (rfl | hq)
            · rw [List.dropLast_concat]; exact a3
            · exact hP q hq
          · have hTe : (fun q => ((n = configSub ∨ n = configGuess) ∧ q = e.cs df.1 ++ [n]) ∨ T q) = T := by
              funext q; simp [hnn]
            rw [hTe]
            refine ⟨g, ?_, hg, hP⟩
            unfold gnuconfigFile
            rw [if_neg (by simpa using hnn)]
            rfl) T g hP hg
      exact ⟨g', b1, b2, b3⟩) _ fs (fun _ h => h.elim) h0
  refine ⟨fs', h1, ?_⟩
  intro q
  by_cases hq : Outdated e fs q
  · rw [if_pos hq]
    obtain ⟨q1, q2, c, q3⟩ := hq
    have hqn : q ≠ [] := by rintro rfl; simp at q2
    obtain ⟨l, n, rfl⟩ : ∃ l n, q = l ++ [n] := ⟨q.dropLast, q.getLast hqn, (List.dropLast_concat_getLast hqn).symm⟩
    rw [List.dropLast_concat] at q1
    rw [List.getLast?_concat] at q2
    obtain ⟨df, d1, d2, d3⟩ := w2 l n c q1 q3
    have := h2.yes (l ++ [n]) (.inl ⟨df, d1, n, d3, by simpa using q2, by rw [d2]⟩)
    exact this
  · rw [if_neg hq]
    refine h2.no q ?_
    rintro (⟨df, d1, n, d2, d3, rfl⟩ | h)
    · apply hq
      obtain ⟨a1, a2, a3, a4⟩ := w1 df d1
      refine ⟨by rw [List.dropLast_concat]; exact a3, by rw [List.getLast?_concat]; simpa using d3, (a4 n d2).2⟩
    · exact h

def dShare : Str := ['s', 'h', 'a', 'r', 'e']
def dGnu : Str := ['g', 'n', 'u', 'c', 'o', 'n', 'f', 'i', 'g']
/-- Sources with an old `config.sub` in a directory, and the newest files. -/
def gnuFS : FS := dirsFS ++ [([dB, dS, ['d']], .dir), ([dB, dS, ['d'], configSub], .file ['0']), ([dB, dS, ['f']], .file ['k']),
  ([dU], .dir), ([dU, dShare], .dir), ([dU, dShare, dGnu], .dir), ([dU, dShare, dGnu, configSub], .file ['1']),
  ([dU, dShare, dGnu, configGuess], .file ['2'])]
/-- Sources with a link to a file of automake, and no newest files. -/
def gnuLinkFS : FS := dirsFS ++ [([dB, dS, configSub], .link ['/', 'a']), ([['a']], .file ['0'])]

theorem deep_of {fs : FS} {p : Loc} {n : Nat} (h : ∀ k ∈ fs, k.1.length ≤ n) : ∀ r, look fs (p ++ r) ≠ none → r.length ≤ n := by
  intro r hr
  refine look_cases hr ?_ ?_
  · intro h0
    rw [(List.append_eq_nil_iff.mp h0).2]; simp
  · intro k hk he
    have := h k hk
    rw [← he, List.length_append] at this
    omega

example : ∃ fs', gnuconfigUpdate exEnv gnuFS = (fs', .ok ()) ∧ look fs' [dB, dS, ['d'], configSub] = some (.file ['1']) ∧
    look fs' [dB, dS, ['f']] = some (.file ['k']) := by
  obtain ⟨fs', h1, h2⟩ := gnuconfig_partial exEnv gnuFS ['1'] ['2'] (by decide +kernel) (linkFree_of (by decide +kernel))
    (rooted_of (by decide +kernel)) (by decide) (by decide) (by decide +kernel) (deep_of (by decide +kernel)) (by decide) (by decide +kernel)
    (by decide +kernel)
  refine ⟨fs', h1, ?_, ?_⟩
  · rw [h2, if_pos ⟨by decide, .inl (by decide), ['0'], by decide +kernel⟩]; decide
  · rw [h2, if_neg (fun h => absurd h.2.1 (by decide))]; decide +kernel

/-- Not so in full: where there are no newest files, links are deleted and nothing comes in their place. -/
theorem gnuconfig_refuted : ¬ GnuconfigFull := by
  intro h
  have hr : Reached gnuLinkFS ([dB, dS] ++ [configSub]) :=
    rooted_of (fs := gnuLinkFS) (by decide +kernel) _ (by decide +kernel)
  obtain ⟨c, h1, -⟩ := h exEnv gnuLinkFS (gnuconfigUpdate exEnv gnuLinkFS).1 (by decide +kernel) (rooted_of (by decide +kernel)) (by decide)
    (by decide) (deep_of (by decide +kernel)) (by decide) (eq_of_succeeds (by decide +kernel)) [dB, dS] configSub ['0'] (.inl rfl) (by decide)
    hr (by decide +kernel)
  rw [show stat (gnuconfigUpdate exEnv gnuLinkFS).1 ([dB, dS] ++ [configSub]) = none by decide +kernel] at h1
  cases h1

end Pisi.Act
