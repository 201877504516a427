import Verif.Spec.Html
import Verif.Props.ActionsMan
import Verif.Lemmas.ActionsCopy

/-! # C159: dohtml -/
namespace Pisi.Act
open Pisi.Path (joinPath joinStep lstripSlash)

/-! ## Extensions -/

theorem lastDot_split {b : Str} (h : '.' ∈ b) : ∃ a, b = a ++ '.' :: (b.reverse.takeWhile (· ≠ '.')).reverse := by
  have h1 := List.takeWhile_append_dropWhile (p := (fun c : Char => decide (c ≠ '.'))) (l := b.reverse)
  cases hd : b.reverse.dropWhile (fun c : Char => decide (c ≠ '.')) with
  | nil =>
    rw [hd, List.append_nil] at h1
    have : '.' ∈ b.reverse.takeWhile (fun c : Char => decide (c ≠ '.')) := by rw [h1]; simpa using h
    have := List.all_takeWhile (l := b.reverse) (p := fun c : Char => decide (c ≠ '.'))
    rw [h1, List.all_eq_true] at this
    have := this '.' (by simpa using h)
    simp at this
  | cons c r =>
    have hc : c = '.' := by
      have := List.head?_dropWhile_not (fun c : Char => decide (c ≠ '.')) b.reverse
      rw [hd] at this
      simpa using this
    rw [hd, hc] at h1
    refine ⟨r.reverse, ?_⟩
    have := congrArg List.reverse h1
    simpa using this.symm

theorem htmlExts_dot {x : Str} (h : x ∈ htmlExts) : ∃ w, x = '.' :: w ∧ '.' ∉ w := by
  unfold htmlExts at h
  simp only [List.mem_cons, List.not_mem_nil, or_false] at h
  rcases h with h | h | h | h | h | h | h <;> exact ⟨_, h, by decide⟩

/-- The extension is what it should be. -/
theorem extOf_iff {b : Str} (hb : '/' ∉ b) : htmlExts.contains (extOf b) = true ↔ HtmlName b := by
  have hbn : basename b = b := by
    have := basename_osJoin (a := []) hb
    unfold osJoin at this
    rw [isAbs_noslash hb] at this
    simpa using this
  have hspl : b = b.takeWhile (· = '.') ++ b.dropWhile (· = '.') := (List.takeWhile_append_dropWhile).symm
  constructor
  · intro h
    rw [List.contains_iff_mem] at h
    unfold extOf at h
    rw [hbn] at h
    dsimp only at h
    by_cases hd : (b.dropWhile (· = '.')).contains '.' = true
    · rw [if_pos hd] at h
      obtain ⟨a, ha⟩ := lastDot_split (List.contains_iff_mem.mp hd)
      refine ⟨b.takeWhile (· = '.') ++ a, _, ?_, ?_, h⟩
      · rw [List.append_assoc, ← ha]; exact hspl
      · cases a with
        | nil =>
          exfalso
          have := List.head?_dropWhile_not (fun c : Char => decide (c = '.')) b
          rw [ha] at this
          simp at this
        | cons c r =>
          have := List.head?_dropWhile_not (fun c : Char => decide (c = '.')) b
          rw [ha] at this
          exact ⟨c, by simp, by simpa using this⟩
    · rw [if_neg hd] at h
      exact absurd h (by decide)
  · rintro ⟨a, x, rfl, ⟨c, hc, hcd⟩, hx⟩
    have hx' : x ∈ htmlExts := hx
    obtain ⟨w, rfl, hw⟩ := htmlExts_dot hx'
    rw [List.contains_iff_mem]
    unfold extOf
    rw [hbn]
    dsimp only
    have hdrop : (a ++ '.' :: w).dropWhile (· = '.') = a.dropWhile (· = '.') ++ '.' :: w := by
      rw [List.dropWhile_append]
      have : (a.dropWhile (· = '.')).isEmpty = false := by
        cases hz : a.dropWhile (· = '.') with
        | cons y ys => rfl
        | nil =>
          exfalso
          have h1 := List.takeWhile_append_dropWhile (p := (fun c : Char => decide (c = '.'))) (l := a)
          have hz' : a.dropWhile (fun c : Char => decide (c = '.')) = [] := hz
          rw [hz', List.append_nil] at h1
          have h2 := List.all_takeWhile (l := a) (p := fun c : Char => decide (c = '.'))
          rw [h1, List.all_eq_true] at h2
          have := h2 c hc
          simp at this
          exact hcd this
      rw [this]; rfl
    rw [hdrop, if_pos (by simp)]
    have h3 := afterDot_last (a := a.dropWhile (· = '.')) hw
    unfold afterDot at h3
    rw [if_pos (by simp), Option.some.injEq] at h3
    rw [h3]; exact hx'

/-! ## Going through a directory -/

theorem namesAt_look {f : FS} {p : Loc} {x : Str} : x ∈ namesAt f p ↔ look f (p ++ [x]) ≠ none := by
  rw [namesAt_iff]
  unfold look
  rw [if_neg (by simp)]
  constructor
  · rintro ⟨n, hn⟩ h
    have := (Dict.mem_keys f (p ++ [x])).mp (List.mem_map.mpr ⟨_, hn, rfl⟩)
    rw [h] at this; cases this
  · intro h
    obtain ⟨n, hn⟩ := Option.ne_none_iff_exists'.mp h
    exact ⟨n, get_mem hn⟩

theorem listdir_names {f : FS} (hl : LinkFree f) {cs : List Str} (hd : dotdot ∉ cs) (hR : Rooted f) (hdir : look f cs = some .dir) :
    listdirC f cs = some (namesAt f cs) := by
  have hr : resolve f cs = some cs := (resolve_iff hl hd _).mpr ⟨rfl, hR _ (by rw [hdir]; simp)⟩
  unfold listdirC
  rw [hr]
  dsimp only
  rw [if_pos hdir]

theorem osJoin_ne {a b : Str} (ha : a ≠ []) (hb : isAbs b = false) : osJoin a b ≠ [] ∧ (osJoin a b).head? = a.head? := by
  cases a with
  | nil => exact absurd rfl ha
  | cons x xs =>
    unfold osJoin
    rw [if_neg (by simp [hb])]
    split <;> simp

theorem clean_osJoin {a b : Str} (ha : Clean a) (hb : Clean b) (hn : isAbs b = false) : Clean (osJoin a b) := by
  refine ⟨(osJoin_ne ha.1 hn).1, ?_⟩
  intro c hc
  unfold osJoin at hc
  rw [if_neg (by simp [hn])] at hc
  split at hc
  · rcases List.mem_append.mp hc with hc | hc
    · exact ha.2 c hc
    · exact hb.2 c hc
  · rcases List.mem_append.mp hc with hc | hc
    · exact ha.2 c hc
    · rcases List.mem_cons.mp hc with rfl | hc
      · decide
      · exact hb.2 c hc

theorem cs_osJoin {e : Env} {d x : Str} (hx : Proper x) : e.cs (osJoin d x) = e.cs d ++ [x] := by
  unfold Env.cs
  rw [absComps_osJoin (isAbs_noslash hx.2.2.2), comps_proper hx]

/-- `os.walk` comes to every file below, and to nothing else. -/
theorem osWalk_files {e : Env} {f : FS} (hl : LinkFree f) (hR : Rooted f) (ht : Tidy f) : ∀ (n : Nat) (d : Str), Clean d → dotdot ∉ e.cs d →
    look f (e.cs d) = some .dir → (∀ r, look f (e.cs d ++ r) ≠ none → r.length ≤ n ∧ ∀ x ∈ r, Clean x) →
    (∀ df ∈ osWalk e f n d, Clean df.1 ∧ df.1.head? = d.head? ∧ dotdot ∉ e.cs df.1 ∧ e.cs d <+: e.cs df.1 ∧
      ∀ x ∈ df.2, Proper x ∧ Clean x ∧ ∃ c, look f (e.cs df.1 ++ [x]) = some (.file c)) ∧
    ∀ l x c, e.cs d <+: l → look f (l ++ [x]) = some (.file c) → ∃ df ∈ osWalk e f n d, e.cs df.1 = l ∧ x ∈ df.2 := by
  intro n
  induction n with
  | zero =>
    intro d _ _ _ hdep
    refine ⟨by simp [osWalk], ?_⟩
    rintro l x c ⟨r, rfl⟩ h
    have := (hdep (r ++ [x]) (by rw [← List.append_assoc, h]; simp)).1
    simp at this
  | succ n ih =>
    intro d hc hdd hdir hdep
    have hlist := listdir_names hl hdd hR hdir
    have hnames : ∀ x ∈ namesAt f (e.cs d), Proper x ∧ Clean x ∧ dotdot ∉ e.cs d ++ [x] ∧ look f (e.cs d ++ [x]) ≠ none := by
      intro x hx
      have h1 := namesAt_look.mp hx
      have h2 := proper_look ht h1 x (by simp)
      refine ⟨h2, (hdep [x] h1).2 x (by simp), ?_, h1⟩
      intro hh
      rcases List.mem_append.mp hh with hh | hh
      · exact hdd hh
      · simp only [List.mem_singleton] at hh; exact h2.2.2.1 hh.symm
    have hdirC : ∀ x ∈ namesAt f (e.cs d), (isDirC f (e.cs (osJoin d x)) = true ↔ look f (e.cs d ++ [x]) = some .dir) := by
      intro x hx
      obtain ⟨h1, _, h3, h4⟩ := hnames x hx
      rw [cs_osJoin h1, isDirC_iff hl h3]
      exact ⟨fun h => h.2, fun h => ⟨hR _ h4, h⟩⟩
    have hsub : ∀ x ∈ namesAt f (e.cs d), look f (e.cs d ++ [x]) = some .dir → _ := fun x hx hxd =>
      ih (osJoin d x) (clean_osJoin hc (hnames x hx).2.1 (isAbs_noslash (hnames x hx).1.2.2.2)) (by rw [cs_osJoin (hnames x hx).1]; exact (hnames x hx).2.2.1)
        (by rw [cs_osJoin (hnames x hx).1]; exact hxd) (by
          rw [cs_osJoin (hnames x hx).1]
          intro r hr
          obtain ⟨h1, h2⟩ := hdep (x :: r) (by simpa using hr)
          exact ⟨by simp at h1; omega, fun y hy => h2 y (List.mem_cons_of_mem _ hy)⟩)
    have hun : osWalk e f (n + 1) d = (d, (namesAt f (e.cs d)).filter fun x => !isDirC f (e.cs (osJoin d x))) ::
      ((namesAt f (e.cs d)).filter fun x => isDirC f (e.cs (osJoin d x)) && !isLinkC f (e.cs (osJoin d x))).flatMap fun x =>
        osWalk e f n (osJoin d x) := by
      rw [osWalk, hlist]
    rw [hun]
    constructor
    · intro df hdf
      rcases List.mem_cons.mp hdf with rfl | hdf
      · refine ⟨hc, rfl, hdd, List.prefix_rfl, ?_⟩
        intro x hx
        rw [List.mem_filter] at hx
        obtain ⟨h1, h2, _, h4⟩ := hnames x hx.1
        refine ⟨h1, h2, ?_⟩
        have hnd : look f (e.cs d ++ [x]) ≠ some .dir := fun h => by
          have := (hdirC x hx.1).mpr h
          rw [this] at hx; simp at hx
        obtain ⟨y, hy⟩ := Option.ne_none_iff_exists'.mp h4
        cases y with
        | dir => exact absurd hy hnd
        | file c => exact ⟨c, hy⟩
        | link t => exact absurd hy (look_not_link hl _ _)
      · obtain ⟨x, hx, hdf⟩ := List.mem_flatMap.mp hdf
        rw [List.mem_filter, Bool.and_eq_true] at hx
        obtain ⟨h1, h2, h3, h4, h5⟩ := (hsub x hx.1 ((hdirC x hx.1).mp hx.2.1)).1 df hdf
        refine ⟨h1, ?_, h3, ?_, h5⟩
        · rw [h2, (osJoin_ne hc.1 (isAbs_noslash (hnames x hx.1).1.2.2.2)).2]
        · rw [cs_osJoin (hnames x hx.1).1] at h4
          exact (List.prefix_append _ _).trans h4
    · rintro l x c ⟨r, rfl⟩ h
      cases r with
      | nil =>
        rw [List.append_nil] at h ⊢
        refine ⟨_, List.mem_cons_self, rfl, ?_⟩
        have hx : x ∈ namesAt f (e.cs d) := namesAt_look.mpr (by rw [h]; simp)
        rw [List.mem_filter]
        refine ⟨hx, ?_⟩
        have : ¬ isDirC f (e.cs (osJoin d x)) = true := fun hh => by
          have := (hdirC x hx).mp hh
          rw [h] at this; cases this
        simpa using this
      | cons y r =>
        have hyd : look f (e.cs d ++ [y]) = some .dir := by
          refine hR _ (by rw [h]; simp) _ ⟨r ++ [x], by simp⟩ ?_
          intro hh
          have := congrArg List.length hh
          simp at this
        have hy : y ∈ namesAt f (e.cs d) := namesAt_look.mpr (by rw [hyd]; simp)
        obtain ⟨df, h1, h2, h3⟩ := (hsub y hy hyd).2 (e.cs d ++ y :: r) x c
          (by rw [cs_osJoin (hnames y hy).1]; exact ⟨r, by simp⟩) h
        refine ⟨df, ?_, h2, h3⟩
        refine List.mem_cons_of_mem _ (List.mem_flatMap.mpr ⟨y, ?_, h1⟩)
        rw [List.mem_filter, Bool.and_eq_true]
        exact ⟨hy, (hdirC y hy).mpr hyd, by rw [isLinkC_false hl]; rfl⟩

/-! ## The loops -/

/-- The files `T` of `S` are installed in `D`. -/
structure Installed (f : FS) (D : Loc) (S T : Loc → Str → Prop) (g : FS) : Prop where
  lf : LinkFree g
  rooted : Rooted g
  tidy : Tidy g
  dir : look g D = some .dir
  out : ∀ q, (∀ l n, S l n → q ≠ D ++ [n]) → look g q = look f q
  tgt : ∀ l n, S l n → look g (D ++ [n]) ≠ some .dir
  done : ∀ l n, S l n → T l n → ∀ c, look f (l ++ [n]) = some (.file c) → look g (D ++ [n]) = some (.file c)

theorem Installed.weaken {f : FS} {D : Loc} {S T T' : Loc → Str → Prop} {g : FS} (h : Installed f D S T g) (hT : ∀ l n, T' l n → T l n) :
    Installed f D S T' g := ⟨h.lf, h.rooted, h.tidy, h.dir, h.out, h.tgt, fun l n hs hn => h.done l n hs (hT l n hn)⟩

theorem each_installed {α : Type} {f : FS} {D : Loc} {S : Loc → Str → Prop} (run : α → Act) (items : α → Loc → Str → Prop) :
    ∀ (xs : List α), (∀ x ∈ xs, ∀ T g, Installed f D S T g → ∃ g', run x g = (g', .ok ()) ∧ Installed f D S (fun l n => items x l n ∨ T l n) g') →
    ∀ T g, Installed f D S T g → ∃ g', each run xs g = (g', .ok ()) ∧ Installed f D S (fun l n => (∃ x ∈ xs, items x l n) ∨ T l n) g' := by
  intro xs
  induction xs with
  | nil => intro _ T g h; exact ⟨g, rfl, h.weaken (by simp)⟩
  | cons x xs ih =>
    intro hx T g h
    obtain ⟨g1, h1, h2⟩ := hx x List.mem_cons_self T g h
    obtain ⟨g2, h3, h4⟩ := ih (fun y hy => hx y (List.mem_cons_of_mem _ hy)) _ g1 h2
    refine ⟨g2, ?_, h4.weaken ?_⟩
    · show seq (run x) (each run xs) g = _
      unfold seq; rw [h1]; exact h3
    · rintro l n (⟨y, hy, hyn⟩ | hT)
      · rcases List.mem_cons.mp hy with rfl | hy
        · exact .inr (.inl hyn)
        · exact .inl ⟨y, hy, hyn⟩
      · exact .inr (.inr hT)

/-- One file. -/
theorem installed_one {e : Env} {f g : FS} {d : Str} {S T : Loc → Str → Prop} (hda : isAbs d = true) (hdd : dotdot ∉ e.cs d)
    (hinj : ∀ l l' n, S l n → S l' n → l = l') (hout : ∀ l n, S l n → ¬ e.cs d <+: l ++ [n])
    (h : Installed f (e.cs d) S T g) {p : Str} {l : Loc} {n c : Str} (hS : S l n) (hp : ¬ p.head? = some '-') (hcs : e.cs p = l ++ [n])
    (hb : basename p = n) (hn : Proper n) (hpd : dotdot ∉ l ++ [n]) (hc : look f (l ++ [n]) = some (.file c)) :
    Installed f (e.cs d) S (fun l' n' => l' = l ∧ n' = n ∨ T l' n') (installArgs e [p, d] g) := by
  have hsame : ∀ l n, S l n → look g (l ++ [n]) = look f (l ++ [n]) := by
    intro l n hln
    exact h.out _ fun l' n' _ hh => hout l n hln (by rw [hh]; exact List.prefix_append _ _)
  have hgc : look g (l ++ [n]) = some (.file c) := by rw [hsame l n hS]; exact hc
  have hT0 : e.cs d ++ [n] ≠ [] := by simp
  have hRD : Reached g (e.cs d) := h.rooted _ (by rw [h.dir]; simp)
  have hx := install_put (e := e) (f := g) (p := p) (d := d) (c := c) h.lf h.rooted hp hda hdd (by rw [hcs]; exact hpd) (by rw [hb]; exact hn)
    hRD h.dir (by rw [hcs, hb]; intro hh; exact hout l n hS (by rw [hh]; exact List.prefix_append _ _))
    (by rw [hb]; exact h.tgt l n hS) (by rw [hcs]; exact hgc)
  rw [hx, hb]
  have hDn : ∀ c ∈ e.cs d, Proper c := by
    intro c hc
    exact proper_look h.tidy (by rw [h.dir]; simp) c hc
  refine ⟨linkFree_put h.lf _ (by simp), rooted_file h.rooted hT0 (reached_sub hRD h.dir) (h.tgt l n hS), tidy_put' h.tidy ?_ _, ?_, ?_, ?_, ?_⟩
  · intro c hc
    rcases List.mem_append.mp hc with hc | hc
    · exact hDn c hc
    · simp only [List.mem_singleton] at hc; subst hc; exact hn
  · rw [look_put hT0, if_neg (by intro hh; have := congrArg List.length hh; simp at this)]; exact h.dir
  · intro q hq
    rw [look_put hT0, if_neg (hq l n hS)]; exact h.out q hq
  · intro l' n' hS'
    rw [look_put hT0]
    split
    · simp
    · exact h.tgt l' n' hS'
  · rintro l' n' hS' (⟨rfl, rfl⟩ | hT) c' hc'
    · rw [look_put hT0, if_pos rfl, ← hc', hc]
    · rw [look_put hT0]
      split
      · rename_i hh
        have hnn := List.append_cancel_left hh
        simp only [List.cons.injEq, and_true] at hnn
        subst hnn
        rw [← hc', hinj l' l n' hS' hS, hc]
      · exact h.done l' n' hS' hT c' hc'

theorem clean_quoted {p : Str} (h : Clean p) : CleanQuoted p := by
  refine ⟨single_noblank _ fun c hc => (h.2 c hc).1, fun c hc => ⟨?_, (h.2 c hc).2.2⟩⟩
  have := (h.2 c hc).2.1
  unfold shSpecial at this
  unfold quotedSpecial
  simp only [List.contains_eq_mem, decide_eq_false_iff_not, List.mem_cons, not_or] at this ⊢
  exact ⟨this.2.2.2.2.2.2.2.1, this.2.2.2.2.2.2.2.2.1, this.2.2.2.2.2.2.2.2.2.1, by simp⟩

theorem readable_run {e : Env} {p d : Str} (hp : Clean p) (hd : Clean d) (g : FS) :
    shell e (squeeze (readableCmd p d)) g = (installArgs e [p, d] g, .ok ()) := by
  unfold shell
  rw [readable_words (clean_quoted hp) hd]
  dsimp only
  rw [if_pos ⟨rfl, rfl⟩]

theorem join_noslash {a x : Str} (ha : a ≠ []) (hx : Proper x) (hc : Clean a) (hcx : Clean x) :
    Clean (joinPath a [x]) ∧ (joinPath a [x]).head? = a.head? ∧ basename (joinPath a [x]) = x := by
  have hls : lstripSlash x = x := by
    unfold lstripSlash
    cases x with
    | nil => rfl
    | cons y ys =>
      have : y ≠ '/' := fun h => hx.2.2.2 (h ▸ List.mem_cons_self)
      simp [this]
  have heq : joinPath a [x] = osJoin a x := by
    simp only [joinPath, List.foldl, joinStep, osJoin]
    rw [hls, isAbs_noslash hx.2.2.2]
    simp
  rw [heq]
  exact ⟨clean_osJoin hc hcx (isAbs_noslash hx.2.2.2), (osJoin_ne ha (isAbs_noslash hx.2.2.2)).2, basename_osJoin hx.2.2.2⟩

/-- One name found. -/
theorem dohtmlOne_ok {e : Env} {f g : FS} {d : Str} {S T : Loc → Str → Prop} (hda : isAbs d = true) (hdc : Clean d) (hdd : dotdot ∉ e.cs d)
    (hinj : ∀ l l' n, S l n → S l' n → l = l') (hout : ∀ l n, S l n → ¬ e.cs d <+: l ++ [n]) {p : Str}
    (hpc : Clean p) (hph : ¬ p.head? = some '-') (hpd : dotdot ∉ e.cs p) (hp1 : ¬ e.cs d <+: e.cs p) (hp2 : ¬ e.cs p <+: e.cs d)
    (hpb : look f (e.cs p) ≠ some .dir → Proper (basename p))
    (hdep : ∀ r, look f (e.cs p ++ r) ≠ none → r.length ≤ e.limit ∧ ∀ x ∈ r, Clean x)
    (hS : ∀ l n, HtmlOf e f p l n → S l n) (h : Installed f (e.cs d) S T g) :
    ∃ g', dohtmlOne e d p g = (g', .ok ()) ∧ Installed f (e.cs d) S (fun l n => HtmlOf e f p l n ∨ T l n) g' := by
  have hsame : ∀ g T, Installed f (e.cs d) S T g → ∀ r, look g (e.cs p ++ r) = look f (e.cs p ++ r) := by
    intro g T h r
    refine h.out _ fun l n _ hh => ?_
    rcases List.prefix_or_prefix_of_prefix (⟨r, rfl⟩ : e.cs p <+: e.cs p ++ r) (⟨[n], hh.symm⟩ : e.cs d <+: e.cs p ++ r) with h1 | h1
    · exact hp2 h1
    · exact hp1 h1
  have hsame0 : ∀ g T, Installed f (e.cs d) S T g → look g (e.cs p) = look f (e.cs p) := fun g T h => by simpa using hsame g T h []
  by_cases hdir : look f (e.cs p) = some .dir
  · -- a directory
    have hnf : isFileC g (e.cs p) = false := by
      rw [Bool.eq_false_iff]
      intro hh
      obtain ⟨_, c, hc⟩ := (isFileC_iff h.lf hpd).mp hh
      rw [hsame0 g T h, hdir] at hc; cases hc
    have hisd : isDirC g (e.cs p) = true := by
      have : look g (e.cs p) = some .dir := by rw [hsame0 g T h]; exact hdir
      exact (isDirC_iff h.lf hpd).mpr ⟨h.rooted _ (by rw [this]; simp), this⟩
    by_cases hcvs : basename p = ['C', 'V', 'S']
    · refine ⟨g, ?_, h.weaken ?_⟩
      · unfold dohtmlOne seq
        simp [hnf, hcvs, skip]
      · rintro l n (⟨_, ⟨c, h2⟩, h3⟩ | hT)
        · rcases h3 with h3 | ⟨_, h3, _⟩
          · rw [h3, hdir] at h2; cases h2
          · exact absurd hcvs h3
        · exact hT
    · have hrun : dohtmlOne e d p g = each (fun df => each (fun f =>
          if htmlExts.contains (extOf f) then seq (makedirs e d) (shell e (squeeze (plainCmd (joinPath df.1 [f]) d))) else skip) df.2)
          (osWalk e g e.limit p) g := by
        unfold dohtmlOne
        conv_lhs => unfold seq
        simp only [hnf, Bool.false_and, Bool.false_eq_true, if_false, skip, hisd, Bool.true_and]
        rw [if_pos (by simp [hcvs])]
        rfl
      obtain ⟨hw1, hw2⟩ := osWalk_files (e := e) h.lf h.rooted h.tidy e.limit p hpc hpd (by rw [hsame0 g T h]; exact hdir)
        (fun r hr => hdep r (by rw [← hsame g T h r]; exact hr))
      rw [hrun]
      obtain ⟨g', h1, h2⟩ := each_installed (f := f) (D := e.cs d) (S := S) (fun df : Str × List Str => each (fun f =>
          if htmlExts.contains (extOf f) then seq (makedirs e d) (shell e (squeeze (plainCmd (joinPath df.1 [f]) d))) else skip) df.2)
        (fun df l n => l = e.cs df.1 ∧ n ∈ df.2 ∧ HtmlName n) (osWalk e g e.limit p) (by
          intro df hdf T1 g1 hg1
          obtain ⟨a1, a2, a3, a4, a5⟩ := hw1 df hdf
          obtain ⟨g2, b1, b2⟩ := each_installed (f := f) (D := e.cs d) (S := S) (fun f =>
            if htmlExts.contains (extOf f) then seq (makedirs e d) (shell e (squeeze (plainCmd (joinPath df.1 [f]) d))) else skip)
            (fun x l n => l = e.cs df.1 ∧ n = x ∧ HtmlName n) df.2 (by
              intro x hx T2 g2 hg2
              obtain ⟨c1, c2, c, c3⟩ := a5 x hx
              by_cases hext : htmlExts.contains (extOf x) = true
              · have hname := (extOf_iff c1.2.2.2).mp hext
                obtain ⟨k1, k2, k3⟩ := join_noslash a1.1 c1 a1 c2
                have kcs : e.cs (joinPath df.1 [x]) = e.cs df.1 ++ [x] := by
                  unfold Env.cs
                  rw [absComps_joinStep _ a1.1, comps_proper c1]
                obtain ⟨r, hr⟩ := a4
                have hfx : look f (e.cs df.1 ++ [x]) = some (.file c) := by
                  rw [← c3, ← hr, List.append_assoc, hsame g T h]
                have hSx : S (e.cs df.1) x := hS _ _ ⟨hname, ⟨c, hfx⟩, .inr ⟨hdir, hcvs, ⟨r, hr⟩⟩⟩
                refine ⟨installArgs e [joinPath df.1 [x], d] g2, ?_, ?_⟩
                · rw [if_pos hext]
                  unfold seq
                  rw [makedirs_there hg2.lf hg2.rooted hdd (by rw [hg2.dir]; simp)]
                  dsimp only
                  rw [plain_run k1 hdc]
                · refine (installed_one hda hdd hinj hout hg2 hSx (by rw [k2, a2]; exact hph) kcs k3 c1 ?_ hfx).weaken ?_
                  · intro hh
                    rcases List.mem_append.mp hh with hh | hh
                    · exact a3 hh
                    · simp only [List.mem_singleton] at hh; exact c1.2.2.1 hh.symm
                  · rintro l n (⟨rfl, rfl, _⟩ | hT)
                    · exact .inl ⟨rfl, rfl⟩
                    · exact .inr hT
              · refine ⟨g2, by rw [if_neg hext]; rfl, hg2.weaken ?_⟩
                rintro l n (⟨_, rfl, hn⟩ | hT)
                · exact absurd ((extOf_iff c1.2.2.2).mpr hn) hext
                · exact hT) T1 g1 hg1
          refine ⟨g2, b1, b2.weaken ?_⟩
          rintro l n (⟨h1, h2, h3⟩ | hT)
          · exact .inl ⟨n, h2, h1, rfl, h3⟩
          · exact .inr hT) T g h
      refine ⟨g', h1, h2.weaken ?_⟩
      rintro l n (⟨k1, ⟨c, k2⟩, k3⟩ | hT)
      · rcases k3 with k3 | ⟨_, _, k3⟩
        · rw [k3, hdir] at k2; cases k2
        · have : look g (l ++ [n]) = some (.file c) := by
            obtain ⟨r, rfl⟩ := k3
            rw [List.append_assoc, hsame g T h, ← List.append_assoc]; exact k2
          obtain ⟨df, m1, m2, m3⟩ := hw2 l n c k3 this
          exact .inl ⟨df, m1, m2.symm, m3, k1⟩
      · exact .inr hT
  · -- no directory
    have hnd : ∀ g' T', Installed f (e.cs d) S T' g' → isDirC g' (e.cs p) = false := by
      intro g' T' h'
      rw [Bool.eq_false_iff]
      intro hh
      have := ((isDirC_iff h'.lf hpd).mp hh).2
      rw [hsame0 g' T' h'] at this
      exact hdir this
    have hlast : e.cs p = (e.cs p).dropLast ++ [basename p] := by
      have h1 := comps_headOf p
      rw [comps_proper (hpb hdir)] at h1
      unfold Env.cs absComps
      split
      · rw [h1]; simp
      · rw [h1, ← List.append_assoc]; simp
    have hpp := hpb hdir
    have hHO : ∀ l n, HtmlOf e f p l n → l = (e.cs p).dropLast ∧ n = basename p := by
      rintro l n ⟨_, _, k3 | ⟨k3, _⟩⟩
      · rw [hlast] at k3
        have := List.append_inj' k3 rfl
        exact ⟨this.1, by simpa using this.2⟩
      · exact absurd k3 hdir
    by_cases hgo : ((∃ c, look f (e.cs p) = some (.file c)) ∧ htmlExts.contains (extOf p) = true)
    · obtain ⟨⟨c, hc⟩, hext⟩ := hgo
      have hext' : HtmlName (basename p) := by
        refine (extOf_iff (basename_noslash p)).mp ?_
        have : extOf (basename p) = extOf p := by
          unfold extOf
          have : basename (basename p) = basename p := by
            have := basename_osJoin (a := []) (basename_noslash p)
            unfold osJoin at this
            rw [isAbs_noslash (basename_noslash p)] at this
            simpa using this
          rw [this]
        rw [this]; exact hext
      have hc' := hc
      rw [hlast] at hc'
      have hSp : S (e.cs p).dropLast (basename p) := hS _ _ ⟨hext', ⟨c, hc'⟩, .inl hlast.symm⟩
      have hin := installed_one hda hdd hinj hout h hSp hph hlast rfl hpp (by rw [← hlast]; exact hpd) hc'
      refine ⟨_, ?_, hin.weaken ?_⟩
      · have hisf : isFileC g (e.cs p) = true := by
          have : look g (e.cs p) = some (.file c) := by rw [hsame0 g T h]; exact hc
          exact (isFileC_iff h.lf hpd).mpr ⟨h.rooted _ (by rw [this]; simp), c, this⟩
        unfold dohtmlOne
        conv_lhs => unfold seq
        simp only [hisf, hext, Bool.and_self, if_true]
        rw [readable_run hpc hdc]
        dsimp only
        rw [hnd _ _ hin]
        simp
      · rintro l n (k | hT)
        · exact .inl (hHO l n k)
        · exact .inr hT
    · refine ⟨g, ?_, h.weaken ?_⟩
      · have : (isFileC g (e.cs p) && htmlExts.contains (extOf p)) = false := by
          rw [Bool.eq_false_iff]
          intro hh
          rw [Bool.and_eq_true] at hh
          obtain ⟨_, c, hc⟩ := (isFileC_iff h.lf hpd).mp hh.1
          rw [hsame0 g T h] at hc
          exact hgo ⟨⟨c, hc⟩, hh.2⟩
        unfold dohtmlOne
        conv_lhs => unfold seq
        simp only [this, Bool.false_eq_true, if_false, skip, hnd g T h, Bool.false_and]
      · rintro l n (k | hT)
        · obtain ⟨rfl, rfl⟩ := hHO l n k
          obtain ⟨k1, ⟨c, k2⟩, _⟩ := k
          rw [← hlast] at k2
          refine absurd ⟨⟨c, k2⟩, ?_⟩ hgo
          have h5 := (extOf_iff (basename_noslash p)).mpr k1
          have h6 : extOf (basename p) = extOf p := by
            unfold extOf
            have : basename (basename p) = basename p := by
              have := basename_osJoin (a := []) (basename_noslash p)
              unfold osJoin at this
              rw [isAbs_noslash (basename_noslash p)] at this
              simpa using this
            rw [this]
          rw [← h6]; exact h5
        · exact hT

/-- The directory of the HTML documentation in the package. -/
def htmlLoc (e : Env) (tag : Str) : Loc :=
  comps e.inst ++ [['u', 's', 'r'], ['s', 'h', 'a', 'r', 'e'], ['d', 'o', 'c']] ++ comps tag ++ [['h', 't', 'm', 'l']]

/-- **C159**, in full: after `dohtml` every file that was meant is in the package. -/
def DohtmlFull : Prop := ∀ (e : Env) (fs fs1 fs' : FS) (tag s : Str), e.Fit → NoUp tag → Tidy fs → LinkFree fs → Rooted fs → e.ignore = false →
  makedirs e (htmlDir e tag) fs = (fs1, .ok ()) → Clean (htmlDir e tag) → dohtml e tag [s] fs = (fs', .ok ()) →
  ∀ p ∈ glob fs1 e.cwd s, Clean p → dotdot ∉ e.cs p → (¬ htmlLoc e tag <+: e.cs p) → (¬ e.cs p <+: htmlLoc e tag) →
    ∀ l n, HtmlOf e fs1 p l n → (∀ x ∈ l ++ [n], Clean x) → (l ++ [n]).length ≤ e.limit → look fs1 (htmlLoc e tag ++ [n]) ≠ some .dir →
    ∀ c, look fs (l ++ [n]) = some (.file c) → look fs' (htmlLoc e tag ++ [n]) = some (.file c)

theorem cs_htmlDir {e : Env} (hf : e.Fit) (tag : Str) : isAbs (htmlDir e tag) = true ∧ e.cs (htmlDir e tag) = htmlLoc e tag := by
  have h1 : htmlDir e tag = joinPath (joinPath e.inst [docDir, tag]) [['h', 't', 'm', 'l']] := rfl
  have h2 : isAbs (joinPath e.inst [docDir, tag]) = true := isAbs_join2 _ _ hf.abs
  have h3 : comps docDir = [['u', 's', 'r'], ['s', 'h', 'a', 'r', 'e'], ['d', 'o', 'c']] := by decide
  have h4 : comps ['h', 't', 'm', 'l'] = [['h', 't', 'm', 'l']] := by decide
  rw [h1]
  refine ⟨isAbs_join1 _ h2, ?_⟩
  rw [cs_join _ h2, comps_join2, h3, h4]
  rfl

/-- **C159** for clean names, if no two of the files have the same name: exactly these files are put into the directory. -/
theorem dohtml_partial (e : Env) (fs fs1 : FS) (tag s : Str) (hf : e.Fit) (htag : NoUp tag) (ht : Tidy fs) (hl : LinkFree fs) (hR : Rooted fs)
    (hi : e.ignore = false) (hmk : makedirs e (htmlDir e tag) fs = (fs1, .ok ())) (hdc : Clean (htmlDir e tag))
    (hdir : look fs (htmlLoc e tag) = some .dir ∨ look fs (htmlLoc e tag) = none)
    (hps : ∀ p ∈ glob fs1 e.cwd s, Clean p ∧ (¬ p.head? = some '-') ∧ dotdot ∉ e.cs p ∧ (¬ htmlLoc e tag <+: e.cs p) ∧
      (¬ e.cs p <+: htmlLoc e tag) ∧ (look fs1 (e.cs p) ≠ some .dir → Proper (basename p)) ∧
      ∀ r, look fs1 (e.cs p ++ r) ≠ none → r.length ≤ e.limit ∧ ∀ x ∈ r, Clean x)
    (hdiff : ∀ p ∈ glob fs1 e.cwd s, ∀ p' ∈ glob fs1 e.cwd s, ∀ l l' n, HtmlOf e fs1 p l n → HtmlOf e fs1 p' l' n → l = l')
    (htgt : ∀ p ∈ glob fs1 e.cwd s, ∀ l n, HtmlOf e fs1 p l n → look fs1 (htmlLoc e tag ++ [n]) ≠ some .dir) :
    ∃ fs', dohtml e tag [s] fs = (fs', .ok ()) ∧
      (∀ p ∈ glob fs1 e.cwd s, ∀ l n, HtmlOf e fs1 p l n → ∀ c, look fs1 (l ++ [n]) = some (.file c) →
        look fs' (htmlLoc e tag ++ [n]) = some (.file c)) ∧
      ∀ q, (∀ p ∈ glob fs1 e.cwd s, ∀ l n, HtmlOf e fs1 p l n → q ≠ htmlLoc e tag ++ [n]) → look fs' q = look fs1 q := by
  obtain ⟨hda, hcs⟩ := cs_htmlDir hf tag
  have hpr : ∀ c ∈ e.cs (htmlDir e tag), Proper c := by
    rw [hcs]
    unfold htmlLoc
    intro c hc
    simp only [List.mem_append] at hc
    rcases hc with ((hc | hc) | hc) | hc
    · exact comps_good hf.noup c hc
    · exact (by decide : ∀ c ∈ [['u', 's', 'r'], ['s', 'h', 'a', 'r', 'e'], ['d', 'o', 'c']], Proper c) c hc
    · exact comps_good htag c hc
    · exact (by decide : ∀ c ∈ [['h', 't', 'm', 'l']], Proper c) c hc
  have hdd := proper_dotdot hpr
  obtain ⟨hl1, hex⟩ := makedirs_exact hl hdd hi hmk
  have hre := makedirs_reached hl hdd hi hmk
  have hR1 := rooted_makedirs hR hre hex
  have ht1 := tidy_makedirs hl ht hpr hmk
  have hM : look fs1 (e.cs (htmlDir e tag)) = some .dir := by
    rw [hex]
    rw [← hcs] at hdir
    rcases hdir with hd | hd
    · rw [if_neg (by simp [hd])]; exact hd
    · rw [if_pos ⟨List.prefix_rfl, hd⟩]
  rw [← hcs] at hps htgt ⊢
  have h0 : Installed fs1 (e.cs (htmlDir e tag)) (fun l n => ∃ p ∈ glob fs1 e.cwd s, HtmlOf e fs1 p l n) (fun _ _ => False) fs1 :=
    ⟨hl1, hR1, ht1, hM, fun _ _ => rfl, fun l n ⟨p, hp, h⟩ => htgt p hp l n h, fun _ _ _ h => h.elim⟩
  obtain ⟨fs', h1, h2⟩ := each_installed (dohtmlOne e (htmlDir e tag)) (HtmlOf e fs1) (glob fs1 e.cwd s) (by
    intro p hp T g hg
    obtain ⟨a1, a2, a3, a4, a5, a6, a7⟩ := hps p hp
    refine dohtmlOne_ok hda hdc hdd ?_ ?_ a1 a2 a3 a4 a5 a6 a7 (fun l n h => ⟨p, hp, h⟩) hg
    · rintro l l' n ⟨p, hp, h⟩ ⟨p', hp', h'⟩
      exact hdiff p hp p' hp' l l' n h h'
    · rintro l n ⟨q, hq, h⟩ hpre
      obtain ⟨_, _, _, b4, b5, _⟩ := hps q hq
      rcases h.2.2 with h | ⟨_, _, h⟩
      · rw [h] at hpre; exact b4 hpre
      · rcases List.prefix_or_prefix_of_prefix (h.trans (List.prefix_append _ _)) hpre with h | h
        · exact b5 h
        · exact b4 h) _ fs1 h0
  refine ⟨fs', ?_, ?_, ?_⟩
  · unfold dohtml seq
    rw [hmk]
    dsimp only
    show seq _ skip fs1 = _
    unfold seq
    beta_reduce
    rw [h1]
    rfl
  · intro p hp l n h c hc
    exact h2.done l n ⟨p, hp, h⟩ (.inl ⟨p, hp, h⟩) c hc
  · intro q hq
    exact h2.out q fun l n ⟨p, hp, h⟩ => hq p hp l n h

/-! ## Cases -/

def nDoc : Str := ['d', 'o', 'c']
def nIdx : Str := ['i', '.', 'h', 't', 'm', 'l']
def nSub : Str := ['s', 'u', 'b']
def nPic : Str := ['b', '.', 'p', 'n', 'g']
def exTag : Str := ['p', '-', '1']
/-- `doc/i.html` and `doc/sub/b.png`. -/
def htmlFS : FS := dirsFS ++ [([dB, dS, nDoc], .dir), ([dB, dS, nDoc, nIdx], .file ['x']), ([dB, dS, nDoc, nSub], .dir),
  ([dB, dS, nDoc, nSub, nPic], .file ['y'])]
/-- `doc/i.html` and `doc/sub/i.html`. -/
def htmlTwice : FS := dirsFS ++ [([dB, dS, nDoc], .dir), ([dB, dS, nDoc, nIdx], .file ['x']), ([dB, dS, nDoc, nSub], .dir),
  ([dB, dS, nDoc, nSub, nIdx], .file ['y'])]

theorem look_cases {f : FS} {q : Loc} {P : Prop} (h : look f q ≠ none) (h0 : q = [] → P) (h1 : ∀ n ∈ f, q = n.1 → P) : P := by
  unfold look at h
  split at h
  · rename_i hq; exact h0 hq
  · obtain ⟨n, hn⟩ := Option.ne_none_iff_exists'.mp h
    exact h1 _ (get_mem hn) rfl

/-- Not so in full: of two files with the same name one is lost, and nothing is said. -/
theorem dohtml_refuted : ¬ DohtmlFull := by
  intro h
  have := h exEnv htmlTwice (makedirs exEnv (htmlDir exEnv exTag) htmlTwice).1 (dohtml exEnv exTag [nDoc] htmlTwice).1 exTag nDoc exEnv_fit
    (by decide) (by decide +kernel) (linkFree_of (by decide +kernel)) (rooted_of (by decide +kernel)) rfl (eq_of_succeeds (by decide +kernel))
    (by decide) (eq_of_succeeds (by decide +kernel)) nDoc (by decide +kernel) (by decide) (by decide) (by decide) (by decide)
    [dB, dS, nDoc] nIdx
    ⟨⟨['i'], ['.', 'h', 't', 'm', 'l'], by decide, ⟨'i', by decide, by decide⟩, by decide⟩, ⟨['x'], by decide +kernel⟩,
      .inr ⟨by decide +kernel, by decide, by decide⟩⟩ (by decide) (by decide) (by decide +kernel) ['x'] (by decide +kernel)
  revert this
  decide +kernel

/-- A case of `dohtml_partial`. -/
example : ∃ fs', dohtml exEnv exTag [nDoc] htmlFS = (fs', .ok ()) ∧ look fs' (htmlLoc exEnv exTag ++ [nPic]) = some (.file ['y']) := by
  have hg : glob (makedirs exEnv (htmlDir exEnv exTag) htmlFS).1 exEnv.cwd nDoc = [nDoc] := by decide +kernel
  have hOf : ∀ l n, HtmlOf exEnv (makedirs exEnv (htmlDir exEnv exTag) htmlFS).1 nDoc l n →
      l = [dB, dS, nDoc] ∧ n = nIdx ∨ l = [dB, dS, nDoc, nSub] ∧ n = nPic := by
    rintro l n ⟨_, ⟨c, h2⟩, h3⟩
    refine look_cases (f := (makedirs exEnv (htmlDir exEnv exTag) htmlFS).1) (q := l ++ [n]) (by rw [h2]; simp) (by simp) ?_
    intro m hm hq
    have hm' : m ∈ (makedirs exEnv (htmlDir exEnv exTag) htmlFS).1 → m.1 = [dB, dS, nDoc, nIdx] ∨ m.1 = [dB, dS, nDoc, nSub, nPic] ∨
        ¬ exEnv.cs nDoc <+: m.1 ∨ look (makedirs exEnv (htmlDir exEnv exTag) htmlFS).1 m.1 = some .dir := by
      clear hq hm h3 h2
      revert m
      decide +kernel
    have hpre : exEnv.cs nDoc <+: l ++ [n] := by
      rcases h3 with h3 | ⟨_, _, h3⟩
      · rw [h3]; exact List.prefix_rfl
      · exact h3.trans (List.prefix_append _ _)
    rcases hm' hm with h | h | h | h
    · left
      rw [← hq] at h
      have := List.append_inj' (h.trans (by rfl : _ = [dB, dS, nDoc] ++ [nIdx])) rfl
      exact ⟨this.1, by simpa using this.2⟩
    · right
      rw [← hq] at h
      have := List.append_inj' (h.trans (by rfl : _ = [dB, dS, nDoc, nSub] ++ [nPic])) rfl
      exact ⟨this.1, by simpa using this.2⟩
    · rw [← hq] at h; exact absurd hpre h
    · rw [← hq, h2] at h; cases h
  obtain ⟨fs', h1, h2, _⟩ := dohtml_partial exEnv htmlFS (makedirs exEnv (htmlDir exEnv exTag) htmlFS).1 exTag nDoc exEnv_fit (by decide)
    (by decide +kernel) (linkFree_of (by decide +kernel)) (rooted_of (by decide +kernel)) rfl (eq_of_succeeds (by decide +kernel))
    (by decide) (by decide +kernel) (by
      rw [hg]
      intro p hp
      simp only [List.mem_singleton] at hp
      subst hp
      refine ⟨by decide, by decide, by decide, by decide, by decide, fun _ => by decide, ?_⟩
      intro r hr
      refine look_cases hr (by simp [show exEnv.cs nDoc = [dB, dS, nDoc] by decide]) ?_
      intro m hm hq
      have hm' : m ∈ (makedirs exEnv (htmlDir exEnv exTag) htmlFS).1 → m.1.length ≤ exEnv.limit ∧ ∀ x ∈ m.1, Clean x := by
        clear hq hm
        revert m
        decide +kernel
      obtain ⟨k1, k2⟩ := hm' hm
      rw [← hq] at k1 k2
      exact ⟨by simp at k1; omega, fun x hx => k2 x (List.mem_append_right _ hx)⟩)
    (by
      rw [hg]
      intro p hp p' hp' l l' n h h'
      simp only [List.mem_singleton] at hp hp'
      subst hp; subst hp'
      rcases hOf l n h with ⟨a, b⟩ | ⟨a, b⟩ <;> rcases hOf l' n h' with ⟨a', b'⟩ | ⟨a', b'⟩
      · rw [a, a']
      · rw [b] at b'; exact absurd b' (by decide)
      · rw [b] at b'; exact absurd b' (by decide)
      · rw [a, a'])
    (by
      rw [hg]
      intro p hp l n h
      simp only [List.mem_singleton] at hp
      subst hp
      rcases hOf l n h with ⟨_, rfl⟩ | ⟨_, rfl⟩ <;> decide +kernel)
  refine ⟨fs', h1, ?_⟩
  exact h2 nDoc (by decide +kernel) [dB, dS, nDoc, nSub] nPic
    ⟨⟨['b'], ['.', 'p', 'n', 'g'], by decide, ⟨'b', by decide, by decide⟩, by decide⟩, ⟨['y'], by decide +kernel⟩,
      .inr ⟨by decide +kernel, by decide, by decide⟩⟩ ['y'] (by decide +kernel)

end Pisi.Act
