import Verif.Model.ActionsMisc
import Verif.Props.ActionsHtml
import Verif.Props.ActionsNew

/-! # C168-C171: translations, config.guess and config.sub, linker scripts, touch and echo -/
namespace Pisi.Act
open Pisi.Path (joinPath joinStep lstripSlash)

/-! ## C168: domo -/

theorem writeC_exact {fs : FS} {cs : List Str} (hl : LinkFree fs) (hd : dotdot ∉ cs) (hr : Reached fs cs) (hnd : look fs cs ≠ some .dir) (c : Str) :
    writeC cs c fs = .ok (fs.put cs (.file c)) := by
  unfold writeC
  rw [(resolve_iff hl hd _).mpr ⟨rfl, hr⟩]
  dsimp only
  split
  · rename_i h; exact absurd h hnd
  · rfl

/-- The directory of the translations into a language. -/
def localeLoc (e : Env) (locale : Str) : Loc :=
  comps e.inst ++ ([['u', 's', 'r'], ['s', 'h', 'a', 'r', 'e'], ['l', 'o', 'c', 'a', 'l', 'e']] ++ (comps locale ++
    [['L', 'C', '_', 'M', 'E', 'S', 'S', 'A', 'G', 'E', 'S']]))

theorem comps_localeDir (e : Env) (locale dst : Str) : comps (localeDir e locale ++ dst) = localeLoc e locale ++ comps dst := by
  have h : localeDir e locale ++ dst = e.inst ++ '/' :: (['u', 's', 'r'] ++ '/' :: (['s', 'h', 'a', 'r', 'e'] ++ '/' ::
      (['l', 'o', 'c', 'a', 'l', 'e'] ++ '/' :: (locale ++ '/' :: (['L', 'C', '_', 'M', 'E', 'S', 'S', 'A', 'G', 'E', 'S'] ++ '/' :: dst))))) := by
    simp [localeDir]
  rw [h, comps_append, comps_append, comps_append, comps_append, comps_append, comps_append]
  have h1 : comps ['u', 's', 'r'] = [['u', 's', 'r']] := by decide
  have h2 : comps ['s', 'h', 'a', 'r', 'e'] = [['s', 'h', 'a', 'r', 'e']] := by decide
  have h3 : comps ['l', 'o', 'c', 'a', 'l', 'e'] = [['l', 'o', 'c', 'a', 'l', 'e']] := by decide
  have h4 : comps ['L', 'C', '_', 'M', 'E', 'S', 'S', 'A', 'G', 'E', 'S'] = [['L', 'C', '_', 'M', 'E', 'S', 'S', 'A', 'G', 'E', 'S']] := by decide
  rw [h1, h2, h3, h4]
  simp [localeLoc]

theorem cs_localeDir {e : Env} (hf : e.Fit) (locale dst : Str) : e.cs (localeDir e locale ++ dst) = localeLoc e locale ++ comps dst := by
  unfold Env.cs absComps
  have h0 : e.inst ≠ [] := by intro h; have := hf.abs; rw [h] at this; cases this
  have h1 : isAbs (localeDir e locale ++ dst) = true := by
    unfold localeDir
    rw [List.append_assoc, isAbs_append _ h0]; exact hf.abs
  rw [h1, if_pos rfl, comps_localeDir]

theorem msgfmt_words {src : Str} (hc : Clean src) : shWords (squeeze (wMsgfmt ++ ' ' :: src)) = some [wMsgfmt, src] := by
  have hw : Clean wMsgfmt := by decide
  have hsq : squeeze (wMsgfmt ++ ' ' :: src) = wMsgfmt ++ ' ' :: src := by
    apply squeeze_same
    · exact clean_single _ hw (single_noblank _ fun c h => (hc.2 c h).1)
    · have := last_clean hc (wMsgfmt ++ [' '])
      simpa using this
  rw [hsq, words_cons hw, words_last hc]; rfl

theorem msgfmt_run {e : Env} {m : Msgfmt} {src t : Str} {fs : FS} (hc : Clean src) (hh : src.head? ≠ some '-')
    (ht : stat fs (e.cs src) = some (.file t)) : msgfmt e m (squeeze (wMsgfmt ++ ' ' :: src)) fs =
      match m.compile t with
      | some o => match writeC (e.cs messagesMo) o fs with
        | .ok fs' => (fs', .ok ())
        | .error _ => (fs, .ok ())
      | none => (fs, .ok ()) := by
  unfold msgfmt
  rw [msgfmt_words hc]
  dsimp only
  rw [if_pos ⟨rfl, hh⟩, ht]
  rfl

/-- Where the translation is made. -/
def moLoc (e : Env) : Loc := comps e.cwd ++ [messagesMo]

theorem cs_mo (e : Env) : e.cs messagesMo = moLoc e := by
  unfold Env.cs absComps
  rw [if_neg (by decide)]
  rfl

/-- **C168, full statement.**  If `domo` ends without an error, the translation in the package is made from the text that was given. -/
def DomoFull : Prop := ∀ (e : Env) (m : Msgfmt) (fs fs' : FS) (src locale dst t : Str), e.Fit → LinkFree fs → Rooted fs → e.ignore = false →
  Clean src → src.head? ≠ some '-' → NoUp src → look fs (e.cs src) = some (.file t) →
  dotdot ∉ comps e.cwd → look fs (comps e.cwd) = some .dir → look fs (moLoc e) ≠ some .dir → NoUp locale → Proper dst →
  look fs (localeLoc e locale ++ [dst]) ≠ some .dir → domo e m src locale dst fs = (fs', .ok ()) →
  ∃ o, m.compile t = some o ∧ look fs' (localeLoc e locale ++ [dst]) = some (.file o)

theorem renameC_file {fs : FS} {s d : Loc} (hl : LinkFree fs) (hd : d ≠ []) (hds : dotdot ∉ s) (hdd : dotdot ∉ d)
    (hrs : Reached fs s) (hrd : Reached fs d) {c : Str} (hc : look fs s = some (.file c)) (hnd : look fs d ≠ some .dir) :
    ∃ fs', renameC s d fs = .ok fs' ∧ ∀ q, look fs' q = if q = d then some (.file c) else if q = s then none else look fs q := by
  have hs : s ≠ [] := by rintro rfl; simp [look] at hc
  have h1 : lresolve fs s = some s := (lstat_reached hds hrs).2
  have h2 : lresolve fs d = some d := (lstat_reached hdd hrd).2
  unfold renameC
  rw [h1, h2]
  dsimp only
  rw [hc]
  dsimp only
  by_cases hsd : s = d
  · subst hsd
    rw [if_pos rfl]
    refine ⟨fs, rfl, fun q => ?_⟩
    by_cases hq : q = s
    · subst hq; rw [if_pos rfl, hc]
    · rw [if_neg hq, if_neg hq]
  rw [if_neg hsd, if_neg]
  · cases hx : look fs d with
    | none =>
      refine ⟨_, rfl, fun q => ?_⟩
      rw [look_put hd, look_del hs]
    | some n => cases n with
      | dir => exact absurd hx hnd
      | link t => exact absurd hx (look_not_link hl _ _)
      | file c' =>
        refine ⟨_, rfl, fun q => ?_⟩
        rw [look_put hd, look_del hs]
  · rintro (h | h | h)
    · have := hrd s h hsd
      rw [hc] at this; cases this
    · exact hd h
    · exact hs h

/-- A file is moved to a place where there is no directory. -/
theorem move_file {e : Env} {fs : FS} {p dst c : Str} (hl : LinkFree fs) (hm : hasMagic p = false) (hb : basename p ≠ [])
    (hd : e.cs dst ≠ []) (hds : dotdot ∉ e.cs p) (hdd : dotdot ∉ e.cs dst) (hrs : Reached fs (e.cs p)) (hrd : Reached fs (e.cs dst))
    (hc : look fs (e.cs p) = some (.file c)) (hnd : look fs (e.cs dst) ≠ some .dir) :
    ∃ fs', move e p dst fs = (fs', .ok ()) ∧
      ∀ q, look fs' q = if q = e.cs dst then some (.file c) else if q = e.cs p then none else look fs q := by
  obtain ⟨fs', h1, h2⟩ := renameC_file hl hd hds hdd hrs hrd hc hnd
  refine ⟨fs', ?_, h2⟩
  have hglob : glob fs e.cwd p = [p] := by
    rw [glob_plain hm hb, if_pos]
    show lexistsC fs (e.cs p) = true
    unfold lexistsC
    rw [(lstat_iff hl hds _).mpr ⟨hrs, hc⟩]; rfl
  have hif : isFileC fs (e.cs p) = true := (isFileC_iff hl hds).mpr ⟨hrs, c, hc⟩
  have hmove : shutilMove e.cwd e.limit p dst fs = (fs', .ok ()) := by
    unfold shutilMove
    dsimp only
    have hndir : ¬ isDirC fs (absComps e.cwd dst) = true := fun h => hnd ((isDirC_iff hl hdd).mp h).2
    rw [if_neg hndir]
    unfold catching call
    have h3 : renameC (absComps e.cwd p) (absComps e.cwd dst) fs = .ok fs' := h1
    rw [h3]
  unfold move
  rw [hglob]
  show seq _ skip fs = _
  unfold seq
  dsimp only
  rw [if_pos (by rw [hif]; rfl)]
  unfold catching
  rw [hmove]
  rfl

/-- **C168, partial.**  So it is if `msgfmt` has no objections to the text; nothing else is changed but for the directories on the way
and `messages.mo`, which is gone.  Missing for the full statement: texts `msgfmt` rejects, see `domo_rejected`. -/
theorem domo_partial (e : Env) (m : Msgfmt) (fs fs1 : FS) (src locale dst t o : Str) (hf : e.Fit) (hl : LinkFree fs) (hR : Rooted fs)
    (hi : e.ignore = false) (hc : Clean src) (hh : src.head? ≠ some '-') (hu : NoUp src) (ht : look fs (e.cs src) = some (.file t))
    (hcwd : dotdot ∉ comps e.cwd) (hcd : look fs (comps e.cwd) = some .dir) (hmo : look fs (moLoc e) ≠ some .dir) (hlo : NoUp locale)
    (hdst : Proper dst) (hnd : look fs (localeLoc e locale ++ [dst]) ≠ some .dir) (ho : m.compile t = some o)
    (hlf : ∀ c, look fs (localeLoc e locale) ≠ some (.file c))
    (hmk : makedirs e (localeDir e locale) (fs.put (moLoc e) (.file o)) = (fs1, .ok ())) :
    ∃ fs', domo e m src locale dst fs = (fs', .ok ()) ∧ ∀ q, look fs' q =
      if q = localeLoc e locale ++ [dst] then some (.file o) else if q = moLoc e then none
      else if q <+: localeLoc e locale ∧ look fs q = none then some .dir else look fs q := by
  have hmd : dotdot ∉ moLoc e := by
    unfold moLoc
    intro h
    rcases List.mem_append.mp h with h | h
    · exact hcwd h
    · simp only [List.mem_singleton] at h; revert h; decide
  have hm0 : moLoc e ≠ [] := by simp [moLoc]
  have hmr : Reached fs (moLoc e) := reached_sub (hR _ (by rw [hcd]; simp)) hcd
  have hsd : dotdot ∉ e.cs src := by
    unfold Env.cs absComps
    split
    · exact hu
    · intro h
      rcases List.mem_append.mp h with h | h
      · exact hcwd h
      · exact hu h
  have h1 : msgfmt e m (squeeze (wMsgfmt ++ ' ' :: src)) fs = (fs.put (moLoc e) (.file o), .ok ()) := by
    rw [msgfmt_run hc hh ((stat_iff hl hsd _).mpr ⟨hR _ (by rw [ht]; simp), ht⟩), ho, cs_mo]
    dsimp only
    rw [writeC_exact hl hmd hmr hmo]
  have hl0 : LinkFree (fs.put (moLoc e) (.file o)) := linkFree_put hl _ (by simp)
  have hR0 : Rooted (fs.put (moLoc e) (.file o)) := rooted_file hR hm0 hmr hmo
  have hLd : dotdot ∉ localeLoc e locale := by
    unfold localeLoc
    intro h
    simp only [List.mem_append] at h
    rcases h with h | h | h | h
    · exact hf.noup h
    · revert h; decide
    · exact hlo h
    · revert h; decide
  have hcl : e.cs (localeDir e locale) = localeLoc e locale := by
    have := cs_localeDir hf locale []
    simpa using this
  have hcl2 : e.cs (localeDir e locale ++ dst) = localeLoc e locale ++ [dst] := by
    rw [cs_localeDir hf, comps_proper hdst]
  obtain ⟨hl1, hex⟩ := makedirs_exact hl0 (by rw [hcl]; exact hLd) hi hmk
  have hre := makedirs_reached hl0 (by rw [hcl]; exact hLd) hi hmk
  rw [hcl] at hre
  simp only [hcl] at hex
  have hR1 := rooted_makedirs hR0 hre hex
  have hneq : localeLoc e locale ≠ moLoc e := by
    intro h
    have := congrArg List.getLast? h
    unfold localeLoc moLoc at this
    rw [← List.append_assoc, ← List.append_assoc, List.getLast?_concat, List.getLast?_concat] at this
    revert this; decide
  have hLdir : look fs1 (localeLoc e locale) = some .dir := by
    rw [hex, look_put hm0, if_neg hneq]
    cases hx : look fs (localeLoc e locale) with
    | none => rw [if_pos ⟨List.prefix_rfl, rfl⟩]
    | some n => cases n with
      | dir => simp
      | file c => exact absurd hx (hlf c)
      | link t => exact absurd hx (look_not_link hl _ _)
  have hmo1 : look fs1 (moLoc e) = some (.file o) := by
    rw [hex, look_put hm0, if_pos rfl]; simp
  have hnd1 : look fs1 (localeLoc e locale ++ [dst]) ≠ some .dir := by
    rw [hex, if_neg]
    · rw [look_put hm0]
      split
      · simp
      · exact hnd
    · rintro ⟨h, _⟩
      have := h.length_le; simp at this; omega
  have hdd2 : dotdot ∉ localeLoc e locale ++ [dst] := by
    intro h
    rcases List.mem_append.mp h with h | h
    · exact hLd h
    · simp only [List.mem_singleton] at h; exact hdst.2.2.1 h.symm
  obtain ⟨fs', h2, h3⟩ := move_file (e := e) (fs := fs1) (p := messagesMo) (dst := localeDir e locale ++ dst) (c := o) hl1 (by decide) (by decide)
    (by rw [hcl2]; simp) (by rw [cs_mo]; exact hmd) (by rw [hcl2]; exact hdd2) (by rw [cs_mo]; exact hR1 _ (by rw [hmo1]; simp))
    (by rw [hcl2]; exact reached_sub hre hLdir) (by rw [cs_mo]; exact hmo1) (by rw [hcl2]; exact hnd1)
  refine ⟨fs', ?_, ?_⟩
  · unfold domo seq
    rw [h1]
    dsimp only
    rw [hmk]
    exact h2
  · intro q
    rw [h3, hcl2, cs_mo]
    by_cases hq : q = localeLoc e locale ++ [dst]
    · rw [if_pos hq, if_pos hq]
    rw [if_neg hq, if_neg hq]
    by_cases hq2 : q = moLoc e
    · rw [if_pos hq2, if_pos hq2]
    rw [if_neg hq2, if_neg hq2, hex, look_put hm0, if_neg hq2]

/-- If `msgfmt` rejects the text, the rest is done all the same: a `messages.mo` left over from something else is put into the
package, or nothing at all. -/
theorem domo_rejected (e : Env) (m : Msgfmt) (fs : FS) (src locale dst t : Str) (hc : Clean src) (hh : src.head? ≠ some '-')
    (ht : stat fs (e.cs src) = some (.file t)) (ho : m.compile t = none) :
    domo e m src locale dst fs = seq (makedirs e (localeDir e locale)) (move e messagesMo (localeDir e locale ++ dst)) fs := by
  unfold domo seq
  rw [msgfmt_run hc hh ht, ho]

def nPo : Str := ['t', 'r', '.', 'p', 'o']
def nMo : Str := ['p', '.', 'm', 'o']
def poFS : FS := dirsFS ++ [([dB, dS, nPo], .file ['x'])]
/-- It takes texts that begin with an `x`. -/
def exFmt : Msgfmt := ⟨fun t => if t.head? = some 'x' then some ('M' :: t) else none, fun _ fs => fs⟩
def staleFS : FS := dirsFS ++ [([dB, dS, nPo], .file ['y']), ([dB, dS, messagesMo], .file ['o', 'l', 'd'])]

/-- A case of `domo_partial`. -/
example : ∃ fs', domo exEnv exFmt nPo ['t', 'r'] nMo poFS = (fs', .ok ()) ∧
    look fs' (localeLoc exEnv ['t', 'r'] ++ [nMo]) = some (.file ['M', 'x']) := by
  obtain ⟨fs', h1, h2⟩ := domo_partial exEnv exFmt poFS (makedirs exEnv (localeDir exEnv ['t', 'r']) (poFS.put (moLoc exEnv) (.file ['M', 'x']))).1
    nPo ['t', 'r'] nMo ['x'] ['M', 'x'] exEnv_fit (linkFree_of (by decide +kernel)) (rooted_of (by decide +kernel)) rfl (by decide) (by decide)
    (by decide) (by decide +kernel) (by decide) (by decide +kernel) (by decide +kernel) (by decide) (by decide) (by decide +kernel) rfl
    (by intro c; rw [show look poFS (localeLoc exEnv ['t', 'r']) = none by decide +kernel]; simp) (eq_of_succeeds (by decide +kernel))
  exact ⟨fs', h1, by rw [h2, if_pos rfl]⟩

/-- Not so in full: a translation with an error in it makes the old one go into the package. -/
theorem domo_refuted : ¬ DomoFull := by
  intro h
  obtain ⟨o, h1, -⟩ := h exEnv exFmt staleFS (domo exEnv exFmt nPo ['t', 'r'] nMo staleFS).1 nPo ['t', 'r'] nMo ['y'] exEnv_fit
    (linkFree_of (by decide +kernel)) (rooted_of (by decide +kernel)) rfl (by decide) (by decide) (by decide) (by decide +kernel) (by decide)
    (by decide +kernel) (by decide +kernel) (by decide) (by decide) (by decide +kernel) (eq_of_succeeds (by decide +kernel))
  rw [show exFmt.compile ['y'] = none by decide] at h1; cases h1

theorem domo_stale : look (domo exEnv exFmt nPo ['t', 'r'] nMo staleFS).1 (localeLoc exEnv ['t', 'r'] ++ [nMo]) =
    some (.file ['o', 'l', 'd']) := by decide +kernel

/-! ## C170: echo -/

/-- Where a file or nothing is, a file may come without any path leading elsewhere. -/
theorem walk_put {fs : FS} {l : Loc} (hl : l ≠ []) (c : Str) (hn : look fs l = none ∨ ∃ c, look fs l = some (.file c)) (f : Bool) :
    ∀ (n : Nat) (cs : List Str) (cur : Loc), walk (fs.put l (.file c)) f n cur cs = walk fs f n cur cs := by
  intro n
  induction n with
  | zero =>
    intro cs
    induction cs with
    | nil => intro cur; rw [walk_nil, walk_nil]
    | cons x r ih =>
      intro cur
      rw [walk_cons, walk_cons, look_put hl]
      by_cases hx : cur ++ [x] = l
      · subst hx
        rw [if_pos rfl, ih]
        rcases hn with hn | ⟨c', hn⟩ <;> rw [hn]
      · rw [if_neg hx, ih, ih]; rfl
  | succ n ihn =>
    intro cs
    induction cs with
    | nil => intro cur; rw [walk_nil, walk_nil]
    | cons x r ih =>
      intro cur
      rw [walk_cons, walk_cons, look_put hl]
      by_cases hx : cur ++ [x] = l
      · subst hx
        rw [if_pos rfl, ih]
        rcases hn with hn | ⟨c', hn⟩ <;> rw [hn]
      · rw [if_neg hx, ih, ih]
        have : walkLink (fs.put l (.file c)) f (n + 1) = walkLink fs f (n + 1) := by
          funext a b; exact ihn b a
        rw [this]

/-- The text of the file at a path, nothing if there is none. -/
def textAt (e : Env) (fs : FS) (p : Str) : Str := match stat fs (e.cs p) with
  | some (.file c) => c
  | _ => []

/-- **C170.**  `echo` succeeds exactly if the path leads to a file or to a place where a file can be. -/
theorem echo_ok (e : Env) (fs : FS) (p c : Str) (hi : e.ignore = false) : (∃ fs', echo e p c fs = (fs', .ok ())) ↔
    ∃ l, resolve fs (e.cs p) = some l ∧ look fs l ≠ some .dir := by
  unfold echo catching call writeC
  dsimp only
  cases hr : resolve fs (e.cs p) with
  | none => simp [error, hi, fail]
  | some l =>
    cases hk : look fs l with
    | none => simp [hk]
    | some n => cases n <;> simp [hk, error, hi, fail]

theorem echo_write {e : Env} {fs : FS} {p c : Str} {l : Loc} (hr : resolve fs (e.cs p) = some l) (hk : look fs l ≠ some .dir) :
    echo e p c fs = (fs.put l (.file (textAt e fs p ++ (c ++ ['\n']))), .ok ()) := by
  unfold echo catching call writeC
  dsimp only
  rw [hr]
  cases h : look fs l with
  | none => simp only [h]; rfl
  | some n => cases n with
    | dir => exact absurd h hk
    | file x => simp only [h]; rfl
    | link x => simp only [h]; rfl

/-- What a path leads to in the end is no link. -/
theorem walk_end {fs : FS} : ∀ (n : Nat) (cs : List Str) (cur l : Loc), (∀ t, look fs cur ≠ some (.link t)) →
    (∀ q, q <+: cur → ∀ t, look fs q ≠ some (.link t)) → walk fs true n cur cs = some l → ∀ t, look fs l ≠ some (.link t) := by
  intro n
  induction n with
  | zero =>
    intro cs
    induction cs with
    | nil => intro cur l h _ hw; rw [walk_nil] at hw; cases hw; exact h
    | cons x r ih =>
      intro cur l h hp hw
      rw [walk_cons] at hw
      by_cases hx : x = dotdot
      · rw [if_pos hx] at hw
        exact ih _ _ (hp _ (List.dropLast_prefix _)) (fun q hq => hp q (hq.trans (List.dropLast_prefix _))) hw
      · rw [if_neg hx] at hw
        cases hk : look fs (cur ++ [x]) with
        | none =>
          rw [hk] at hw
          dsimp only at hw
          split at hw
          · cases hw; rw [hk]; simp
          · cases hw
        | some y =>
          rw [hk] at hw
          cases y with
          | file c =>
            dsimp only at hw
            split at hw
            · cases hw; rw [hk]; simp
            · cases hw
          | dir =>
            refine ih _ _ (by rw [hk]; simp) ?_ hw
            intro q hq
            rw [List.prefix_concat_iff] at hq
            rcases hq with rfl | hq
            · rw [hk]; simp
            · exact hp q hq
          | link t =>
            dsimp only at hw
            rw [if_neg (by simp)] at hw
            cases hw
  | succ n ihn =>
    intro cs
    induction cs with
    | nil => intro cur l h _ hw; rw [walk_nil] at hw; cases hw; exact h
    | cons x r ih =>
      intro cur l h hp hw
      rw [walk_cons] at hw
      by_cases hx : x = dotdot
      · rw [if_pos hx] at hw
        exact ih _ _ (hp _ (List.dropLast_prefix _)) (fun q hq => hp q (hq.trans (List.dropLast_prefix _))) hw
      · rw [if_neg hx] at hw
        cases hk : look fs (cur ++ [x]) with
        | none =>
          rw [hk] at hw
          dsimp only at hw
          split at hw
          · cases hw; rw [hk]; simp
          · cases hw
        | some y =>
          rw [hk] at hw
          cases y with
          | file c =>
            dsimp only at hw
            split at hw
            · cases hw; rw [hk]; simp
            · cases hw
          | dir =>
            refine ih _ _ (by rw [hk]; simp) ?_ hw
            intro q hq
            rw [List.prefix_concat_iff] at hq
            rcases hq with rfl | hq
            · rw [hk]; simp
            · exact hp q hq
          | link t =>
            dsimp only at hw
            rw [if_neg (by simp)] at hw
            have hnil : ∀ q : Loc, q <+: [] → ∀ t, look fs q ≠ some (.link t) := by
              intro q hq t
              rw [List.prefix_nil.mp hq]; simp [look]
            by_cases ha : isAbs t = true
            · rw [if_pos ha] at hw
              exact ihn _ _ _ (hnil _ List.prefix_rfl) hnil hw
            · rw [if_neg ha] at hw
              exact ihn _ _ _ h hp hw

theorem resolve_end {fs : FS} {cs : List Str} {l : Loc} (h : resolve fs cs = some l) (t : Str) : look fs l ≠ some (.link t) := by
  refine walk_end 40 cs [] l (by simp [look]) ?_ h t
  intro q hq t
  rw [List.prefix_nil.mp hq]; simp [look]

/-- **C170.**  After any number of `echo` on one path the lines are in the file, in their order and after what was there before, and
nothing else is changed. -/
theorem echo_lines (e : Env) (p : Str) (l : Loc) : ∀ (cs : List Str) (fs : FS), resolve fs (e.cs p) = some l → look fs l ≠ some .dir →
    cs ≠ [] → ∃ fs', each (echo e p) cs fs = (fs', .ok ()) ∧
      ∀ q, look fs' q = if q = l then some (.file (textAt e fs p ++ cs.flatMap (· ++ ['\n']))) else look fs q := by
  intro cs
  induction cs with
  | nil => intro _ _ _ h; exact absurd rfl h
  | cons c cs ih =>
    intro fs hr hk _
    have hl : l ≠ [] := by rintro rfl; simp [look] at hk
    have h1 := echo_write (c := c) hr hk
    have hn : look fs l = none ∨ ∃ c, look fs l = some (.file c) := by
      cases h : look fs l with
      | none => exact .inl rfl
      | some n => cases n with
        | dir => exact absurd h hk
        | file x => exact .inr ⟨x, rfl⟩
        | link x => exact absurd h (resolve_end hr x)
    by_cases hcs : cs = []
    · subst hcs
      refine ⟨fs.put l (.file (textAt e fs p ++ (c ++ ['\n']))), ?_, fun q => ?_⟩
      · show seq _ skip fs = _
        unfold seq
        rw [h1]; rfl
      · rw [look_put hl]; simp
    · have hr1 : resolve (fs.put l (.file (textAt e fs p ++ (c ++ ['\n'])))) (e.cs p) = some l := by
        unfold resolve; rw [walk_put hl _ hn]; exact hr
      have hk1 : look (fs.put l (.file (textAt e fs p ++ (c ++ ['\n'])))) l = some (.file (textAt e fs p ++ (c ++ ['\n']))) := by
        rw [look_put hl, if_pos rfl]
      obtain ⟨fs', h2, h3⟩ := ih _ hr1 (by rw [hk1]; simp) hcs
      refine ⟨fs', ?_, fun q => ?_⟩
      · show seq _ (each (echo e p) cs) fs = _
        unfold seq
        rw [h1]; exact h2
      · rw [h3, look_put hl]
        by_cases hq : q = l
        · rw [if_pos hq, if_pos hq]
          have : textAt e (fs.put l (.file (textAt e fs p ++ (c ++ ['\n'])))) p = textAt e fs p ++ (c ++ ['\n']) := by
            generalize fs.put l (.file (textAt e fs p ++ (c ++ ['\n']))) = g at hr1 hk1
            unfold textAt stat at hk1 ⊢
            rw [hr1, Option.bind_some, hk1]
          rw [this]; simp
        · rw [if_neg hq, if_neg hq, if_neg hq]

/-- Two lines, over a link and after a line that is there. -/
example : ∃ fs', each (echo exEnv ['l']) [['a'], ['b']] (dirsFS ++ [([dB, dS, ['l']], .link ['f']), ([dB, dS, ['f']], .file ['0', '\n'])]) = (fs', .ok ()) ∧
    look fs' [dB, dS, ['f']] = some (.file ['0', '\n', 'a', '\n', 'b', '\n']) ∧ look fs' [dB, dS, ['l']] = some (.link ['f']) := by
  obtain ⟨fs', h1, h2⟩ := echo_lines exEnv ['l'] [dB, dS, ['f']] [['a'], ['b']]
    (dirsFS ++ [([dB, dS, ['l']], .link ['f']), ([dB, dS, ['f']], .file ['0', '\n'])]) (by decide +kernel) (by decide +kernel) (by decide)
  exact ⟨fs', h1, by rw [h2]; decide +kernel, by rw [h2]; decide +kernel⟩

/-! ## C171: touch -/

/-- What can be reached over a link is there without following it, too. -/
theorem walk_lexists {fs : FS} : ∀ (n : Nat) (cs : List Str) (cur l : Loc), walk fs true n cur cs = some l → look fs l ≠ none →
    ∃ l', walk fs false n cur cs = some l' ∧ look fs l' ≠ none := by
  intro n
  induction n with
  | zero =>
    intro cs
    induction cs with
    | nil => intro cur l hw h; rw [walk_nil] at hw ⊢; cases hw; exact ⟨cur, rfl, h⟩
    | cons x r ih =>
      intro cur l hw h
      rw [walk_cons] at hw ⊢
      by_cases hx : x = dotdot
      · rw [if_pos hx] at hw ⊢; exact ih _ _ hw h
      · rw [if_neg hx] at hw ⊢
        cases hk : look fs (cur ++ [x]) with
        | none =>
          rw [hk] at hw; dsimp only at hw ⊢
          split at hw
          · rename_i hr; cases hw; rw [if_pos hr]; exact ⟨_, rfl, h⟩
          · cases hw
        | some y =>
          rw [hk] at hw
          cases y with
          | file c =>
            dsimp only at hw ⊢
            split at hw
            · rename_i hr; cases hw; rw [if_pos hr]; exact ⟨_, rfl, h⟩
            · cases hw
          | dir => exact ih _ _ hw h
          | link t => dsimp only at hw; rw [if_neg (by simp)] at hw; cases hw
  | succ n ihn =>
    intro cs
    induction cs with
    | nil => intro cur l hw h; rw [walk_nil] at hw ⊢; cases hw; exact ⟨cur, rfl, h⟩
    | cons x r ih =>
      intro cur l hw h
      rw [walk_cons] at hw ⊢
      by_cases hx : x = dotdot
      · rw [if_pos hx] at hw ⊢; exact ih _ _ hw h
      · rw [if_neg hx] at hw ⊢
        cases hk : look fs (cur ++ [x]) with
        | none =>
          rw [hk] at hw; dsimp only at hw ⊢
          split at hw
          · rename_i hr; cases hw; rw [if_pos hr]; exact ⟨_, rfl, h⟩
          · cases hw
        | some y =>
          rw [hk] at hw
          cases y with
          | file c =>
            dsimp only at hw ⊢
            split at hw
            · rename_i hr; cases hw; rw [if_pos hr]; exact ⟨_, rfl, h⟩
            · cases hw
          | dir => exact ih _ _ hw h
          | link t =>
            dsimp only at hw ⊢
            rw [if_neg (by simp)] at hw
            by_cases hr : r = []
            · rw [if_pos ⟨hr, rfl⟩]; exact ⟨_, rfl, by rw [hk]; simp⟩
            · rw [if_neg (fun h => hr h.1)]
              exact ihn _ _ _ hw h

theorem lexists_of_exists {fs : FS} {cs : List Str} (h : existsC fs cs = true) : lexistsC fs cs = true := by
  unfold existsC stat at h
  cases hr : resolve fs cs with
  | none => rw [hr] at h; cases h
  | some l =>
    rw [hr] at h
    have h0 : look fs l ≠ none := by
      intro h1
      have : (look fs l).isSome = true := h
      rw [h1] at this; cases this
    obtain ⟨l', h1, h2⟩ := walk_lexists 40 cs [] l hr h0
    unfold lexistsC lstat lresolve
    rw [h1]
    show (look fs l').isSome = true
    exact Option.isSome_iff_ne_none.mpr h2

/-- **C171, full statement.**  After `touch` there is something at the path, and no file has lost its text. -/
def TouchFull : Prop := ∀ (e : Env) (fs fs' : FS) (p : Str), e.ignore = false → basename p ≠ [] → touch e p fs = (fs', .ok ()) →
  existsC fs' (e.cs p) = true ∧ ∀ q c, look fs q = some (.file c) → look fs' q = some (.file c)

/-- **C171, partial.**  So it is for names without wild cards: what is there is left as it is, otherwise there is an empty file
afterwards.  Missing for the full statement: names with brackets, see `touch_refuted`. -/
theorem touch_partial (e : Env) (fs fs' : FS) (p : Str) (hi : e.ignore = false) (hb : basename p ≠ []) (hm : hasMagic p = false)
    (h : touch e p fs = (fs', .ok ())) : existsC fs' (e.cs p) = true ∧
      (fs' = fs ∨ existsC fs (e.cs p) = false ∧ ∃ l, resolve fs (e.cs p) = some l ∧ fs' = fs.put l (.file [])) ∧
      ∀ q c, look fs q = some (.file c) → look fs' q = some (.file c) := by
  unfold touch at h
  have hg := glob_plain (fs := fs) (cwd := e.cwd) hm hb
  by_cases hx : lexistsC fs (e.cs p) = true
  · rw [if_pos (show lexistsC fs (absComps e.cwd p) = true from hx)] at hg
    rw [hg, if_pos (by simp)] at h
    have h' : seq (fun fs => if existsC fs (e.cs p) then (fs, .ok ()) else (fs, .error .os)) skip fs = (fs', .ok ()) := h
    unfold seq at h'
    by_cases hex : existsC fs (e.cs p) = true
    · simp only [hex, if_true, skip] at h'
      cases h'
      exact ⟨hex, .inl rfl, fun _ _ h => h⟩
    · simp only [hex] at h'
      cases h'
  · rw [if_neg (show ¬ lexistsC fs (absComps e.cwd p) = true from hx)] at hg
    rw [hg, if_neg (by simp)] at h
    have hex : existsC fs (e.cs p) = false := by
      cases h1 : existsC fs (e.cs p) with
      | false => rfl
      | true => exact absurd (lexists_of_exists h1) hx
    unfold catching call writeC at h
    cases hr : resolve fs (e.cs p) with
    | none => rw [hr] at h; simp [error, hi, fail] at h
    | some l =>
      rw [hr] at h
      dsimp only at h
      have hk : look fs l = none := by
        unfold existsC stat at hex
        rw [hr] at hex
        have : (look fs l).isSome = false := hex
        simpa using this
      rw [hk] at h
      dsimp only at h
      have hl : l ≠ [] := by rintro rfl; simp [look] at hk
      have hfs : fs' = fs.put l (.file []) := by cases h; rfl
      subst hfs
      refine ⟨?_, .inr ⟨hex, l, rfl, rfl⟩, ?_⟩
      · unfold existsC stat resolve
        rw [walk_put hl _ (.inl hk)]
        rw [show walk fs true 40 [] (e.cs p) = some l from hr]
        show (look _ l).isSome = true
        rw [look_put hl, if_pos rfl]; rfl
      · intro q c hq
        rw [look_put hl, if_neg, hq]
        rintro rfl
        rw [hk] at hq; cases hq

example : ∃ fs', touch exEnv ['n'] dirsFS = (fs', .ok ()) ∧ look fs' [dB, dS, ['n']] = some (.file []) :=
  ⟨_, eq_of_succeeds (by decide +kernel), by decide +kernel⟩

/-- Not so in full: a file whose name has brackets in it is emptied. -/
theorem touch_refuted : ¬ TouchFull := by
  intro h
  have := (h exEnv bracketFS (touch exEnv nAb bracketFS).1 nAb rfl (by decide) (eq_of_succeeds (by decide +kernel))).2 [dB, dS, nAb] ['x']
    (by decide +kernel)
  revert this; decide +kernel

/-- A link that leads nowhere ends the script with an `OSError` that is not caught. -/
theorem touch_dangling (e : Env) (fs : FS) (p : Str) (hb : basename p ≠ []) (hm : hasMagic p = false)
    (h1 : lexistsC fs (e.cs p) = true) (h2 : existsC fs (e.cs p) = false) : touch e p fs = (fs, .error .os) := by
  unfold touch
  have hg := glob_plain (fs := fs) (cwd := e.cwd) hm hb
  rw [if_pos (show lexistsC fs (absComps e.cwd p) = true from h1)] at hg
  rw [hg, if_pos (by simp)]
  show seq (fun fs => if existsC fs (e.cs p) then (fs, .ok ()) else (fs, .error .os)) skip fs = _
  unfold seq
  simp [h2]

/-! ## C172: gen_usr_ldscript -/

/-- The directory of the linker scripts. -/
def usrLib (e : Env) : Loc := comps e.inst ++ [['u', 's', 'r'], ['l', 'i', 'b']]

theorem cs_usrLib {e : Env} (hf : e.Fit) : e.cs (e.inst ++ ['/', 'u', 's', 'r', '/', 'l', 'i', 'b']) = usrLib e := by
  have h0 : e.inst ≠ [] := by intro h; have := hf.abs; rw [h] at this; cases this
  have h : e.inst ++ ['/', 'u', 's', 'r', '/', 'l', 'i', 'b'] = e.inst ++ '/' :: (['u', 's', 'r'] ++ '/' :: ['l', 'i', 'b']) := by simp
  unfold Env.cs absComps
  rw [if_pos (by rw [isAbs_append _ h0]; exact hf.abs), h, comps_append, comps_append]
  rfl

theorem cs_usrLib_file {e : Env} (hf : e.Fit) (lib : Str) : e.cs (e.inst ++ (['/', 'u', 's', 'r', '/', 'l', 'i', 'b', '/'] ++ lib)) = usrLib e ++ comps lib := by
  have h0 : e.inst ≠ [] := by intro h; have := hf.abs; rw [h] at this; cases this
  have h : e.inst ++ (['/', 'u', 's', 'r', '/', 'l', 'i', 'b', '/'] ++ lib) = e.inst ++ '/' :: (['u', 's', 'r'] ++ '/' :: (['l', 'i', 'b'] ++ '/' :: lib)) := by simp
  unfold Env.cs absComps
  rw [if_pos (by rw [isAbs_append _ h0]; exact hf.abs), h, comps_append, comps_append, comps_append]
  have h1 : comps ['u', 's', 'r'] = [['u', 's', 'r']] := by decide
  have h2 : comps ['l', 'i', 'b'] = [['l', 'i', 'b']] := by decide
  rw [h1, h2]
  simp [usrLib]

/-- **C172, full statement.**  `gen_usr_ldscript` puts a linker script that names the library in `/lib` at the name of the library in
`/usr/lib` of the package; nothing else is changed but for the directories on the way. -/
def LdscriptFull : Prop := ∀ (e : Env) (fs fs' : FS) (lib : Str), e.Fit → Rooted fs → e.ignore = false → Proper lib →
  genLdscript e lib fs = (fs', .ok ()) → ∀ q, look fs' q = if q = usrLib e ++ [lib] then some (.file (ldscript lib))
    else if q <+: usrLib e ∧ look fs q = none then some .dir else look fs q

/-- **C172, partial.**  So it is where there are no symbolic links. -/
theorem ldscript_partial (e : Env) (fs fs' : FS) (lib : Str) (hf : e.Fit) (hl : LinkFree fs) (hi : e.ignore = false) (hp : Proper lib)
    (h : genLdscript e lib fs = (fs', .ok ())) : ∀ q, look fs' q = if q = usrLib e ++ [lib] then some (.file (ldscript lib))
      else if q <+: usrLib e ∧ look fs q = none then some .dir else look fs q := by
  have hud : dotdot ∉ usrLib e := by
    unfold usrLib
    intro h
    rcases List.mem_append.mp h with h | h
    · exact hf.noup h
    · revert h; decide
  have hud2 : dotdot ∉ usrLib e ++ [lib] := by
    intro h
    rcases List.mem_append.mp h with h | h
    · exact hud h
    · simp only [List.mem_singleton] at h; exact hp.2.2.1 h.symm
  unfold genLdscript seq at h
  rcases hmk : makedirs e (e.inst ++ ['/', 'u', 's', 'r', '/', 'l', 'i', 'b']) fs with ⟨fs1, x | ⟨⟩⟩
  · rw [hmk] at h; cases h
  · rw [hmk] at h
    dsimp only at h
    obtain ⟨hl1, hex⟩ := makedirs_exact hl (by rw [cs_usrLib hf]; exact hud) hi hmk
    simp only [cs_usrLib hf] at hex
    rw [cs_usrLib_file hf, comps_proper hp] at h
    unfold call writeC at h
    cases hr : resolve fs1 (usrLib e ++ [lib]) with
    | none => rw [hr] at h; cases h
    | some l =>
      rw [hr] at h
      have hll := resolve_eq hl1 hud2 hr
      subst hll
      dsimp only at h
      have hfs : fs' = fs1.put (usrLib e ++ [lib]) (.file (ldscript lib)) := by
        cases hk : look fs1 (usrLib e ++ [lib]) with
        | none => rw [hk] at h; cases h; rfl
        | some n => cases n with
          | dir => rw [hk] at h; cases h
          | file c => rw [hk] at h; cases h; rfl
          | link t => rw [hk] at h; cases h; rfl
      intro q
      rw [hfs, look_put (by simp), hex]

def dU : Str := ['u', 's', 'r']
def dL : Str := ['l', 'i', 'b']
def nSo : Str := ['a', '.', 's', 'o']
def nSo1 : Str := ['a', '.', 's', 'o', '.', '1']
/-- The library as `make install` puts it there. -/
def soFS : FS := dirsFS ++ [([dB, dI, dU], .dir), ([dB, dI, dU, dL], .dir), ([dB, dI, dU, dL, nSo], .link nSo1),
  ([dB, dI, dU, dL, nSo1], .file ['c', 'o', 'd', 'e'])]

example : ∃ fs', genLdscript exEnv nSo dirsFS = (fs', .ok ()) ∧ look fs' [dB, dI, dU, dL, nSo] = some (.file (ldscript nSo)) := by
  refine ⟨_, eq_of_succeeds (by decide +kernel), ?_⟩
  rw [ldscript_partial exEnv dirsFS _ nSo exEnv_fit (linkFree_of (by decide +kernel)) rfl (by decide) (eq_of_succeeds (by decide +kernel))]
  rw [if_pos (by decide)]

/-- Not so in full: where there is the usual symbolic link, the library itself is overwritten with the script. -/
theorem ldscript_refuted : ¬ LdscriptFull := by
  intro h
  have := h exEnv soFS (genLdscript exEnv nSo soFS).1 nSo exEnv_fit (rooted_of (by decide +kernel)) rfl (by decide)
    (eq_of_succeeds (by decide +kernel)) [dB, dI, dU, dL, nSo1]
  rw [if_neg (by decide), if_neg (by decide)] at this
  revert this; decide +kernel

end Pisi.Act
