import Verif.Model.PackLeft
import Verif.Props.PackRun

/-!
# C238: installing what builds have left
-/
namespace Pisi.PackRun

/-- What is installed from the file is recorded for the package, with the paths of its list, which were all unpacked. -/
def Sound (p : Pkg) (d : Done) : Prop := d.pkg = p ∧ d.listed = p.files ∧ d.got = p.files

/-- What one would want: whatever builds have left, and whatever is in the temporary directory, an installation is refused or
sound. -/
def LeftFull : Prop := ∀ (old : Bool) (ps : List Pkg) (s s' : State) (p : Pkg) (ms : List Member) (c : Bool) (t : Tmp) (d : Done),
  Distinct ps → s.out p.name = none → Tries old ps s s' → p ∈ ps → s'.out p.name = some (ms, c) →
  (install true p ms t).2 = some d → Sound p d

theorem unpacked_files (l : List Str) (h : List Member) (hh : ∀ m ∈ h, (∀ x, m ≠ .payload x) ∧ ∀ x, m ≠ .file x) :
    unpacked (h ++ l.map .file) = l := by
  have e1 : (h ++ l.map Member.file).findSome? Member.payload? = none := by
    rw [List.findSome?_eq_none_iff]
    intro m hm
    rcases List.mem_append.1 hm with hm | hm
    · cases m with
      | payload x => exact absurd rfl ((hh _ hm).1 x)
      | _ => rfl
    · obtain ⟨x, _, rfl⟩ := List.mem_map.1 hm
      rfl
  have e2 : h.filterMap Member.file? = [] := by
    rw [List.filterMap_eq_nil_iff]
    intro m hm
    cases m with
    | file x => exact absurd rfl ((hh _ hm).2 x)
    | _ => rfl
  unfold unpacked
  rw [e1]
  simp only [List.filterMap_append, e2, List.nil_append, List.filterMap_map]
  induction l with
  | nil => rfl
  | cons x l ih => simp [Function.comp_def, Member.file?]

theorem unpacked_payload (l : List Str) (h : List Member) (hh : ∀ m ∈ h, (∀ x, m ≠ .payload x) ∧ ∀ x, m ≠ .file x) :
    unpacked (h ++ [.payload l]) = l := by
  have e1 : h.findSome? Member.payload? = none := by
    rw [List.findSome?_eq_none_iff]
    intro m hm
    cases m with
    | payload x => exact absurd rfl ((hh _ hm).1 x)
    | _ => rfl
  unfold unpacked
  rw [List.findSome?_append, e1]
  rfl

theorem heads_plain (p : Pkg) : ∀ m ∈ heads p, (∀ x, m ≠ .payload x) ∧ ∀ x, m ≠ .file x := by
  intro m hm
  rcases List.mem_append.1 hm with hm | hm
  · obtain ⟨x, _, rfl⟩ := List.mem_map.1 hm
    exact ⟨fun _ => by simp, fun _ => by simp⟩
  · simp only [List.mem_cons, List.not_mem_nil, or_false] at hm
    rcases hm with rfl | rfl <;> exact ⟨fun _ => by simp, fun _ => by simp⟩

/-- What comes after the control files. -/
def rest (old : Bool) (p : Pkg) : List Member := if old then p.files.map .file else [.payload p.files]

theorem whole_rest (old : Bool) (p : Pkg) : whole old p = heads p ++ rest old p := rfl

/-- An initial part of a package file ends in the control files, or has them all and an initial part of the rest. -/
theorem part_cases (old : Bool) (p : Pkg) (ms : List Member) (h : ms <+: whole old p) :
    (∃ k, k ≠ [] ∧ ms ++ k = heads p) ∨ ∃ r, r <+: rest old p ∧ ms = heads p ++ r := by
  obtain ⟨k, hk⟩ := h
  rw [whole_rest] at hk
  rcases List.append_eq_append_iff.1 hk with ⟨a, h1, h2⟩ | ⟨a, h1, h2⟩
  · by_cases e : a = []
    · subst e
      exact .inr ⟨[], List.nil_prefix, by rw [h1]; simp⟩
    · exact .inl ⟨a, e, h1.symm⟩
  · exact .inr ⟨a, ⟨k, h2.symm⟩, h1⟩

/-- If the last control file is in it, they all are. -/
theorem filesXml_heads (p : Pkg) (ms k : List Member) (hk : k ≠ []) (h : ms ++ k = heads p) : Member.filesXml ∉ ms := by
  intro hm
  have hl : heads p = (p.scripts.map .script ++ [Member.metadata]) ++ [.filesXml] := by simp [heads]
  obtain ⟨k', x, rfl⟩ : ∃ k' x, k = k' ++ [x] := ⟨k.dropLast, k.getLast hk, (List.dropLast_concat_getLast hk).symm⟩
  rw [hl, ← List.append_assoc] at h
  have e := (List.append_inj' h rfl).1
  have : Member.filesXml ∈ p.scripts.map Member.script ++ [Member.metadata] := by rw [← e]; exact List.mem_append_left _ hm
  simp at this

theorem unpacked_short (ms k : List Member) (p : Pkg) (h : ms ++ k = heads p) : unpacked ms = [] := by
  have := unpacked_files [] ms (fun m hm => heads_plain p m (by rw [← h]; exact List.mem_append_left _ hm))
  simpa using this

theorem unpacked_part (old : Bool) (p : Pkg) (r : List Member) (h : r <+: rest old p) :
    unpacked (heads p ++ r) <+: p.files ∧ (old = false → unpacked (heads p ++ r) = [] ∨ unpacked (heads p ++ r) = p.files) := by
  cases old with
  | true =>
    simp only [rest, if_true] at h
    obtain ⟨l, hl, rfl⟩ := List.prefix_map_iff.1 h |>.imp (fun _ h => h)
    rw [unpacked_files _ _ (heads_plain p)]
    exact ⟨hl, fun e => by cases e⟩
  | false =>
    simp only [rest] at h
    cases r with
    | nil =>
      have := unpacked_files [] (heads p) (heads_plain p)
      simp only [List.map_nil] at this
      rw [this]
      exact ⟨List.nil_prefix, fun _ => .inl rfl⟩
    | cons x r =>
      simp only [Bool.false_eq_true, if_false, List.cons_prefix_cons, List.prefix_nil] at h
      obtain ⟨rfl, rfl⟩ := h
      rw [unpacked_payload _ _ (heads_plain p)]
      exact ⟨List.prefix_refl _, fun _ => .inr rfl⟩

/-- C238: what is installed from an initial part of a package file, whatever is in the temporary directory. If any file of the
package is unpacked, the package itself is recorded with its list of files, and those unpacked are the first of them in the format
1.0 and all of them in the format 1.1. -/
theorem part_install_partial (old : Bool) (p : Pkg) (ms : List Member) (h : ms <+: whole old p) (t : Tmp) (d : Done)
    (hi : (install true p ms t).2 = some d) : d.got <+: p.files ∧ (old = false → d.got = [] ∨ d.got = p.files) ∧
      (Member.filesXml ∈ ms → d.pkg = p ∧ d.listed = p.files) ∧ (d.got ≠ [] → d.pkg = p ∧ d.listed = p.files) := by
  simp only [install, if_true, Option.map_eq_some_iff] at hi
  obtain ⟨r, hr, rfl⟩ := hi
  rcases part_cases old p ms h with ⟨k, hk, e⟩ | ⟨rs, hrs, rfl⟩
  · have hn := filesXml_heads p ms k hk e
    have hu := unpacked_short ms k p e
    simp only [hu]
    exact ⟨List.nil_prefix, fun _ => .inl trivial, fun h => absurd h hn, fun h => absurd rfl h⟩
  · obtain ⟨u1, u2⟩ := unpacked_part old p rs hrs
    have m1 : Member.metadata ∈ heads p ++ rs := by simp [heads]
    have m2 : Member.filesXml ∈ heads p ++ rs := by simp [heads]
    simp only [Tmp.read, Tmp.unpack, m1, m2, if_true, Option.some.injEq] at hr
    subst hr
    exact ⟨u1, u2, fun _ => ⟨rfl, rfl⟩, fun _ => ⟨rfl, rfl⟩⟩

/-- C238: a whole package file is installed soundly after any other installations, also of broken files. -/
theorem whole_install (old : Bool) (p : Pkg) (l : List (Bool × Pkg × List Member)) (t : Tmp) :
    ∃ d, (install true p (whole old p) (installs t l)).2 = some d ∧ Sound p d := by
  generalize installs t l = t'
  have m1 : Member.metadata ∈ whole old p := by rw [whole_rest]; simp [heads]
  have m2 : Member.filesXml ∈ whole old p := by rw [whole_rest]; simp [heads]
  refine ⟨⟨p, p.files, unpacked (whole old p)⟩, by simp [install, Tmp.read, Tmp.unpack, m1, m2], rfl, rfl, ?_⟩
  cases old with
  | true => exact unpacked_files _ _ (heads_plain p)
  | false => exact unpacked_payload _ _ (heads_plain p)

/-- C238: a file that lacks one of its control files is refused if the temporary directory is empty. -/
theorem short_refused (p : Pkg) (ms : List Member) (hs : Member.metadata ∉ ms ∨ Member.filesXml ∉ ms) :
    (install true p ms ⟨none, none⟩).2 = none := by
  rcases hs with hs | hs
  · simp [install, Tmp.unpack, hs, Tmp.read]
  · by_cases hm : Member.metadata ∈ ms <;> simp [install, Tmp.unpack, hs, hm, Tmp.read]

/-- C238: the list of files that is recorded is that of the package or that of one read before. -/
theorem listed_from (leg : Bool) (p : Pkg) (ms : List Member) (t : Tmp) (d : Done) (hi : (install leg p ms t).2 = some d) :
    (d.pkg = p ∨ t.metadata = some d.pkg) ∧ (d.listed = p.files ∨ ∃ q, t.files = some q ∧ d.listed = q.files) := by
  cases leg with
  | false => cases hi
  | true =>
    simp only [install, if_true, Option.map_eq_some_iff] at hi
    obtain ⟨⟨m, f⟩, hr, rfl⟩ := hi
    simp only [Tmp.read, Tmp.unpack] at hr
    split at hr
    · next h1 h2 =>
      simp only [Option.some.injEq, Prod.mk.injEq] at hr
      obtain ⟨rfl, rfl⟩ := hr
      constructor
      · split at h1
        · cases h1; exact .inl rfl
        · exact .inr h1
      · split at h2
        · cases h2; exact .inl rfl
        · exact .inr ⟨_, h2, rfl⟩
    · cases hr

/-- C238: the same for what any number of failed and killed builds have left where there was no package file. -/
theorem left_partial (old : Bool) (ps : List Pkg) (s s' : State) (p : Pkg) (ms : List Member) (c : Bool) (t : Tmp) (d : Done)
    (hd : Distinct ps) (hn : s.out p.name = none) (h : Tries old ps s s') (hp : p ∈ ps) (ho : s'.out p.name = some (ms, c))
    (hi : (install true p ms t).2 = some d) :
    d.got <+: p.files ∧ (old = false → d.got = [] ∨ d.got = p.files) ∧ (d.got ≠ [] → d.pkg = p ∧ d.listed = p.files) ∧
      (c = true → Sound p d) := by
  rcases (tries_fair_partial old ps s s' hd h).1 p hp with e | ⟨ms', c', e, hm, hc⟩
  · rw [ho, hn] at e; cases e
  · rw [ho] at e
    simp only [Option.some.injEq, Prod.mk.injEq] at e
    obtain ⟨rfl, rfl⟩ := e
    obtain ⟨h1, h2, _, h4⟩ := part_install_partial old p ms hm t d hi
    refine ⟨h1, h2, h4, fun e => ?_⟩
    have := hc e
    subst this
    obtain ⟨d', k1, k2⟩ := whole_install old p [] t
    rw [show installs t [] = t from rfl, hi] at k1
    cases k1
    exact k2

/-- A build of `pkgA` that fails in `lzma`. -/
def lzmaOut : State := { clean.put ['a'] (heads pkgA, false) with tar := some pkgA.files }

theorem lzma_failed : Failed false [pkgA, pkgB] clean lzmaOut := by
  refine ⟨{ lzmaOut with left := true }, ?_, rfl⟩
  have split : progs false [pkgA, pkgB] = (.open pkgA.name :: ((heads pkgA).map (.add pkgA.name) ++ (.setLeft :: tars pkgA))) ++
      (tails pkgA ++ progs false [pkgB]) := by
    rw [progs_cons, prog_new]
    simp
  have run : exec (.open pkgA.name :: ((heads pkgA).map (.add pkgA.name) ++ (.setLeft :: tars pkgA))) { clean with left := false } =
      ({ lzmaOut with left := true }, true) := by
    rw [exec_cons_some (s1 := clean.put pkgA.name ([], false)) rfl, exec_append, exec_adds _ _ _ [] false (put_get ..)]
    simp only [if_true, put_put, List.nil_append]
    rw [exec_cons_some (s1 := { clean.put pkgA.name (heads pkgA, false) with left := true }) rfl, exec_tars pkgA _ (by simp [pkgA])]
    rfl
  rw [split]
  generalize hl : (Step.open pkgA.name :: ((heads pkgA).map (.add pkgA.name) ++ (.setLeft :: tars pkgA))) = a at run
  clear hl split
  generalize ({ clean with left := false } : State) = s0 at run
  induction a generalizing s0 with
  | nil => cases run; exact .here _ _
  | cons st a ih =>
    cases hr : st.run s0 with
    | none => rw [exec_cons_none hr] at run; cases run
    | some s1 => rw [exec_cons_some hr] at run; exact .next hr (ih s1 run)

/-- C238, refuted: what a build leaves that failed in `lzma` is installed without any of its files. -/
theorem left_refuted : ¬ LeftFull := by
  intro h
  have := h false [pkgA, pkgB] clean lzmaOut pkgA (heads pkgA) false ⟨none, none⟩ ⟨pkgA, pkgA.files, []⟩ distinctAB rfl
    (.failed (.none _) lzma_failed) (by simp) rfl rfl
  exact absurd this.2.2 (by simp [pkgA])

/-- C238, refuted: what a build leaves that failed before files.xml was added is installed with the list of files of another
package, if that one was installed before. -/
theorem stale_list_refuted : ¬ LeftFull := by
  intro h
  have hf : Failed false [pkgA, pkgB] clean (clean.put ['a'] ([.script ['s'], .metadata], false)) := by
    refine ⟨clean.put ['a'] ([.script ['s'], .metadata], false), ?_, rfl⟩
    rw [progs_cons, prog_new]
    exact .next (s1 := clean.put ['a'] ([], false)) rfl (.next (s1 := clean.put ['a'] ([.script ['s']], false))
      (by simp [Step.run, put_get, put_put, pkgA]) (.next (s1 := clean.put ['a'] ([.script ['s'], .metadata], false))
      (by simp [Step.run, put_get, put_put, pkgA]) (.here _ _)))
  have := h false [pkgA, pkgB] clean _ pkgA [.script ['s'], .metadata] false
    (installs ⟨none, none⟩ [(true, pkgB, whole false pkgB)]) ⟨pkgA, pkgB.files, []⟩ distinctAB rfl
    (.failed (.none _) hf) (by simp) rfl rfl
  exact absurd this.2.1 (by simp [pkgA, pkgB])

/-! ## Examples -/

/-- A part of a package of the format 1.0 is installed with its first file only; a file that is not legible is refused. -/
example : ((install true pkgA (heads pkgA ++ [.file ['f']]) ⟨none, none⟩).2.map fun d => (d.pkg.name, d.listed, d.got)) =
    some (['a'], [['f'], ['g']], [['f']]) ∧ (install false pkgA (heads pkgA) ⟨some pkgB, some pkgB⟩).2.isNone = true ∧
    heads pkgA ++ [.file ['f']] <+: whole true pkgA ∧
    (install true pkgA [.script ['s'], .metadata] ⟨none, none⟩).2.isNone = true := by decide

/-- Whole packages after others. -/
example : ((install true pkgA (whole false pkgA) (installs ⟨none, none⟩ [(true, pkgB, [.metadata])])).2.map fun d =>
    (d.pkg.name, d.listed, d.got)) = some (['a'], [['f'], ['g']], [['f'], ['g']]) := by decide

end Pisi.PackRun
