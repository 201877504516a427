import Verif.Spec.CheckInstalled
import Verif.Props.Check
import Verif.Props.Reinstall

/-!
# C210: the check after an installation
-/
namespace Pisi.FS
open Pisi.Path

theorem join_root {p : Str} (h : p.head? ≠ some '/') : joinPath ['/'] [p] = '/' :: p := by
  cases p with
  | nil => decide
  | cons c p =>
    have hc : c ≠ '/' := fun e => h (by rw [e]; rfl)
    simp [joinPath, joinStep, lstripSlash, hc]

section
variable {sha : Str → Str} {l : List FileInfo} {is : List Item} {s t u : FS}

/-- The members that are no configuration files are in place. -/
def InPlace (l : List FileInfo) (is : List Item) (t : FS) : Prop :=
  ∀ f ∈ l, f.conf = false → ∀ i ∈ is, joinPath ['/'] [f.path] = pathOf i.comps → t.get (pathOf i.comps) = some i.node

/-- What the check says of members in place whose texts may have been changed since. -/
theorem check_since (hn : ∀ c, sha c ≠ []) (hl : Lists ['/'] l is) (hh : Honest sha ['/'] l is) (hp : InPlace l is t) (ho : OnlyTexts l t u) :
    ∃ r, checkFiles sha u l = .ok r ∧ ∀ f, f ∈ r ↔ f ∈ l ∧ f.conf = false ∧ TextChanged sha t u f := by
  have key : ∀ f ∈ l, f.conf = false → (∃ c c', t.get ('/' :: f.path) = some (.file c) ∧ f.hash = some (sha c) ∧
      u.get ('/' :: f.path) = some (.file c')) ∨
      (¬ Covered u f ∧ ∀ c, t.get ('/' :: f.path) ≠ some (.file c)) := by
    intro f hf hc
    obtain ⟨i, hi, he⟩ := hl.sub f hf
    have hg := hp f hf hc i hi he
    have hj := join_root (hh.rel f hf)
    rw [hj] at he
    rw [← he] at hg
    have hu := ho f hf
    cases hnode : i.node with
    | file c =>
      rw [hnode] at hg
      refine .inl ?_
      rcases hu with e | ⟨d, c', e1, e2⟩
      · exact ⟨c, c, hg, hh.file f hf i hi (by rw [hj, he]) c hnode, by rw [e, hg]⟩
      · exact ⟨c, c', hg, hh.file f hf i hi (by rw [hj, he]) c hnode, e2⟩
    | link x =>
      rw [hnode] at hg
      refine .inr ⟨fun hcov => ?_, fun c e => by rw [hg] at e; cases e⟩
      rcases hu with e | ⟨d, c', e1, e2⟩
      · have := hcov.2.2.2
        unfold isLink at this
        rw [e, hg] at this
        cases this
      · rw [hg] at e1; cases e1
    | dir =>
      rw [hnode] at hg
      refine .inr ⟨fun hcov => ?_, fun c e => by rw [hg] at e; cases e⟩
      rcases hh.dir f hf i hi (by rw [hj, he]) hnode with e | e
      · exact hcov.1 e
      · exact hcov.2.1 e
  obtain ⟨r, hr⟩ := (check_fails_iff sha u l).mpr fun f hf hcov => by
    rcases key f hf hcov.2.2.1 with ⟨c, c', _, _, e⟩ | ⟨h, _⟩
    · rw [sha1File_file e]; simp
    · exact absurd hcov h
  refine ⟨r, hr, fun f => ?_⟩
  rw [check_reports sha u l r hr]
  constructor
  · rintro ⟨hf, hcov, x, hx, hd⟩
    refine ⟨hf, hcov.2.2.1, ?_⟩
    rcases key f hf hcov.2.2.1 with ⟨c, c', e1, e2, e3⟩ | ⟨h, _⟩
    · refine ⟨c, c', e1, e3, fun e => hd ?_⟩
      rw [sha1File_file e3, ← e, ← hx, e2]
    · exact absurd hcov h
  · rintro ⟨hf, hc, c, c', e1, e2, hne⟩
    rcases key f hf hc with ⟨d, d', g1, g2, g3⟩ | ⟨_, h⟩
    · rw [e1] at g1
      cases g1
      refine ⟨hf, ⟨by rw [g2]; simp, by rw [g2]; simpa using hn c, hc, by unfold isLink; rw [e2]⟩, sha c, g2, ?_⟩
      rw [sha1File_file e2]
      exact fun e => hne (Option.some.inj e).symm
    · exact absurd e1 (h c)

/-- After a change of nothing nothing is reported. -/
theorem check_intact (hn : ∀ c, sha c ≠ []) (hl : Lists ['/'] l is) (hh : Honest sha ['/'] l is) (hp : InPlace l is t) :
    checkFiles sha t l = .ok [] := by
  obtain ⟨r, hr, hm⟩ := check_since (u := t) hn hl hh hp (fun _ _ => .inl rfl)
  rw [hr]
  congr 1
  refine List.eq_nil_iff_forall_not_mem.mpr fun f hf => ?_
  obtain ⟨_, _, c, c', e1, e2, hne⟩ := (hm f).mp hf
  rw [e1] at e2
  cases e2
  exact hne rfl

/-- What an installation leaves is in place. -/
theorem Reinstalled.inPlace (h : Reinstalled sha ['/'] l is s t) (hc : ∀ f ∈ l, ∀ g ∈ l, joinPath ['/'] [f.path] = joinPath ['/'] [g.path] →
    f.conf = g.conf) : InPlace l is t := by
  intro f hf hcf i hi he
  refine h.repaired i hi ?_
  rintro ⟨g, hg, hcg, hp, _⟩
  have := hc f hf g hg (by rw [he, hp])
  rw [hcf, hcg] at this
  cases this

/-- **C210.**  A package that was just installed below `/`, for the first time or again, is found intact, and after changes of texts
exactly the files, other than configuration files, whose texts have another hash than before are reported.  What is missing for the
full statement, which is false of the code: packages installed below another directory. -/
theorem intact_partial (hn : ∀ c, sha c ≠ []) (hw : WF s) (hs : Sound is) (hl : Lists ['/'] l is) (hh : Honest sha ['/'] l is)
    (hc : ∀ f ∈ l, ∀ g ∈ l, joinPath ['/'] [f.path] = joinPath ['/'] [g.path] → f.conf = g.conf)
    (ho : Open is s) (hk : Keepable sha ['/'] l is s) (old : Option (List FileInfo)) (hold : old = none ∨ old = some l) :
    ∃ t, (extractInstall sha ['/'] old l (is.map Item.entry) s).2 = .ok t ∧ checkFiles sha t l = .ok [] ∧
      ∀ u, OnlyTexts l t u → ∃ r, checkFiles sha u l = .ok r ∧ ∀ f, f ∈ r ↔ f ∈ l ∧ f.conf = false ∧ TextChanged sha t u f := by
  obtain ⟨t, ht, hr⟩ : ∃ t, (extractInstall sha ['/'] old l (is.map Item.entry) s).2 = .ok t ∧ Reinstalled sha ['/'] l is s t := by
    rcases hold with rfl | rfl
    · exact install_over hw hs hl ho hk
    · exact reinstall_partial hw hs hl ho hk
  exact ⟨t, ht, check_intact hn hl hh (hr.inPlace hc), fun u hu => check_since hn hl hh (hr.inPlace hc) hu⟩

end

/-- The hypotheses can be met: the package of C208 with another function for hashes. -/
example : ∃ t, (extractInstall (fun c => '#' :: c) exDest none
      [⟨['e', '/', 'c'], true, some ['#', '1'], false⟩, ⟨['b', '/', 'x'], false, some ['#', '2'], false⟩, ⟨['b', '/', 'y'], false, none, false⟩]
      (reIs.map Item.entry) [(['/'], .dir), (['/', 'e'], .dir), (['/', 'b'], .dir), (['/', 'b', '/', 'y'], .file ['z'])]).2 = .ok t ∧
    checkFiles (fun c => '#' :: c) t
      [⟨['e', '/', 'c'], true, some ['#', '1'], false⟩, ⟨['b', '/', 'x'], false, some ['#', '2'], false⟩, ⟨['b', '/', 'y'], false, none, false⟩] = .ok [] := by
  refine Exists.imp (fun t h => ⟨h.1, h.2.1⟩) (intact_partial (sha := fun c => '#' :: c) (is := reIs)
    (l := [⟨['e', '/', 'c'], true, some ['#', '1'], false⟩, ⟨['b', '/', 'x'], false, some ['#', '2'], false⟩, ⟨['b', '/', 'y'], false, none, false⟩])
    (s := [(['/'], .dir), (['/', 'e'], .dir), (['/', 'b'], .dir), (['/', 'b', '/', 'y'], .file ['z'])])
    (fun c => by simp) (wf_check (by decide) (by decide)) ⟨by decide, by unfold CompName; decide, by decide, by decide⟩
    ⟨by decide, by decide⟩ ⟨by decide, ?_, by decide⟩ (by decide) ⟨by decide, by decide, ?_⟩ ⟨?_, ?_, ?_, ?_⟩ none (.inl rfl))
  · intro f hf i hi he c hc
    simp only [reIs, List.mem_cons, List.not_mem_nil, or_false] at hf hi
    rcases hf with rfl | rfl | rfl <;> rcases hi with rfl | rfl | rfl <;> first | (cases hc; rfl) | (exact absurd he (by decide)) | cases hc
  · intro i hi q hq hne
    have : ∀ i ∈ reIs, ∀ n ≤ i.comps.length, i.comps.take n ≠ i.comps →
      Dict.get ([(['/'], .dir), (['/', 'e'], .dir), (['/', 'b'], .dir), (['/', 'b', '/', 'y'], .file ['z'])] : FS) (pathOf (i.comps.take n)) = none ∨
      Dict.get ([(['/'], .dir), (['/', 'e'], .dir), (['/', 'b'], .dir), (['/', 'b', '/', 'y'], .file ['z'])] : FS) (pathOf (i.comps.take n)) = some .dir := by decide
    rw [List.prefix_iff_eq_take.mp hq] at hne ⊢
    exact this i hi _ hq.length_le hne
  · intro f hf hc
    simp only [List.mem_cons, List.not_mem_nil, or_false] at hf
    rcases hf with rfl | rfl | rfl
    · exact .inl (by decide)
    · cases hc
    · cases hc
  all_goals
    rintro p ⟨f, hf, hc, rfl, c, hg, _⟩
    exfalso
    simp only [List.mem_cons, List.not_mem_nil, or_false] at hf
    rcases hf with rfl | rfl | rfl
    · have h0 : Dict.get ([(['/'], .dir), (['/', 'e'], .dir), (['/', 'b'], .dir), (['/', 'b', '/', 'y'], .file ['z'])] : FS)
          (joinPath ['/'] [['e', '/', 'c']]) = none := by decide
      exact absurd (h0.symm.trans hg) (by simp)
    · cases hc
    · cases hc

/-- **C210 is false of the code**: the check looks below `/` for what was installed below `/d`. -/
theorem intact_refuted : ¬ IntactFull := by
  intro h
  have ht : ((extractInstall (fun c => '#' :: c) ['/', 'd'] none [⟨['a'], false, some ['#', '1'], false⟩]
      ([⟨[['d'], ['a']], .file ['1']⟩].map Item.entry) [(['/'], .dir), (['/', 'd'], .dir)]).2.toOption.map
      (fun t => (checkFiles (fun c => '#' :: c) t [⟨['a'], false, some ['#', '1'], false⟩]).toOption.isSome)) = some false := by decide +kernel
  cases hx : (extractInstall (fun c => '#' :: c) ['/', 'd'] none [⟨['a'], false, some ['#', '1'], false⟩]
      ([⟨[['d'], ['a']], .file ['1']⟩].map Item.entry) [(['/'], .dir), (['/', 'd'], .dir)]).2 with
  | error e => rw [hx] at ht; cases ht
  | ok t =>
    rw [hx] at ht
    have := h (fun c => '#' :: c) ['/', 'd'] [⟨['a'], false, some ['#', '1'], false⟩] [⟨[['d'], ['a']], .file ['1']⟩] _ t
      ⟨by decide, by unfold CompName; decide, by decide, by decide⟩ ⟨by decide, by decide⟩
      ⟨by decide, by
        intro f hf i hi he c hc
        simp only [List.mem_cons, List.not_mem_nil, or_false] at hf hi
        subst hf hi
        cases hc
        rfl, by decide⟩ hx
    simp only [Except.toOption, Option.map_some] at ht
    rw [this] at ht
    cases ht

end Pisi.FS
