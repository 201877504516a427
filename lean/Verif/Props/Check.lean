import Verif.Lemmas.FS

/-!
# C54: the integrity check
-/
namespace Pisi.FS

/-- The file is damaged: it has a recorded hash, and on disk cannot be read or has another one. -/
def Damaged (sha : Str → Str) (fs : FS) (f : FileInfo) : Prop :=
  ∃ h, f.hash = some h ∧ sha1File sha fs ('/' :: f.path) ≠ some h

/-- C54, full statement. -/
def CheckExact : Prop :=
  ∀ (sha : Str → Str) (fs : FS) (l : List FileInfo), ∃ r, checkFiles sha fs l = .ok r ∧
    ∀ f, f ∈ r ↔ f ∈ l ∧ Damaged sha fs f

/-- C54 is false of the code: a missing file aborts the check. -/
theorem check_refuted : ¬ CheckExact := by
  intro h
  obtain ⟨r, hr, _⟩ := h id [] [⟨['a'], false, some ['1'], false⟩]
  cases hr

/-- The check covers files with a (non-empty) hash that are neither configuration files nor, on disk, links. -/
def Covered (fs : FS) (f : FileInfo) : Prop :=
  f.hash ≠ none ∧ f.hash ≠ some [] ∧ f.conf = false ∧ isLink fs ('/' :: f.path) = false

instance (fs : FS) (f : FileInfo) : Decidable (Covered fs f) := by unfold Covered; infer_instance

theorem checkFiles_cons (sha : Str → Str) (fs : FS) (f : FileInfo) (l : List FileInfo) :
    checkFiles sha fs (f :: l) =
      if Covered fs f then
        match sha1File sha fs ('/' :: f.path) with
        | none => .error .file
        | some x => match checkFiles sha fs l with
          | .error e => .error e
          | .ok r => .ok (if f.hash ≠ some x then f :: r else r)
      else checkFiles sha fs l := by
  conv => lhs; unfold checkFiles
  cases hh : f.hash with
  | none => rw [if_neg]; exact fun h => h.1 hh
  | some h =>
    simp only
    by_cases hc : h ≠ [] ∧ f.conf = false ∧ isLink fs ('/' :: f.path) = false
    · have hcov : Covered fs f := ⟨by rw [hh]; simp, by rw [hh]; simpa using hc.1, hc.2⟩
      rw [if_pos hc, if_pos hcov]
      cases sha1File sha fs ('/' :: f.path) with
      | none => rfl
      | some x => cases checkFiles sha fs l <;> simp
    · rw [if_neg hc, if_neg]
      rintro ⟨_, h1, h2⟩
      exact hc ⟨fun e => h1 (by rw [hh, e]), h2⟩

/-- The check fails exactly when a covered file cannot be read. -/
theorem check_fails_iff (sha : Str → Str) (fs : FS) (l : List FileInfo) :
    (∃ r, checkFiles sha fs l = .ok r) ↔ ∀ f ∈ l, Covered fs f → sha1File sha fs ('/' :: f.path) ≠ none := by
  induction l with
  | nil => simp [checkFiles]
  | cons f l ih =>
    rw [checkFiles_cons]
    by_cases hc : Covered fs f
    · rw [if_pos hc]
      cases hs : sha1File sha fs ('/' :: f.path) with
      | none =>
        constructor
        · rintro ⟨r, hr⟩; cases hr
        · intro h; exact absurd hs (h f (by simp) hc)
      | some x =>
        have : (∃ r, (match checkFiles sha fs l with
            | .error e => .error e
            | .ok r => .ok (if f.hash ≠ some x then f :: r else r)) = Except.ok (ε := FErr) r) ↔
            ∃ r, checkFiles sha fs l = .ok r := by
          cases checkFiles sha fs l with
          | error e => simp
          | ok r => simp
        simp only
        rw [this, ih]
        constructor
        · intro h g hg hgc
          rcases List.mem_cons.mp hg with rfl | hg
          · rw [hs]; simp
          · exact h g hg hgc
        · intro h g hg; exact h g (by simp [hg])
    · rw [if_neg hc, ih]
      constructor
      · intro h g hg hgc
        rcases List.mem_cons.mp hg with rfl | hg
        · exact absurd hgc hc
        · exact h g hg hgc
      · intro h g hg; exact h g (by simp [hg])

/-- What the check returns. -/
theorem check_reports (sha : Str → Str) (fs : FS) (l r : List FileInfo) (h : checkFiles sha fs l = .ok r) (f : FileInfo) :
    f ∈ r ↔ f ∈ l ∧ Covered fs f ∧ Damaged sha fs f := by
  induction l generalizing r with
  | nil => simp only [checkFiles, Except.ok.injEq] at h; subst h; simp
  | cons g l ih =>
    rw [checkFiles_cons] at h
    by_cases hc : Covered fs g
    · rw [if_pos hc] at h
      cases hs : sha1File sha fs ('/' :: g.path) with
      | none => rw [hs] at h; cases h
      | some x =>
        rw [hs] at h
        simp only at h
        cases hl : checkFiles sha fs l with
        | error e => rw [hl] at h; cases h
        | ok r' =>
          rw [hl] at h
          simp only [Except.ok.injEq] at h
          have ih := ih r' hl
          obtain ⟨y, hy⟩ := Option.ne_none_iff_exists'.mp hc.1
          by_cases hx : g.hash = some x
          · rw [if_neg (by simpa using hx)] at h
            subst h
            rw [ih, List.mem_cons]
            constructor
            · rintro ⟨a, b⟩; exact ⟨.inr a, b⟩
            · rintro ⟨rfl | a, b⟩
              · obtain ⟨z, hz, hzne⟩ := b.2
                rw [hs] at hzne
                exact absurd (hx.symm.trans hz) hzne
              · exact ⟨a, b⟩
          · rw [if_pos hx] at h
            subst h
            rw [List.mem_cons, ih, List.mem_cons]
            constructor
            · rintro (rfl | ⟨a, b⟩)
              · refine ⟨.inl rfl, hc, y, hy, ?_⟩
                rw [hs]; intro e; exact hx (hy.trans e.symm)
              · exact ⟨.inr a, b⟩
            · rintro ⟨rfl | a, b⟩
              · exact .inl rfl
              · exact .inr ⟨a, b⟩
    · rw [if_neg hc] at h
      rw [ih r h, List.mem_cons]
      constructor
      · rintro ⟨a, b⟩; exact ⟨.inr a, b⟩
      · rintro ⟨rfl | a, b⟩
        · exact absurd b.1 hc
        · exact ⟨a, b⟩

/-- **C54** when every recorded file is an ordinary file with a hash and can be read.  Missing for the full statement: missing
files abort the check, and configuration files and links are not checked; there it is false. -/
theorem check_partial (sha : Str → Str) (fs : FS) (l : List FileInfo)
    (h : ∀ f ∈ l, Covered fs f ∧ sha1File sha fs ('/' :: f.path) ≠ none) :
    ∃ r, checkFiles sha fs l = .ok r ∧ ∀ f, f ∈ r ↔ f ∈ l ∧ Damaged sha fs f := by
  obtain ⟨r, hr⟩ := (check_fails_iff sha fs l).mpr fun f hf _ => (h f hf).2
  refine ⟨r, hr, fun f => ?_⟩
  rw [check_reports sha fs l r hr]
  constructor
  · rintro ⟨a, _, b⟩; exact ⟨a, b⟩
  · rintro ⟨a, b⟩; exact ⟨a, (h f a).1, b⟩

def chkList : List FileInfo := [⟨['a'], false, some ['1'], false⟩, ⟨['b'], false, some ['2'], false⟩]
def chkFS : FS := [(['/', 'a'], .file ['1']), (['/', 'b'], .file ['x'])]

example : ∀ f ∈ chkList, Covered chkFS f ∧ sha1File id chkFS ('/' :: f.path) ≠ none := by decide
example : checkFiles id chkFS chkList = .ok [⟨['b'], false, some ['2'], false⟩] := rfl

end Pisi.FS
