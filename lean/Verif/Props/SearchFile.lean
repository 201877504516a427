/-
`pisi search-file` finds the package of a file (C148).
-/
import Verif.Spec.SearchFile
import Verif.Lemmas.Actions

namespace Pisi.SearchFile
open Pisi.Act Pisi.SearchFileSpec

variable {α ι : Type}

/-- A name in a directory. -/
def Name (c : Str) : Prop := c ≠ [] ∧ '/' ∉ c

theorem comps_name {s c : Str} (h : c ∈ comps s) : Name c :=
  ⟨(mem_comps h).1, (mem_comps h).2.2⟩

theorem walkGo_names (fs : FS) (f : Bool) (k : Loc → List Str → Option Loc)
    (hk : ∀ cur cs p, (∀ c ∈ cur, Name c) → (∀ c ∈ cs, Name c) → k cur cs = some p →
      ∀ c ∈ p, Name c) :
    ∀ (cs : List Str) (cur p : Loc), (∀ c ∈ cur, Name c) → (∀ c ∈ cs, Name c) →
      walkGo fs f k cur cs = some p → ∀ c ∈ p, Name c := by
  intro cs
  induction cs with
  | nil =>
    intro cur p hcur _ h
    simp only [walkGo, Option.some.injEq] at h
    exact h ▸ hcur
  | cons c r ih =>
    intro cur p hcur hcs h
    have hr : ∀ x ∈ r, Name x := fun x hx => hcs x (List.mem_cons_of_mem _ hx)
    have hc : ∀ x ∈ cur ++ [c], Name x := by
      intro x hx
      rcases List.mem_append.1 hx with hx | hx
      · exact hcur x hx
      · rw [List.mem_singleton.1 hx]; exact hcs c (List.mem_cons_self ..)
    simp only [walkGo] at h
    by_cases hd : c = dotdot
    · rw [if_pos hd] at h
      exact ih _ _ (fun x hx => hcur x (List.dropLast_subset _ hx)) hr h
    · rw [if_neg hd] at h
      rcases hl : look fs (cur ++ [c]) with _ | n
      · rw [hl] at h
        by_cases he : r = []
        · simp only [he, if_true, Option.some.injEq] at h
          exact h ▸ hc
        · simp only [he, if_false] at h
          cases h
      · rw [hl] at h
        rcases n with x | t | _
        · by_cases he : r = []
          · simp only [he, if_true, Option.some.injEq] at h
            exact h ▸ hc
          · simp only [he, if_false] at h
            cases h
        · by_cases he : r = [] ∧ f = false
          · simp only [if_pos he, Option.some.injEq] at h
            exact h ▸ hc
          · simp only [if_neg he] at h
            refine hk _ _ _ ?_ ?_ h
            · by_cases ha : isAbs t
              · simp [ha]
              · simpa [ha] using hcur
            · intro x hx
              rcases List.mem_append.1 hx with hx | hx
              · exact comps_name hx
              · exact hr x hx
        · exact ih _ _ hc hr h

theorem walk_names (fs : FS) (f : Bool) (n : Nat) : ∀ (cur : Loc) (cs : List Str) (p : Loc),
    (∀ c ∈ cur, Name c) → (∀ c ∈ cs, Name c) → walk fs f n cur cs = some p → ∀ c ∈ p, Name c := by
  induction n with
  | zero =>
    intro cur cs p
    exact walkGo_names fs f _ (fun _ _ _ _ _ h => by cases h) cs cur p
  | succ n ih =>
    intro cur cs p
    exact walkGo_names fs f _ ih cs cur p

theorem absComps_names {cwd s c : Str} (h : c ∈ absComps cwd s) : Name c := by
  unfold absComps at h
  by_cases ha : isAbs s
  · rw [if_pos ha] at h; exact comps_name h
  · rw [if_neg ha] at h
    rcases List.mem_append.1 h with h | h <;> exact comps_name h

/-- Names of places are as the operating system has them. -/
theorem resolve_names {fs : FS} {cwd s : Str} {p : Loc} (h : resolve fs (absComps cwd s) = some p) :
    ∀ c ∈ p, Name c :=
  walk_names fs true 40 [] _ p (by simp) (fun _ hc => absComps_names hc) h

theorem flat_recorded (c : Str) (l : Loc) :
    ((c :: l).flatMap fun c => '/' :: c) = '/' :: recorded (c :: l) := by
  induction l generalizing c with
  | nil => simp [recorded]
  | cons d l ih => rw [List.flatMap_cons, ih d]; simp [recorded]

theorem lstrip_flat {p : Loc} (h : ∀ c ∈ p, Name c) :
    Path.lstripSlash (p.flatMap fun c => '/' :: c) = recorded p := by
  cases p with
  | nil => rfl
  | cons c l =>
    rw [flat_recorded]
    have hc := h c (List.mem_cons_self ..)
    obtain ⟨x, c', rfl⟩ : ∃ x c', c = x :: c' := by
      cases c with
      | nil => exact absurd rfl hc.1
      | cons x c' => exact ⟨x, c', rfl⟩
    have hx : x ≠ '/' := fun e => hc.2 (e ▸ List.mem_cons_self ..)
    have hr : recorded ((x :: c') :: l) = x :: recorded (c' :: l) := by
      cases l <;> simp [recorded]
    rw [hr]
    simp [Path.lstripSlash, hx]

theorem lstrip_slash (s : Str) : Path.lstripSlash ('/' :: s) = Path.lstripSlash s := by
  simp [Path.lstripSlash]

/-- The path looked up is the recorded name of the place the path leads to. -/
theorem query_found {fs : FS} {cwd path : Str} {p : Loc} (h : LeadsTo fs cwd path p) :
    query fs cwd path = recorded p := by
  have he : existsC fs (absComps cwd path) = true := by
    unfold existsC stat
    rw [h.1]
    simp only [Option.bind_some]
    rcases hl : look fs p with _ | n
    · exact absurd hl h.2
    · rfl
  unfold query
  rw [if_pos he, realpath, h.1]
  exact lstrip_flat (resolve_names h.1)

theorem query_missing {fs : FS} {cwd path : Str} (h : ¬ ∃ p, LeadsTo fs cwd path p) :
    query fs cwd path = Path.lstripSlash path := by
  have he : ¬ existsC fs (absComps cwd path) = true := by
    intro he
    unfold existsC stat at he
    rcases hr : resolve fs (absComps cwd path) with _ | p
    · rw [hr] at he; cases he
    · rw [hr] at he
      refine h ⟨p, hr, ?_⟩
      intro hl
      simp only [Option.bind_some, hl] at he
      cases he
  unfold query
  rw [if_neg he]

theorem mem_exact (fs : FS) (cwd path : Str) (d : DB.FilesDB Str α ι) (pkg : α) (f : Str) (i : ι) :
    (pkg, f, i) ∈ search fs cwd d false path ↔ f = query fs cwd path ∧ d.get f = some (pkg, i) := by
  unfold search DB.FilesDB.hasFile DB.FilesDB.getFile Dict.has
  simp only [Bool.false_eq_true, if_false]
  rcases hg : d.get (query fs cwd path) with _ | ⟨a, b⟩
  · simp only [Option.isSome_none, Bool.false_eq_true, if_false, List.not_mem_nil, false_iff]
    rintro ⟨rfl, h⟩
    rw [hg] at h; cases h
  · simp only [Option.isSome_some, if_true, Option.toList_some, List.mem_singleton, Prod.mk.injEq]
    constructor
    · rintro ⟨rfl, rfl, rfl⟩
      exact ⟨rfl, hg⟩
    · rintro ⟨rfl, h⟩
      rw [hg] at h
      simp only [Option.some.injEq, Prod.mk.injEq] at h
      exact ⟨h.1.symm, rfl, h.2.symm⟩

/-- Whatever the path looks like (relative, with `..`, through links), the
record of the place it leads to is shown, and nothing else. -/
theorem search_exact {fs : FS} {cwd path : Str} {p : Loc} (h : LeadsTo fs cwd path p)
    (d : DB.FilesDB Str α ι) (pkg : α) (f : Str) (i : ι) :
    (pkg, f, i) ∈ search fs cwd d false path ↔ f = recorded p ∧ d.get f = some (pkg, i) := by
  rw [mem_exact, query_found h]

/-- Partial (C148): the package of a recorded file is found by its path, and
it alone, if the path leads to the place of this name or the file is not on
the disk.  Missing: files recorded under the name of a link or below one
(`link_hidden`), for which the package of the place the link leads to is
shown, or none. -/
theorem search_partial (fs : FS) (cwd : Str) (d : DB.FilesDB Str α ι) (f : Str) (pkg : α) (i : ι)
    (hd : d.get f = some (pkg, i)) (hf : f.head? ≠ some '/')
    (h : (∃ p, LeadsTo fs cwd ('/' :: f) p ∧ recorded p = f)
      ∨ ¬ ∃ p, LeadsTo fs cwd ('/' :: f) p) :
    search fs cwd d false ('/' :: f) = [(pkg, f, i)] := by
  have hq : query fs cwd ('/' :: f) = f := by
    rcases h with ⟨p, hp, hr⟩ | h
    · rw [query_found hp, hr]
    · rw [query_missing h, lstrip_slash]
      cases f with
      | nil => rfl
      | cons x f =>
        have hx : x ≠ '/' := by simpa using hf
        simp [Path.lstripSlash, hx]
  unfold search DB.FilesDB.hasFile DB.FilesDB.getFile Dict.has
  simp [hq, hd]

/-- What is shown is recorded, and the path leads to it, or is its name. -/
theorem search_sound (fs : FS) (cwd path : Str) (d : DB.FilesDB Str α ι) (pkg : α) (f : Str) (i : ι)
    (h : (pkg, f, i) ∈ search fs cwd d false path) :
    d.get f = some (pkg, i) ∧
      ((∃ p, LeadsTo fs cwd path p ∧ f = recorded p) ∨ f = Path.lstripSlash path) := by
  have h := (mem_exact fs cwd path d pkg f i).1 h
  refine ⟨h.2, ?_⟩
  by_cases hp : ∃ p, LeadsTo fs cwd path p
  · obtain ⟨p, hp⟩ := hp
    exact Or.inl ⟨p, hp, h.1.trans (query_found hp)⟩
  · exact Or.inr (h.1.trans (query_missing hp))

/-- A file whose name leads elsewhere is never shown for its name. -/
theorem link_hidden {fs : FS} {cwd f : Str} {p : Loc} (h : LeadsTo fs cwd ('/' :: f) p)
    (hne : recorded p ≠ f) (d : DB.FilesDB Str α ι) (pkg : α) (i : ι) :
    (pkg, f, i) ∉ search fs cwd d false ('/' :: f) := by
  rw [search_exact h]
  exact fun e => hne e.1.symm

/-- With `--fuzzy` exactly the records are shown whose path matches. -/
theorem fuzzy_exact (fs : FS) (cwd path : Str) (d : DB.FilesDB Str α ι) (hu : Dict.Uniq d) (pkg : α)
    (f : Str) (i : ι) :
    (pkg, f, i) ∈ search fs cwd d true path ↔
      d.get f = some (pkg, i) ∧ fnmatch (query fs cwd path) f = true := by
  rw [← Dict.mem_iff_get hu]
  unfold search DB.FilesDB.matchFiles
  simp only [if_true, List.mem_map, List.mem_filter, Prod.mk.injEq]
  constructor
  · rintro ⟨⟨f', p', i'⟩, ⟨hm, hf⟩, rfl, rfl, rfl⟩
    exact ⟨hm, hf⟩
  · rintro ⟨hm, hf⟩
    exact ⟨(f, pkg, i), ⟨hm, hf⟩, rfl, rfl, rfl⟩

theorem fnmatchN_plain : ∀ (n : Nat) (p s : Str), p.length + s.length < n → hasMagic p = false →
    (fnmatchN n p s = true ↔ p = s) := by
  intro n
  induction n with
  | zero => intro p s h; omega
  | succ n ih =>
    intro p s h hm
    cases p with
    | nil => cases s <;> simp [fnmatchN]
    | cons c p =>
      have hc : c ≠ '*' ∧ c ≠ '?' ∧ c ≠ '[' := by
        simp only [hasMagic, List.any_cons, Bool.or_eq_false_iff, decide_eq_false_iff_not] at hm
        exact ⟨hm.1.1.1, hm.1.1.2, hm.1.2⟩
      have hp : hasMagic p = false := by
        simp only [hasMagic, List.any_cons, Bool.or_eq_false_iff] at hm
        exact hm.2
      cases s with
      | nil => simp [fnmatchN, hc]
      | cons x s =>
        have := ih p s (by simp only [List.length_cons] at h; omega) hp
        have he : fnmatchN (n + 1) (c :: p) (x :: s) = (decide (x = c) && fnmatchN n p s) := by
          rw [fnmatchN.eq_def]
          split <;> simp_all
        simp only [he, Bool.and_eq_true, decide_eq_true_eq, this, List.cons.injEq, eq_comm (a := x)]

/-- With `--fuzzy` a path without `*`, `?` and `[` finds what it finds without
it. -/
theorem fuzzy_plain (fs : FS) (cwd path : Str) (d : DB.FilesDB Str α ι) (hu : Dict.Uniq d)
    (hm : hasMagic (query fs cwd path) = false) (e : α × Str × ι) :
    e ∈ search fs cwd d true path ↔ e ∈ search fs cwd d false path := by
  obtain ⟨pkg, f, i⟩ := e
  rw [fuzzy_exact fs cwd path d hu, mem_exact, fnmatch, fnmatchN_plain _ _ _ (by omega) hm]
  constructor
  · rintro ⟨a, b⟩; exact ⟨b.symm, a⟩
  · rintro ⟨a, b⟩; exact ⟨b, a.symm⟩

/-- `/lib/a`, the link `/b` to it, and the link `/l` to `/lib`. -/
def exFS : FS :=
  [([['l','i','b']], .dir), ([['l','i','b'], ['a']], .file []),
   ([['b']], .link ['l','i','b','/','a']), ([['l']], .link ['/','l','i','b'])]

/-- The package 1 has `lib/a`, 2 has `b`, and 3 has a file that is not on the
disk. -/
def exDB : DB.FilesDB Str Nat Nat :=
  [(['l','i','b','/','a'], (1, 0)), (['b'], (2, 0)), (['e','t','c','/','x'], (3, 0))]

/-- The full statement does not hold: for `/b`, which is a link of package 2,
package 1 is shown. -/
theorem search_refuted : ¬ SearchFull := by
  intro h
  have := h exFS ['/'] exDB ['b'] 2 0 (by decide)
  exact absurd this (by decide)

example : search exFS ['/'] exDB false ['/','l','i','b','/','a'] = [(1, ['l','i','b','/','a'], 0)] := by
  decide
/-- Through a link, with `..`, and relative to the working directory. -/
example : search exFS ['/','l','i','b'] exDB false ['.','.','/','l','/','/','a']
    = [(1, ['l','i','b','/','a'], 0)] := by decide
example : search exFS ['/'] exDB false ['/','b'] = [(1, ['l','i','b','/','a'], 0)] := by decide
example : search exFS ['/'] exDB false ['/','e','t','c','/','x'] = [(3, ['e','t','c','/','x'], 0)] := by
  decide
/-- The name of a file that is not there has to be written as it is recorded. -/
example : search exFS ['/'] exDB false ['/','e','t','c','/','/','x'] = [] := by decide
example : (search exFS ['/'] exDB true ['*','/','?']).map (·.1) = [1, 3] := by decide
example : LeadsTo exFS ['/'] ['/','b'] [['l','i','b'], ['a']] ∧ recorded [['l','i','b'], ['a']] ≠ ['b'] := by
  unfold LeadsTo; decide

end Pisi.SearchFile
