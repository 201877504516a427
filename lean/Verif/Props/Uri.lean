import Verif.Model.Uri
import Verif.Spec.Uri

/-!
# The parts of addresses: C188
-/
namespace Pisi.Uri
open Spec

theorem char_le (a b : Char) : (a ≤ b) = (a.val ≤ b.val) := rfl

theorem isDigit_iff (c : Char) : c.isDigit = true ↔ '0' ≤ c ∧ c ≤ '9' := by
  unfold Char.isDigit
  rw [Bool.and_eq_true, decide_eq_true_eq, decide_eq_true_eq]
  exact Iff.rfl

theorem schemeChar_iff (c : Char) : schemeChar c = true ↔ SchemeChar c := by
  unfold schemeChar SchemeChar Char.isAlphanum Char.isAlpha
  simp only [Bool.or_eq_true, decide_eq_true_eq, isDigit_iff]
  have hu : c.isUpper = true ↔ 'A' ≤ c ∧ c ≤ 'Z' := by
    unfold Char.isUpper; rw [decide_eq_true_eq]; exact Iff.rfl
  have hl : c.isLower = true ↔ 'a' ≤ c ∧ c ≤ 'z' := by
    unfold Char.isLower; rw [Bool.and_eq_true, decide_eq_true_eq, decide_eq_true_eq]; exact Iff.rfl
  rw [hu, hl]
  constructor
  · rintro ((((( h | h) | h) | h) | h) | h)
    · exact .inr (.inl h)
    · exact .inl h
    · exact .inr (.inr (.inl h))
    · exact .inr (.inr (.inr (.inl h)))
    · exact .inr (.inr (.inr (.inr (.inl h))))
    · exact .inr (.inr (.inr (.inr (.inr h))))
  · rintro (h | h | h | h | h | h)
    · exact .inl (.inl (.inl (.inl (.inr h))))
    · exact .inl (.inl (.inl (.inl (.inl h))))
    · exact .inl (.inl (.inl (.inr h)))
    · exact .inl (.inl (.inr h))
    · exact .inl (.inr h)
    · exact .inr h

theorem not_colon {s : Str} (h : ∀ c ∈ s, SchemeChar c) : ∀ c ∈ s, decide (c ≠ ':') = true := by
  intro c hc
  rw [decide_eq_true_eq]
  rintro rfl
  have := (schemeChar_iff ':').2 (h _ hc)
  exact absurd this (by decide)

theorem digits_any (r : Str) : r.any (fun c => !c.isDigit) = true ↔ ∃ c ∈ r, ¬ ('0' ≤ c ∧ c ≤ '9') := by
  rw [List.any_eq_true]
  refine exists_congr fun c => and_congr_right fun _ => ?_
  rw [← isDigit_iff, Bool.not_eq_true', Bool.not_eq_true]

theorem cut_colon {s r : Str} (h : ∀ c ∈ s, SchemeChar c) : (s ++ ':' :: r).takeWhile (· ≠ ':') = s ∧
    (s ++ ':' :: r).dropWhile (· ≠ ':') = ':' :: r := by
  rw [List.takeWhile_append_of_pos (not_colon h), List.dropWhile_append_of_pos (not_colon h),
    List.takeWhile_cons_of_neg (by simp), List.dropWhile_cons_of_neg (by simp), List.append_nil]
  exact ⟨rfl, rfl⟩

/-- C188: the scheme is what comes before the colon, in lower case, or `file`. -/
theorem scheme_exact (u : Str) : (∀ s r, Split u s r → splitScheme u = (s.map Char.toLower, r)) ∧
    ((¬ ∃ s r, Split u s r) → splitScheme u = ("file".toList, u)) := by
  constructor
  · rintro s r ⟨rfl, ⟨hne, hs⟩, hr⟩
    unfold splitScheme
    obtain ⟨h1, h2⟩ := cut_colon (r := r) hs
    simp only [h1, h2]
    rw [if_pos]
    refine ⟨hne, List.all_eq_true.2 (fun c hc => (schemeChar_iff c).2 (hs c hc)), ?_⟩
    rcases hr with h | h | h
    · exact .inl h
    · exact .inr (.inl h)
    · exact .inr (.inr ((digits_any r).2 h))
  · intro hno
    unfold splitScheme
    dsimp only
    cases hd : u.dropWhile (· ≠ ':') with
    | nil => rfl
    | cons x r =>
      dsimp only
      rw [if_neg]
      · rfl
      rintro ⟨h1, h2, h3⟩
      have hx : x = ':' := by
        have := List.head?_dropWhile_not (· ≠ ':') u
        rw [hd] at this
        simpa using this
      have hu : u = u.takeWhile (· ≠ ':') ++ ':' :: r := by
        conv => lhs; rw [← List.takeWhile_append_dropWhile (p := (· ≠ ':')) (l := u), hd, hx]
      refine hno ⟨_, r, hu, ⟨h1, fun c hc => (schemeChar_iff c).1 (List.all_eq_true.1 h2 c hc)⟩, ?_⟩
      rcases h3 with h | h | h
      · exact .inl h
      · exact .inr (.inl h)
      · exact .inr (.inr ((digits_any r).1 h))

theorem last_part {p b : Str} (h : LastPart p b) : (p.reverse.takeWhile (· ≠ '/')).reverse = b := by
  obtain ⟨hb, h⟩ := h
  have hb' : ∀ c ∈ b.reverse, decide (c ≠ '/') = true := by
    intro c hc
    rw [decide_eq_true_eq]
    rintro rfl
    exact hb (List.mem_reverse.1 hc)
  rcases h with rfl | ⟨d, rfl⟩
  · have := List.takeWhile_append_of_pos (l₂ := []) hb'
    rw [List.append_nil, List.takeWhile_nil, List.append_nil] at this
    rw [this, List.reverse_reverse]
  · rw [List.reverse_append, List.reverse_cons, List.append_assoc, List.takeWhile_append_of_pos hb', List.singleton_append,
      List.takeWhile_cons_of_neg (by simp), List.append_nil, List.reverse_reverse]

theorem last_unique {p b : Str} (h : (p.reverse.takeWhile (· ≠ '/')).reverse = b) : LastPart p b := by
  subst h
  constructor
  · intro hm
    have := List.all_eq_true.1 (List.all_takeWhile (p := (· ≠ '/')) (l := p.reverse)) _ (List.mem_reverse.1 hm)
    simp at this
  · have e := List.takeWhile_append_dropWhile (p := (· ≠ '/')) (l := p.reverse)
    cases hd : p.reverse.dropWhile (· ≠ '/') with
    | nil =>
      rw [hd, List.append_nil] at e
      left
      rw [e, List.reverse_reverse]
    | cons x r =>
      have hx : x = '/' := by
        have := List.head?_dropWhile_not (· ≠ '/') p.reverse
        rw [hd] at this
        simpa using this
      right
      refine ⟨r.reverse, ?_⟩
      rw [hd, hx] at e
      have := congrArg List.reverse e
      rw [List.reverse_reverse, List.reverse_append, List.reverse_cons, List.append_assoc] at this
      exact this.symm

theorem takeWhile_same {α : Type} {q : α → Bool} {l : List α} (h : ∀ c ∈ l, q c = true) : l.takeWhile q = l := by
  have := List.takeWhile_append_of_pos (l₂ := []) h
  rwa [List.append_nil, List.takeWhile_nil, List.append_nil] at this

theorem dropParams_none {p : Str} (h : ';' ∉ p) : dropParams p = p := by
  unfold dropParams
  rw [takeWhile_same (l := (p.reverse.takeWhile (· ≠ '/')).reverse)]
  · have e := List.takeWhile_append_dropWhile (p := (· ≠ '/')) (l := p.reverse)
    have := congrArg List.reverse e
    rwa [List.reverse_append, List.reverse_reverse] at this
  · intro c hc
    rw [decide_eq_true_eq]
    rintro rfl
    refine h (List.mem_reverse.1 ?_)
    rw [← List.takeWhile_append_dropWhile (p := (· ≠ '/')) (l := p.reverse)]
    exact List.mem_append_left _ (List.mem_reverse.1 hc)

/-- Query and fragment are cut off. -/
theorem cut_rest {p rest : Str} (hp : ∀ c ∈ p, c ≠ '?' ∧ c ≠ '#') (hr : rest = [] ∨ rest.head? = some '?' ∨ rest.head? = some '#') :
    ((p ++ rest).takeWhile (· ≠ '#')).takeWhile (· ≠ '?') = p := by
  have h1 : ∀ c ∈ p, decide (c ≠ '#') = true := fun c hc => by simpa using (hp c hc).2
  have h2 : ∀ c ∈ p, decide (c ≠ '?') = true := fun c hc => by simpa using (hp c hc).1
  rw [List.takeWhile_append_of_pos h1]
  rcases hr with rfl | hr | hr
  · rw [List.takeWhile_nil, List.append_nil, takeWhile_same h2]
  · cases rest with
    | nil => cases hr
    | cons x rest =>
      cases hr
      rw [List.takeWhile_cons_of_pos (by decide), List.takeWhile_append_of_pos h2, List.takeWhile_cons_of_neg (by decide), List.append_nil]
  · cases rest with
    | nil => cases hr
    | cons x rest =>
      cases hr
      rw [List.takeWhile_cons_of_neg (by decide), List.append_nil, takeWhile_same h2]

/-- C188: the parts of an address. -/
theorem address_parts {u s host p : Str} (h : Address u s host p) :
    scheme u = s.map Char.toLower ∧ path u = p ∧ LastPart p (filename u) ∧
      (isRemote u = true ↔ s.map Char.toLower ≠ "file".toList) := by
  obtain ⟨rest, rfl, hs, hh, hp, hpc, hr⟩ := h
  have e : s ++ "://".toList ++ host ++ p ++ rest = s ++ ':' :: ('/' :: '/' :: (host ++ (p ++ rest))) := by
    simp
  have hsp : splitScheme (s ++ "://".toList ++ host ++ p ++ rest) = (s.map Char.toLower, '/' :: '/' :: (host ++ (p ++ rest))) := by
    refine (scheme_exact _).1 s _ ⟨e, hs, .inr (.inr ⟨'/', List.mem_cons_self, by decide⟩)⟩
  have hpath : path (s ++ "://".toList ++ host ++ p ++ rest) = p := by
    unfold path
    simp only [hsp]
    have h2 : ('/' :: '/' :: (host ++ (p ++ rest))).take 2 = ['/', '/'] := rfl
    rw [if_pos h2]
    have h3 : ('/' :: '/' :: (host ++ (p ++ rest))).drop 2 = host ++ (p ++ rest) := rfl
    have hhost : ∀ c ∈ host, (fun c => decide (c ≠ '/') && decide (c ≠ '?') && decide (c ≠ '#')) c = true := by
      intro c hc
      obtain ⟨a, b, d⟩ := hh c hc
      simp [a, b, d]
    rw [h3, List.dropWhile_append_of_pos hhost]
    have h4 : (p ++ rest).dropWhile (fun c => decide (c ≠ '/') && decide (c ≠ '?') && decide (c ≠ '#')) = p ++ rest := by
      rcases hp with rfl | hp
      · rcases hr with rfl | hr | hr
        · rfl
        · cases rest with
          | nil => cases hr
          | cons x rest => cases hr; exact List.dropWhile_cons_of_neg (by decide)
        · cases rest with
          | nil => cases hr
          | cons x rest => cases hr; exact List.dropWhile_cons_of_neg (by decide)
      · cases p with
        | nil => cases hp
        | cons x p => cases hp; exact List.dropWhile_cons_of_neg (by decide)
    rw [h4, cut_rest (fun c hc => ⟨(hpc c hc).1, (hpc c hc).2.1⟩) hr, dropParams_none (fun hm => (hpc _ hm).2.2 rfl)]
    split <;> rfl
  refine ⟨by unfold scheme; rw [hsp], hpath, ?_, ?_⟩
  · refine last_unique ?_
    unfold filename
    rw [hpath]
  · unfold isRemote scheme
    rw [hsp, decide_eq_true_eq]
    exact Iff.rfl

/-- C188 in full: the name of a file is that of a local file, with itself as the path. -/
def LocalFull : Prop := ∀ u : Str, u ≠ [] → isRemote u = false ∧ path u = u

theorem local_refuted : ¬ LocalFull := by
  intro h
  exact absurd (h "a:b".toList (by decide)).1 (by decide)

theorem local_refuted_fragment : ¬ ∀ u : Str, ':' ∉ u → path u = u := by
  intro h
  exact absurd (h "a#b".toList (by decide)) (by decide)

/-- C188 (partial): for names that do not begin like an address and have no mark of a query or a fragment. -/
theorem local_partial (u : Str) (hs : ¬ ∃ s r, Split u s r) (h2 : u.take 2 ≠ "//".toList) (hc : ∀ c ∈ u, c ≠ '?' ∧ c ≠ '#') :
    isRemote u = false ∧ path u = u ∧ LastPart u (filename u) := by
  have hsp := (scheme_exact u).2 hs
  have hpath : path u = u := by
    unfold path
    simp only [hsp]
    rw [if_neg (show ¬ u.take 2 = ['/', '/'] from h2)]
    have := cut_rest hc (.inl (rfl : ([] : Str) = []))
    rw [List.append_nil] at this
    rw [this, if_neg (by decide)]
  refine ⟨?_, hpath, last_unique (by unfold filename; rw [hpath])⟩
  unfold isRemote scheme
  rw [hsp, decide_eq_false_iff_not]
  exact fun h => h rfl

/-- C188: exactly the addresses with another scheme than `file` are remote. -/
theorem remote_iff (u : Str) : isRemote u = true ↔ ∃ s r, Split u s r ∧ s.map Char.toLower ≠ "file".toList := by
  unfold isRemote scheme
  rw [decide_eq_true_eq]
  constructor
  · intro h
    by_cases hs : ∃ s r, Split u s r
    · obtain ⟨s, r, hsr⟩ := hs
      refine ⟨s, r, hsr, ?_⟩
      rwa [(scheme_exact u).1 s r hsr] at h
    · rw [(scheme_exact u).2 hs] at h
      exact absurd rfl h
  · rintro ⟨s, r, hsr, h⟩
    rw [(scheme_exact u).1 s r hsr]
    exact h

/-- A slash before the first colon, or no colon, makes a local file. -/
theorem no_split {u d : Str} (h : ':' ∉ u ∨ ∃ r, u = d ++ '/' :: r ∧ ':' ∉ d) : ¬ ∃ s r, Split u s r := by
  rintro ⟨s, r, rfl, ⟨_, hs⟩, _⟩
  rcases h with h | ⟨r', e, hd⟩
  · exact h (by simp)
  · have hsl : '/' ∉ s := by
      intro hm
      have := (schemeChar_iff '/').2 (hs _ hm)
      exact absurd this (by decide)
    rcases List.append_eq_append_iff.1 e with ⟨a, e1, e2⟩ | ⟨a, e1, e2⟩
    · cases a with
      | nil => cases e2
      | cons x a => cases e2; exact hd (by rw [e1]; simp)
    · cases a with
      | nil => cases e2
      | cons x a => cases e2; exact hsl (by rw [e1]; simp)

/-- Non-vacuity. -/
example : Address "HTTP://host:80/a/b.pisi?x=1".toList "HTTP".toList "host:80".toList "/a/b.pisi".toList :=
  ⟨"?x=1".toList, by decide, ⟨by decide, by simp only [← schemeChar_iff]; decide⟩, by decide, by decide, by decide, by decide⟩

example : isRemote "repo/a-1:2.pisi".toList = false ∧ path "repo/a-1:2.pisi".toList = "repo/a-1:2.pisi".toList := by
  have := local_partial "repo/a-1:2.pisi".toList (no_split (d := "repo".toList) (.inr ⟨"a-1:2.pisi".toList, by decide, by decide⟩)) (by decide) (by decide)
  exact ⟨this.1, this.2.1⟩

end Pisi.Uri
