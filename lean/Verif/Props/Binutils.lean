import Verif.Spec.Binutils
import Verif.Lemmas.Str

/-!
# C216: finding tools
-/
namespace Pisi.Binutils

theorem splits_splitOn {c : Char} {s : Str} {ds : List Str} (h : Version.Spec.Splits (· = c) s ds) : ds = splitOn c s := by
  induction h with
  | last p hp => exact (splitOn_noSep c p fun x hx => hp x hx).symm
  | cons p x s ps hp hc hs ih =>
    subst hc
    rw [splitOn_append_sep x p s fun y hy => hp y hy, ih]

theorem found_iff (there : Str → Bool) (path b : Str) : existBinary there (some path) b = some true ↔ Found (fun p => there p = true) path b := by
  unfold existBinary Found
  simp only [Option.map_some, Option.some.injEq, List.any_eq_true]
  constructor
  · rintro ⟨d, hd, h⟩; exact ⟨_, splitOn_splits ':' path, d, hd, h⟩
  · rintro ⟨ds, hs, d, hd, h⟩; rw [splits_splitOn hs] at hd; exact ⟨d, hd, h⟩

theorem not_found_iff (there : Str → Bool) (path b : Str) : existBinary there (some path) b = some false ↔ ¬ Found (fun p => there p = true) path b := by
  rw [← found_iff]
  unfold existBinary
  simp only [Option.map_some, Option.some.injEq]
  cases (splitOn ':' path).any fun d => there (join d b) <;> simp

/-- What the answer says, exactly: what is called so exists in a directory of `PATH`. -/
theorem tool_iff (there : Str → Bool) (path host util : Str) :
    (∀ t, getBinutilsInfo there (some path) (some host) util = .ok t ↔
      (t = host ++ '-' :: util ∧ Found (fun p => there p = true) path t) ∨
      (t = util ∧ ¬ Found (fun p => there p = true) path (host ++ '-' :: util) ∧ Found (fun p => there p = true) path util)) ∧
    (getBinutilsInfo there (some path) (some host) util = .error .notFound ↔
      ¬ Found (fun p => there p = true) path (host ++ '-' :: util) ∧ ¬ Found (fun p => there p = true) path util) := by
  have hc : crossName (some host) util = host ++ '-' :: util := rfl
  unfold getBinutilsInfo
  rw [hc]
  by_cases h1 : Found (fun p => there p = true) path (host ++ '-' :: util)
  · rw [(found_iff there path _).mpr h1]
    refine ⟨fun t => ⟨fun h => ?_, ?_⟩, ⟨fun h => (nomatch h), fun h => absurd h1 h.1⟩⟩
    · cases h; exact .inl ⟨rfl, h1⟩
    · rintro (⟨rfl, _⟩ | ⟨_, h, _⟩)
      · rfl
      · exact absurd h1 h
  · rw [(not_found_iff there path _).mpr h1]
    by_cases h2 : Found (fun p => there p = true) path util
    · rw [(found_iff there path _).mpr h2]
      refine ⟨fun t => ⟨fun h => ?_, ?_⟩, ⟨fun h => (nomatch h), fun h => absurd h2 h.2⟩⟩
      · cases h; exact .inr ⟨rfl, h1, h2⟩
      · rintro (⟨rfl, h⟩ | ⟨rfl, _⟩)
        · exact absurd h h1
        · rfl
    · rw [(not_found_iff there path _).mpr h2]
      refine ⟨fun t => ⟨fun h => (nomatch h), ?_⟩, ⟨fun _ => ⟨h1, h2⟩, fun _ => rfl⟩⟩
      rintro (⟨rfl, h⟩ | ⟨_, _, h⟩)
      · exact absurd h h1
      · exact absurd h h2

/-- Without `PATH` nothing is found, and it is no error of the kind that is told. -/
theorem tool_no_path (there : Str → Bool) (host : Option Str) (util : Str) : getBinutilsInfo there none host util = .error .noPath := rfl

/-- **C216.**  If what is called like the tool, with the host or without, and is in a directory of `PATH`, can be run: the name for the host if
there is such a tool, else the plain name if there is one, else an error.  What is missing for the full statement, which is false of the
code: directories and files that cannot be run. -/
theorem tool_partial (there : Str → Bool) (runs : Str → Prop) (path host util : Str) (hr : ∀ p, runs p → there p = true)
    (hx : ∀ d ∈ splitOn ':' path, (there (join d (host ++ '-' :: util)) = true → runs (join d (host ++ '-' :: util))) ∧
      (there (join d util) = true → runs (join d util))) :
    (Found runs path (host ++ '-' :: util) → getBinutilsInfo there (some path) (some host) util = .ok (host ++ '-' :: util)) ∧
    (¬ Found runs path (host ++ '-' :: util) → Found runs path util → getBinutilsInfo there (some path) (some host) util = .ok util) ∧
    (¬ Found runs path (host ++ '-' :: util) → ¬ Found runs path util → getBinutilsInfo there (some path) (some host) util = .error .notFound) := by
  have e1 : Found runs path (host ++ '-' :: util) ↔ Found (fun p => there p = true) path (host ++ '-' :: util) := by
    constructor
    · rintro ⟨ds, hs, d, hd, h⟩; exact ⟨ds, hs, d, hd, hr _ h⟩
    · rintro ⟨ds, hs, d, hd, h⟩; exact ⟨ds, hs, d, hd, (hx d (splits_splitOn hs ▸ hd)).1 h⟩
  have e2 : Found runs path util ↔ Found (fun p => there p = true) path util := by
    constructor
    · rintro ⟨ds, hs, d, hd, h⟩; exact ⟨ds, hs, d, hd, hr _ h⟩
    · rintro ⟨ds, hs, d, hd, h⟩; exact ⟨ds, hs, d, hd, (hx d (splits_splitOn hs ▸ hd)).2 h⟩
  rw [e1, e2]
  obtain ⟨h1, h2⟩ := tool_iff there path host util
  exact ⟨fun h => (h1 _).mpr (.inl ⟨rfl, h⟩), fun h h' => (h1 _).mpr (.inr ⟨rfl, h, h'⟩), fun h h' => h2.mpr ⟨h, h'⟩⟩

/-- The hypotheses can be met: there is a plain `gcc` in the second directory, and no other tool. -/
example : getBinutilsInfo (fun p => p = "/usr/bin/gcc".toList) (some "/bin:/usr/bin".toList) (some "i686".toList) "gcc".toList = .ok "gcc".toList := by
  have := (tool_partial (fun p => p = "/usr/bin/gcc".toList) (fun p => p = "/usr/bin/gcc".toList) "/bin:/usr/bin".toList "i686".toList "gcc".toList
    (fun p h => decide_eq_true h) (fun d _ => ⟨fun h => of_decide_eq_true h, fun h => of_decide_eq_true h⟩)).2.1
  refine this ?_ ?_
  · rintro ⟨ds, hs, d, hd, h⟩
    rw [splits_splitOn hs] at hd
    revert d
    decide
  · exact ⟨_, splitOn_splits ':' _, "/usr/bin".toList, by decide, by decide⟩

/-- **C216 is false of the code**: a directory in `PATH` has a directory of the name. -/
theorem tool_refuted : ¬ ToolsFull := by
  intro h
  have := (h (fun p => p = "/b/gcc".toList) (fun _ => False) "/b".toList "h".toList "gcc".toList (fun _ h => h.elim)).2.2
    (by rintro ⟨_, _, _, _, h⟩; exact h) (by rintro ⟨_, _, _, _, h⟩; exact h)
  have e : getBinutilsInfo (fun p => p = "/b/gcc".toList) (some "/b".toList) (some "h".toList) "gcc".toList = .ok "gcc".toList := by rfl
  rw [e] at this
  cases this

/-- What the functions are called and what they look for. -/
theorem tool_names : tools.map (fun x => (String.ofList x.1, String.ofList x.2)) =
    [("AR", "ar"), ("AS", "as"), ("CC", "gcc"), ("CXX", "g++"), ("LD", "ld"), ("NM", "nm"), ("RANLIB", "ranlib"), ("F77", "f77"), ("GCJ", "gcj")] := by decide

end Pisi.Binutils
