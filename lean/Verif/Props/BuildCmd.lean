import Verif.Spec.BuildCmd

/-!
# C221: build and emerge
-/
namespace Pisi.BuildCmd

theorem mem_steps (u : Str) : u ∈ steps ↔ Step u := by simp [steps, Step]
theorem mem_formats (f : Str) : f ∈ formats ↔ Format f := by simp [formats, Format]

theorem given_some {v : Option Str} {u : Str} : given v = some u ↔ v = some u ∧ u ≠ [] := by
  unfold given
  split
  · simp
  · rename_i v hv
    constructor
    · exact fun h => ⟨h, fun e => hv (by rw [h, e])⟩
    · exact fun h => h.1

theorem loop_spec (ok : Act → Bool) (f : Str → Act) : ∀ xs, OneByOne ok f xs (buildLoop ok f xs)
  | [] => .inl ⟨by simp, rfl⟩
  | x :: xs => by
    unfold buildLoop
    by_cases h : ok (f x) = true
    · rw [if_pos h]
      rcases loop_spec ok f xs with ⟨h1, h2⟩ | ⟨pre, y, post, e, h1, h2, h3⟩
      · refine .inl ⟨fun y hy => ?_, by rw [h2]; rfl⟩
        rcases List.mem_cons.mp hy with rfl | hy
        · exact h
        · exact h1 y hy
      · refine .inr ⟨x :: pre, y, post, by rw [e]; rfl, fun z hz => ?_, h2, by rw [h3]; rfl⟩
        rcases List.mem_cons.mp hz with rfl | hz
        · exact h
        · exact h1 z hz
    · rw [if_neg h]
      exact .inr ⟨[], x, xs, rfl, by simp, by simpa using h, rfl⟩

/-- What is to be done with a name. -/
def buildAct (o : Opts) (x : Str) : Act := match given o.until_ with
  | some u => .buildUntil x u ((given o.outputDir).getD ['.']) o.format
  | none => .build x ((given o.outputDir).getD ['.']) o.format

open Classical in
theorem build_eq (ok : Act → Bool) (o : Opts) {args : List Str} (h : args ≠ []) : build ok o args =
    if ∃ u, o.until_ = some u ∧ u ≠ [] ∧ ¬ Step u then ([], .badStep)
    else if ¬ Format o.format then ([.init (!o.noInstall)], .badFormat)
    else (.init (!o.noInstall) :: (buildLoop ok (buildAct o) args).1, (buildLoop ok (buildAct o) args).2) := by
  unfold build
  rw [if_neg h]
  have e : (given o.until_).any (fun u => decide (u ∉ steps)) = true ↔ ∃ u, o.until_ = some u ∧ u ≠ [] ∧ ¬ Step u := by
    cases hg : given o.until_ with
    | none =>
      simp only [Option.any_none, Bool.false_eq_true, false_iff]
      rintro ⟨u, h1, h2, _⟩
      rw [given_some.mpr ⟨h1, h2⟩] at hg
      cases hg
    | some u =>
      obtain ⟨h1, h2⟩ := given_some.mp hg
      simp only [Option.any_some, decide_eq_true_eq, mem_steps]
      constructor
      · exact fun h => ⟨u, h1, h2, h⟩
      · rintro ⟨v, h3, _, h4⟩
        rw [h1] at h3
        cases h3
        exact h4
  by_cases hb : ∃ u, o.until_ = some u ∧ u ≠ [] ∧ ¬ Step u
  · rw [if_pos hb, if_pos (e.mpr hb)]
  · rw [if_neg hb, if_neg (fun h => hb (e.mp h))]
    by_cases hf : Format o.format
    · rw [if_neg (fun h => h ((mem_formats _).mpr hf)), if_neg (fun h => h hf)]
      rfl
    · rw [if_pos (fun h => hf ((mem_formats _).mp h)), if_pos hf]

/-- **C221.**  With options that make sense build treats every name, in the order given, with the step, the output directory and the format
that were given or the working directory and format 1.1, until one fails. -/
theorem build_partial (ok : Act → Bool) (o : Opts) {args : List Str} (h : args ≠ []) (hs : Sensible o) :
    ∃ r, OneByOne ok (buildAct o) args r ∧ build ok o args = (.init (!o.noInstall) :: r.1, r.2) ∧
      ∀ x, buildAct o x = match o.until_ with
        | some u => .buildUntil x u ((given o.outputDir).getD ['.']) o.format
        | none => .build x ((given o.outputDir).getD ['.']) o.format := by
  refine ⟨_, loop_spec ok (buildAct o) args, ?_, fun x => ?_⟩
  · rw [build_eq ok o h, if_neg (fun ⟨u, h1, _, h2⟩ => h2 (hs.1 u h1)), if_neg (fun hn => hn hs.2)]
  · unfold buildAct
    cases hu : o.until_ with
    | none => rfl
    | some u =>
      have : u ≠ [] := by
        rcases hs.1 u hu with rfl | rfl | rfl | rfl | rfl <;> decide
      rw [given_some.mpr ⟨rfl, this⟩]

/-- When build refuses the step, and that then nothing at all is done. -/
theorem build_step_iff (ok : Act → Bool) (o : Opts) {args : List Str} (h : args ≠ []) :
    ((build ok o args).2 = .badStep ↔ ∃ u, o.until_ = some u ∧ u ≠ [] ∧ ¬ Step u) ∧
    ((build ok o args).2 = .badStep → (build ok o args).1 = []) := by
  have hl : ∀ xs, (buildLoop ok (buildAct o) xs).2 = .done ∨ (buildLoop ok (buildAct o) xs).2 = .failed := by
    intro xs
    rcases loop_spec ok (buildAct o) xs with ⟨_, e⟩ | ⟨_, _, _, _, _, _, e⟩ <;> rw [e] <;> simp
  rw [build_eq ok o h]
  split
  · rename_i hx; exact ⟨⟨fun _ => hx, fun _ => rfl⟩, fun _ => rfl⟩
  · rename_i hx
    split
    · exact ⟨⟨fun e => (by cases e), fun e => absurd e hx⟩, fun e => (by cases e)⟩
    · refine ⟨⟨fun e => ?_, fun e => absurd e hx⟩, fun e => ?_⟩ <;> · rcases hl args with e' | e' <;> rw [e'] at e <;> cases e

/-- Whatever build refuses, it makes nothing. -/
theorem build_refused (ok : Act → Bool) (o : Opts) {args : List Str} (h : args ≠ [])
    (hs : (∃ u, o.until_ = some u ∧ u ≠ [] ∧ ¬ Step u) ∨ ¬ Format o.format) :
    ((build ok o args).2 = .badStep ∨ (build ok o args).2 = .badFormat) ∧ ∀ a ∈ (build ok o args).1, ¬ a.Makes := by
  rw [build_eq ok o h]
  split
  · exact ⟨.inl rfl, by simp⟩
  · rename_i hx
    rw [if_pos (hs.resolve_left hx)]
    refine ⟨.inr rfl, fun a ha => ?_⟩
    rw [List.mem_singleton.mp ha]
    exact id

/-- What emerge does: the step is not looked at, and the format handed on as it is. -/
theorem emerge_exact (ok : Act → Bool) (cache : Str) (o : Opts) {args : List Str} (h : args ≠ []) :
    ∃ out, (o.outputDir = some out ∧ out ≠ [] ∨ (o.outputDir = none ∨ o.outputDir = some []) ∧ out = cache) ∧
      emerge ok cache o args = if ok (.emerge args out o.format) then ([.init true, .emerge args out o.format, .finalize], .done)
        else ([.init true, .emerge args out o.format], .failed) := by
  refine ⟨(given o.outputDir).getD cache, ?_, ?_⟩
  · cases hg : given o.outputDir with
    | some d => exact .inl (given_some.mp hg)
    | none =>
      refine .inr ⟨?_, rfl⟩
      unfold given at hg
      split at hg
      · rename_i e; exact .inr e
      · exact .inl hg
  · unfold emerge
    rw [if_neg h]
    simp only
    split <;> rfl

/-- Without names there is the help, and nothing else. -/
theorem no_names (ok : Act → Bool) (cache : Str) (o : Opts) : build ok o [] = ([.help], .done) ∧ emerge ok cache o [] = ([.help], .done) := ⟨rfl, rfl⟩

/-- What emerge does with a step is what it does without. -/
theorem emerge_step (ok : Act → Bool) (cache : Str) (o : Opts) (u : Option Str) (args : List Str) :
    emerge ok cache { o with until_ := u } args = emerge ok cache o args := rfl

/-- Two sources, the first of which can be built. -/
example : build (fun a => a == .buildUntil ['a'] "setup".toList ['.'] "1.1".toList) { until_ := some "setup".toList } [['a'], ['b'], ['c']] =
    ([.init true, .buildUntil ['a'] "setup".toList ['.'] "1.1".toList, .buildUntil ['b'] "setup".toList ['.'] "1.1".toList], .failed) := by decide

/-- **C221 is false of the code**: emerge accepts any step. -/
theorem build_cmd_refuted : ¬ BuildCmdFull := by
  intro h
  have := (h (fun _ => true) [] { until_ := some ['x'] } [['a']] (by simp) (fun hs => by
    rcases hs.1 ['x'] rfl with e | e | e | e | e <;> exact absurd e (by decide))).2.2.1
  revert this
  decide

end Pisi.BuildCmd
