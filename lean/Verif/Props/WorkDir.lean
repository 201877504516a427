import Verif.Spec.WorkDir

/-!
# The working directory: C218
-/

namespace Pisi.WorkDir

open Pisi Pisi.Path

/-- A step that creates no package. -/
def Silent : Op → Prop
  | .create _ => False
  | _ => True

theorem step_silent {o : Op} (h : Silent o) (s : St) : (step o s).1.made = s.made := by
  cases o with
  | work ok => rfl
  | user f => rfl
  | cd d t => unfold step; cases t <;> rfl
  | create n => exact h.elim

theorem steps_silent : ∀ {os : List Op}, (∀ o ∈ os, Silent o) → ∀ s : St, (steps os s).1.made = s.made
  | [], _, _ => rfl
  | o :: os, h, s => by
    have h1 := step_silent (h o (List.mem_cons_self ..)) s
    unfold steps
    rcases hs : step o s with ⟨s', b⟩
    rw [hs] at h1
    cases b with
    | false => exact h1
    | true => exact (steps_silent (fun o ho => h o (List.mem_cons_of_mem _ ho)) s').trans h1

theorem inside_silent {d : Str} {t b : Bool} {body : List Op} (h : ∀ o ∈ body, Silent o) (s : St) :
    (inside d t b body s).1.made = s.made := by
  have h1 : (steps (.cd d t :: body) s).1.made = s.made :=
    steps_silent (fun o ho => by rcases List.mem_cons.1 ho with rfl | ho; exact trivial; exact h o ho) s
  unfold inside
  rcases hs : steps (.cd d t :: body) s with ⟨s', c⟩
  rw [hs] at h1
  cases c with
  | false => exact h1
  | true => exact (step_silent (o := .cd s.cwd b) trivial s').trans h1

/-- Whatever is done inside, at the end the working directory is what it was. -/
theorem inside_back {d : Str} {t b : Bool} {body : List Op} {s : St} (h : (inside d t b body s).2 = true) :
    (inside d t b body s).1.cwd = s.cwd := by
  unfold inside at h ⊢
  rcases hs : steps (.cd d t :: body) s with ⟨s', c⟩
  rw [hs] at h
  cases c with
  | false => cases h
  | true =>
    cases b with
    | false => cases h
    | true => rfl

/-- The parts that begin and end in the same directory and create no package. -/
def Steady : Part → Prop
  | .plain (.work _) => True
  | .within _ _ _ body => ∀ o ∈ body, Silent o
  | _ => False

theorem parts_plain (o : Op) (ps : List Part) (s : St) : parts (.plain o :: ps) s = match step o s with
    | (s', true) => parts ps s'
    | (s', false) => (s', false) := by simp only [parts]; rfl

theorem parts_within (d : Str) (t b : Bool) (body : List Op) (ps : List Part) (s : St) :
    parts (.within d t b body :: ps) s = match inside d t b body s with
      | (s', true) => parts ps s'
      | (s', false) => (s', false) := by simp only [parts]; rfl

theorem steady_parts : ∀ {ps : List Part}, (∀ p ∈ ps, Steady p) → ∀ (qs : List Part) (s : St),
    (parts (ps ++ qs) s = parts qs s) ∨ ((parts (ps ++ qs) s).2 = false ∧ (parts (ps ++ qs) s).1.made = s.made)
  | [], _, _, _ => Or.inl rfl
  | p :: ps, h, qs, s => by
    have hp := h p (List.mem_cons_self ..)
    have ih := fun s => steady_parts (fun p hp => h p (List.mem_cons_of_mem _ hp)) qs s
    rw [List.cons_append]
    cases p with
    | plain o =>
      cases o with
      | work ok =>
        rw [parts_plain]
        cases ok with
        | true => exact ih s
        | false => exact Or.inr ⟨rfl, rfl⟩
      | _ => exact hp.elim
    | within d t b body =>
      rw [parts_within]
      have h1 := inside_silent (d := d) (t := t) (b := b) hp s
      have h2 := inside_back (d := d) (t := t) (b := b) (body := body) (s := s)
      rcases hs : inside d t b body s with ⟨s', c⟩
      rw [hs] at h1 h2
      cases c with
      | false => exact Or.inr ⟨rfl, h1⟩
      | true =>
        have : s' = s := by
          have h2 := h2 rfl
          cases s; cases s'
          exact congr (congrArg St.mk h2) h1
        subst this
        exact ih s'

/-- The packages are created one after the other. -/
theorem packs_parts (j : Job) (out : Str) : ∀ (packs : List Pack) (s : St),
    ((parts (packs.flatMap (packParts j out)) s).2 = true →
      parts (packs.flatMap (packParts j out)) s = (⟨s.cwd, s.made ++ packs.map fun p => (s.cwd, joinPath out [p.name])⟩, true)) ∧
    ∃ k, (parts (packs.flatMap (packParts j out)) s).1.made =
      s.made ++ (packs.take k).map fun p => (s.cwd, joinPath out [p.name])
  | [], s => ⟨fun _ => by simp [parts], 0, by simp [parts]⟩
  | p :: packs, s => by
    rw [List.flatMap_cons]
    have hsplit : packParts j out p ++ packs.flatMap (packParts j out) =
      [.within j.specDir p.specThere p.back [.work p.files], .plain (.work p.work)] ++ (.plain (.create (joinPath out [p.name])) ::
      ([.within j.specDir p.specThere p.back2 [.work p.comar, .cd j.pkgDir p.dirThere, .work p.contents]] ++
        packs.flatMap (packParts j out))) := rfl
    rw [hsplit]
    have hs1 : ∀ q ∈ [Part.within j.specDir p.specThere p.back [.work p.files], .plain (.work p.work)], Steady q := by
      intro q hq
      simp only [List.mem_cons, List.not_mem_nil, or_false] at hq
      rcases hq with rfl | rfl
      · intro o ho; rw [List.mem_singleton] at ho; subst ho; trivial
      · trivial
    have hs2 : ∀ q ∈ [Part.within j.specDir p.specThere p.back2 [.work p.comar, .cd j.pkgDir p.dirThere, .work p.contents]], Steady q := by
      intro q hq
      rw [List.mem_singleton] at hq
      subst hq
      intro o ho
      simp only [List.mem_cons, List.not_mem_nil, or_false] at ho
      rcases ho with rfl | rfl | rfl <;> trivial
    rcases steady_parts hs1 (.plain (.create (joinPath out [p.name])) ::
      ([.within j.specDir p.specThere p.back2 [.work p.comar, .cd j.pkgDir p.dirThere, .work p.contents]] ++
        packs.flatMap (packParts j out))) s with h | ⟨h1, h2⟩
    rotate_left
    · exact ⟨fun h => absurd (h1.symm.trans h) (by simp), 0, by rw [h2]; simp⟩
    rw [h]
    have hc : ∀ rest, parts (.plain (.create (joinPath out [p.name])) :: rest) s =
      parts rest ⟨s.cwd, s.made ++ [(s.cwd, joinPath out [p.name])]⟩ := fun rest => rfl
    rw [hc]
    rcases steady_parts hs2 (packs.flatMap (packParts j out)) ⟨s.cwd, s.made ++ [(s.cwd, joinPath out [p.name])]⟩ with h | ⟨h1, h2⟩
    rotate_left
    · exact ⟨fun h => absurd (h1.symm.trans h) (by simp), 1, by rw [h2]; simp⟩
    rw [h]
    obtain ⟨i1, k, i2⟩ := packs_parts j out packs ⟨s.cwd, s.made ++ [(s.cwd, joinPath out [p.name])]⟩
    refine ⟨fun h => ?_, k + 1, ?_⟩
    · rw [i1 h]; simp
    · rw [i2]; simp

/-- C218: a source that is built leaves the working directory as actions.py itself has left it, with all its packages there;
and if the building fails, the packages that are there already are in the same place. -/
theorem build_made (j : Job) (out : Str) (s : St) :
    ((buildJob j out s).2 = true → buildJob j out s = (⟨(j.script s.cwd).1, s.made ++ j.made out (j.script s.cwd).1⟩, true)) ∧
    ∃ k, (buildJob j out s).1.made = s.made ++ (j.made out (j.script s.cwd).1).take k := by
  have hb : buildJob j out s = match j.script s.cwd with
      | (d, true) => parts ([.plain (.work j.prepare), unpackPart j] ++ j.patches.map (patchPart j.srcDir) ++
          [runAction j.srcDir j.setup, runAction j.srcDir j.build, runAction j.srcDir j.install, .plain (.work j.strip)] ++
          j.packs.flatMap (packParts j out)) ⟨d, s.made⟩
      | (d, false) => (⟨d, s.made⟩, false) := by
    unfold buildJob buildParts
    show parts (.plain (.user j.script) :: _) s = _
    simp only [parts, step]
    rcases j.script s.cwd with ⟨d, b⟩
    cases b <;> rfl
  rw [hb]
  rcases j.script s.cwd with ⟨d, b⟩
  cases b with
  | false => exact ⟨fun h => (by cases h), 0, by simp⟩
  | true =>
    dsimp only
    have hst : ∀ q ∈ [.plain (.work j.prepare), unpackPart j] ++ j.patches.map (patchPart j.srcDir) ++
        [runAction j.srcDir j.setup, runAction j.srcDir j.build, runAction j.srcDir j.install, .plain (.work j.strip)], Steady q := by
      have hact : ∀ a, Steady (runAction j.srcDir a) := by
        intro a
        unfold runAction
        intro o ho
        cases hc : a.code with
        | none => rw [hc] at ho; cases ho
        | some f => rw [hc, List.mem_singleton] at ho; subst ho; trivial
      intro q hq
      simp only [List.mem_append, List.mem_cons, List.not_mem_nil, or_false, List.mem_map] at hq
      rcases hq with ((rfl | rfl) | ⟨p, _, rfl⟩) | rfl | rfl | rfl | rfl
      · trivial
      · unfold unpackPart
        cases j.tar
        · trivial
        · intro o ho; rw [List.mem_singleton] at ho; subst ho; trivial
      · intro o ho; rw [List.mem_singleton] at ho; subst ho; trivial
      · exact hact _
      · exact hact _
      · exact hact _
      · trivial
    rcases steady_parts hst (j.packs.flatMap (packParts j out)) ⟨d, s.made⟩ with h | ⟨h1, h2⟩
    · rw [h]
      obtain ⟨i1, k, i2⟩ := packs_parts j out j.packs ⟨d, s.made⟩
      refine ⟨i1, k, ?_⟩
      rw [i2]
      unfold Job.made
      rw [List.map_take]
    · exact ⟨fun h => absurd (h1.symm.trans h) (by simp), 0, by rw [h2]; simp⟩

/-- C218 (partial): `pisi build` with sources whose actions.py do not change the directory by themselves: the packages are
created in the order of the sources in the directory where pisi was started, all of them if it succeeds, and then the working
directory is the same. -/
theorem command_partial (find : Str → Str → Job) (out : Str) : ∀ (xs : List Str) (s : St), (∀ x ∈ xs, (find s.cwd x).Quiet) →
    ((buildCmd find out xs s).2 = true → buildCmd find out xs s = (⟨s.cwd, s.made ++ allMade find out s.cwd xs⟩, true)) ∧
    ∃ k, (buildCmd find out xs s).1.made = s.made ++ (allMade find out s.cwd xs).take k
  | [], s, _ => ⟨fun _ => by simp [buildCmd, allMade], 0, by simp [buildCmd]⟩
  | x :: xs, s, h => by
    obtain ⟨h1, k, h2⟩ := build_made (find s.cwd x) out s
    rw [h x (List.mem_cons_self ..)] at h1 h2
    have ha : allMade find out s.cwd (x :: xs) = (find s.cwd x).made out s.cwd ++ allMade find out s.cwd xs := by
      unfold allMade; rw [List.flatMap_cons]
    unfold buildCmd
    rcases hb : buildJob (find s.cwd x) out s with ⟨s', b⟩
    rw [hb] at h1 h2
    cases b with
    | false =>
      refine ⟨fun h => (by cases h), min k ((find s.cwd x).made out s.cwd).length, ?_⟩
      dsimp only at h2 ⊢
      rw [h2, ha, List.take_append_of_le_length (Nat.min_le_right _ _)]
      congr 1
      rw [← List.take_eq_take_min]
    | true =>
      have h1 := h1 rfl
      injection h1 with h1 _
      subst h1
      dsimp only
      obtain ⟨i1, k', i2⟩ := command_partial find out xs ⟨s.cwd, s.made ++ (find s.cwd x).made out s.cwd⟩
        (fun y hy => h y (List.mem_cons_of_mem _ hy))
      refine ⟨fun h => ?_, ((find s.cwd x).made out s.cwd).length + k', ?_⟩
      · rw [i1 h, ha]; simp
      · rw [i2, ha, List.take_length_add_append]; simp

/-- C218 (partial): every package that `pisi build` creates is in the directory where it was started. -/
theorem created_partial (find : Str → Str → Job) (out : Str) (xs : List Str) (d : Str) (h : ∀ x ∈ xs, (find d x).Quiet) :
    ∀ p ∈ (buildCmd find out xs ⟨d, []⟩).1.made, p.1 = d := by
  obtain ⟨_, k, hk⟩ := command_partial find out xs ⟨d, []⟩ h
  intro p hp
  rw [hk, List.nil_append] at hp
  have hp := List.mem_of_mem_take hp
  unfold allMade Job.made at hp
  obtain ⟨x, _, hx⟩ := List.mem_flatMap.1 hp
  obtain ⟨q, _, rfl⟩ := List.mem_map.1 hx
  rfl

/-- C218: an action that fails leaves the program in the directory where it failed. -/
theorem action_stays (src : Str) (a : Action) (f : Str → Str × Bool) (ps : List Part) (s : St) (hc : a.code = some f) (ht : a.there = true)
    (hf : (f src).2 = false) : parts (runAction src a :: ps) s = (⟨(f src).1, s.made⟩, false) := by
  unfold runAction
  rw [hc, ht]
  simp only [parts, inside, steps, step, if_true]
  rcases h : f src with ⟨d, b⟩
  rw [h] at hf
  dsimp only at hf
  subst hf
  rfl

/-- Without failures, going on or not makes no difference. -/
theorem farm_good (find : Str → Str → Job) (out : Str) : ∀ (xs : List Str) (s : St), (buildCmd find out xs s).2 = true →
    farm find out xs s = (buildCmd find out xs s).1
  | [], _, _ => rfl
  | x :: xs, s, h => by
    unfold buildCmd at h ⊢
    unfold farm
    rcases hb : buildJob (find s.cwd x) out s with ⟨s', b⟩
    rw [hb] at h
    cases b with
    | false => cases h
    | true => exact farm_good find out xs s' h

def good (f : Str → Str × Bool) : Action := ⟨some f, true, true⟩

/-- A source with one package. -/
def aJob (src : String) (setup : Str → Str × Bool) (pack : String) : Job :=
  { srcDir := src.toList, specDir := "/spec".toList, pkgDir := "/tmp/p".toList, workDir := "/tmp/p/work".toList, script := fun d => (d, true),
    prepare := true, tar := true, workThere := true, unpack := true, unpackBack := true, patches := [(true, true, true)],
    setup := good setup, build := good fun d => ("/elsewhere".toList, d.length > 0), install := ⟨none, true, true⟩, strip := true,
    packs := [⟨pack.toList, true, true, true, true, true, true, true, true⟩] }

def twoJobs (setup : Str → Str × Bool) : Str → Str → Job := fun _ x =>
  if x = "a".toList then aJob "/tmp/p/work/a" setup "a.pisi" else aJob "/tmp/p/work/b" (fun d => (d, true)) "b.pisi"

/-- C218 does not hold in full: after a failure the package of the next source is created in the source directory of the one
that failed. -/
theorem workdir_refuted : ¬ WorkDirFull := by
  intro h
  have h1 := (h (twoJobs fun d => (d, false)) ".".toList ["a".toList, "b".toList] "/home".toList).1
  have h2 : (farm (twoJobs fun d => (d, false)) ".".toList ["a".toList, "b".toList] ⟨"/home".toList, []⟩).cwd ≠ "/home".toList := by
    decide +kernel
  exact h2 h1

example : farm (twoJobs fun d => (d, false)) ".".toList ["a".toList, "b".toList] ⟨"/home".toList, []⟩ =
    ⟨"/tmp/p/work/a".toList, [("/tmp/p/work/a".toList, "./b.pisi".toList)]⟩ := by decide +kernel

example : buildCmd (twoJobs fun _ => ("/anywhere".toList, true)) ".".toList ["a".toList, "b".toList] ⟨"/home".toList, []⟩ =
    (⟨"/home".toList, [("/home".toList, "./a.pisi".toList), ("/home".toList, "./b.pisi".toList)]⟩, true) ∧
    ∀ x, (twoJobs (fun _ => ("/anywhere".toList, true)) "/home".toList x).Quiet := by
  refine ⟨by decide +kernel, fun x d => ?_⟩
  unfold twoJobs
  split <;> rfl

end Pisi.WorkDir
