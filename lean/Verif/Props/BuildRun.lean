import Verif.Model.BuildRun
import Verif.Props.SpecFile

/-!
# C211: builds in stages and in one shot; C98 and C96 for builds in stages
-/
namespace Pisi.BuildRun
open Pisi.Build (Req)
open Pisi.Pspec Pisi.PlanSpec

/-- The calls that do something to the source or make packages. -/
def Work (c : Call) : Prop := c = .fetchArchive ∨ c = .unpack ∨ c = .patches ∨ c = .setup ∨ c = .build ∨ c = .install ∨ c = .packages

instance (c : Call) : Decidable (Work c) := by unfold Work; infer_instance

/-- A phase of the build: a function of the actions script, or making the packages. -/
def Phase (c : Call) : Prop := c = .setup ∨ c = .build ∨ c = .install ∨ c = .packages

/-- All the work, in its order. -/
def allWork : List Call := [.fetchArchive, .unpack, .patches, .setup, .build, .install, .packages]

/-- **C211, full statement.**  Whatever the stages in which a build is done, one after the other to the end, it does the same work as in one
shot, ends in the same way and makes the packages from the same specification. -/
def StagedFull : Prop := ∀ (e : Env) (s : SpecFile) (rs : List Req), .oneShot ∉ rs → (rs ++ [Req.package]).Pairwise (fun a b => stage a < stage b) →
  (session e s (rs ++ [.package]) 0).1.filter Work = (run e (calls 0 .oneShot) s).1.filter Work ∧
  (session e s (rs ++ [.package]) 0).2 = (run e (calls 0 .oneShot) s).2

/-- **C98, full statement**, for builds in stages too. -/
def DepsFull : Prop := ∀ (e : Env) (s : SpecFile) (r : Req) (last : Nat), e.o.ignoreDependency = false →
  (∃ c ∈ (run e (calls last r) s).1, Phase c) → (∀ d ∈ s.source.buildDeps, Satisfied e.w d) ∧
    (e.o.bypassSafety = false → ∀ l, e.devel = some l → ∀ x ∈ l, ∃ i, e.w.inst.get x = some i)

/-- **C96, full statement** about components, for builds in stages too: packages are only made by a build that knows the component of the
source. -/
def ComponentFull : Prop := ∀ (e : Env) (s t : SpecFile) (r : Req) (last : Nat), (run e (calls last r) s) = ((run e (calls last r) s).1, .ok t) →
  Call.packages ∈ (run e (calls last r) s).1 → e.comp ≠ some [] → ¬ Missing t.source.partOf

/-! ## Runs -/

/-- A call that only succeeds or fails. -/
def Plain (c : Call) : Prop := c ≠ .checkDeps ∧ c ≠ .fetchComponent

theorem step_plain (e : Env) (s : SpecFile) {c : Call} (h : Plain c) : step e s c = if e.ok c then .ok s else .error (.call c) := by
  cases c <;> first | rfl | exact absurd rfl h.1 | exact absurd rfl h.2

/-- How a run of such calls ends. -/
def outcome (e : Env) (s : SpecFile) : List Call → Except Fail SpecFile
  | [] => .ok s
  | c :: cs => if e.ok c then outcome e s cs else .error (.call c)

theorem run_plain (e : Env) (s : SpecFile) : ∀ l : List Call, (∀ c ∈ l, Plain c) → run e l s = (l.takeWhile e.ok, outcome e s l)
  | [], _ => rfl
  | c :: l, h => by
    unfold run
    rw [step_plain e s (h c (by simp))]
    cases hc : e.ok c with
    | false => simp [outcome, hc]
    | true => simp [outcome, hc, run_plain e s l (fun d hd => h d (by simp [hd]))]

theorem outcome_append (e : Env) (s : SpecFile) (a b : List Call) :
    outcome e s (a ++ b) = match outcome e s a with | .ok _ => outcome e s b | .error x => .error x := by
  induction a with
  | nil => rfl
  | cons c a ih =>
    simp only [List.cons_append, outcome]
    cases e.ok c with
    | true => simpa using ih
    | false => rfl

theorem outcome_ok (e : Env) (s t : SpecFile) (l : List Call) (h : outcome e s l = .ok t) : t = s ∧ l.all e.ok = true := by
  induction l with
  | nil => cases h; exact ⟨rfl, rfl⟩
  | cons c l ih =>
    unfold outcome at h
    cases hc : e.ok c with
    | false => rw [hc] at h; cases h
    | true =>
      rw [hc] at h
      obtain ⟨a, b⟩ := ih h
      exact ⟨a, by simp [hc, b]⟩

theorem outcome_error (e : Env) (s : SpecFile) (x : Fail) (l : List Call) (h : outcome e s l = .error x) (m : List Call) :
    (l ++ m).takeWhile e.ok = l.takeWhile e.ok := by
  induction l with
  | nil => cases h
  | cons c l ih =>
    unfold outcome at h
    cases hc : e.ok c with
    | false => simp [hc]
    | true =>
      rw [hc] at h
      simp only [List.cons_append, List.takeWhile_cons, hc, if_true]
      rw [ih h]

theorem takeWhile_all {l m : List Call} {p : Call → Bool} (h : l.all p = true) : (l ++ m).takeWhile p = l ++ m.takeWhile p := by
  induction l with
  | nil => rfl
  | cons c l ih =>
    simp only [List.all_cons, Bool.and_eq_true] at h
    simp [h.1, ih h.2]

/-! ## Stages -/

/-- The work between two stages. -/
def seg (a b : Nat) : List Call := (allWork.take (if b = 0 then 0 else b + 2)).drop (if a = 0 then 0 else a + 2)

theorem calls_seg (r : Req) (hr : r ≠ .oneShot) (last : Nat) (h : last < stage r) : calls last r = .compile :: seg last (stage r) := by
  have : ∀ r : Req, r ≠ .oneShot → ∀ last, last < 5 → last < stage r → calls last r = .compile :: seg last (stage r) := by
    intro r
    cases r <;> decide
  refine this r hr last (Nat.lt_of_lt_of_le h ?_) h
  cases r <;> decide

theorem seg_append (a b c : Nat) (h : a < b) (h2 : b < c) (h3 : c ≤ 5) : seg a b ++ seg b c = seg a c := by
  have : ∀ a b c : Fin 6, a.1 < b.1 → b.1 < c.1 → seg a.1 b.1 ++ seg b.1 c.1 = seg a.1 c.1 := by decide
  exact this ⟨a, by omega⟩ ⟨b, by omega⟩ ⟨c, by omega⟩ h h2

theorem seg_plain (a b : Nat) : ∀ c ∈ seg a b, Plain c ∧ Work c := by
  intro c hc
  have : c ∈ allWork := List.mem_of_mem_take (List.mem_of_mem_drop hc)
  have all : ∀ c ∈ allWork, Plain c ∧ Work c := by unfold Plain; decide
  exact all c this

theorem work_takeWhile (e : Env) (l : List Call) (h : ∀ c ∈ l, Work c) : (l.takeWhile e.ok).filter Work = l.takeWhile e.ok := by
  rw [List.filter_eq_self]
  intro c hc
  simpa using h c ((List.takeWhile_sublist _).mem hc)

/-- A build in increasing stages does the work up to the last of them. -/
theorem session_work (e : Env) (s : SpecFile) (hcomp : e.ok .compile = true) : ∀ (rs : List Req) (last : Nat), .oneShot ∉ rs →
    (rs ++ [Req.package]).Pairwise (fun a b => stage a < stage b) → (∀ r ∈ rs ++ [Req.package], last < stage r) →
    (session e s (rs ++ [.package]) last).1.filter Work = (seg last 5).takeWhile e.ok ∧
      (session e s (rs ++ [.package]) last).2 = outcome e s (seg last 5) := by
  have one : ∀ (r : Req) (last : Nat), r ≠ .oneShot → last < stage r →
      run e (calls last r) s = (.compile :: (seg last (stage r)).takeWhile e.ok, outcome e s (seg last (stage r))) := by
    intro r last hr hl
    rw [calls_seg r hr last hl, run_plain e s _ (by
      intro c hc
      rcases List.mem_cons.mp hc with rfl | hc
      · exact ⟨by decide, by decide⟩
      · exact (seg_plain _ _ c hc).1)]
    simp [outcome, hcomp]
  have filt : ∀ a b, (Call.compile :: (seg a b).takeWhile e.ok).filter Work = (seg a b).takeWhile e.ok := by
    intro a b
    rw [List.filter_cons, if_neg (by decide)]
    exact work_takeWhile e _ fun c hc => (seg_plain _ _ c hc).2
  intro rs
  induction rs with
  | nil =>
    intro last _ _ hl
    have h1 := one .package last (by decide) (hl _ (by simp))
    simp only [List.nil_append, session, h1]
    cases ho : outcome e s (seg last (stage .package)) with
    | error x => exact ⟨filt _ _, ho.symm⟩
    | ok t => exact ⟨filt _ _, ho.symm⟩
  | cons r rs ih =>
    intro last hn hp hl
    simp only [List.mem_cons, not_or] at hn
    rw [List.cons_append, List.pairwise_cons] at hp
    have h1 := one r last (Ne.symm hn.1) (hl r (by simp))
    have h5 : stage r < 5 := hp.1 .package (by simp)
    have hseg := seg_append last (stage r) 5 (hl r (by simp)) h5 (Nat.le_refl _)
    obtain ⟨i1, i2⟩ := ih (stage r) hn.2 hp.2 (fun x hx => hp.1 x hx)
    rw [← hseg, outcome_append]
    simp only [List.cons_append, session, h1]
    cases ho : outcome e s (seg last (stage r)) with
    | error x =>
      rw [outcome_error e s x _ ho]
      exact ⟨filt _ _, rfl⟩
    | ok t =>
      obtain ⟨rfl, hall⟩ := outcome_ok e s t _ ho
      rw [takeWhile_all hall]
      simp only
      rw [if_neg (by simp)]
      refine ⟨?_, i2⟩
      rw [List.filter_append, filt, i1]
      congr 1
      have := takeWhile_all (m := []) hall
      simpa using this

/-- What a build in one shot does if its checks succeed. -/
theorem oneShot_work (e : Env) (s : SpecFile) (hcomp : e.ok .compile = true) (hpat : e.ok .patchExists = true)
    (hdeps : checkBuildDeps e.w e.o e.devel s.source.buildDeps = .ok ()) (hpart : ¬ Missing s.source.partOf) :
    run e (calls 0 .oneShot) s =
      ([.compile, .patchExists, .checkDeps, .fetchComponent] ++ allWork.takeWhile e.ok, outcome e s allWork) := by
  have hf : fetchComponent e.comp s = .ok s := by
    unfold fetchComponent
    rw [if_neg]
    intro h
    exact hpart ((falsy_iff _).mp h)
  have h := run_plain e s allWork (by unfold Plain; decide)
  show run e (.compile :: .patchExists :: .checkDeps :: .fetchComponent :: allWork) s = _
  simp only [run, step, hcomp, hpat, hdeps, hf, if_true]
  rw [h]
  rfl

/-- **C211** for builds whose checks succeed and whose source names its component: however the build is divided into stages, the same
work is done in the same order up to the same failure, and the packages are made from the same specification.  What is missing for the
full statement, which is false of the code: builds in stages check neither the build dependencies nor the patches, and do not look for
the component. -/
theorem staged_same_partial (e : Env) (s : SpecFile) (rs : List Req) (hn : .oneShot ∉ rs)
    (hp : (rs ++ [Req.package]).Pairwise (fun a b => stage a < stage b)) (hpat : e.ok .patchExists = true)
    (hdeps : checkBuildDeps e.w e.o e.devel s.source.buildDeps = .ok ()) (hpart : ¬ Missing s.source.partOf) :
    (session e s (rs ++ [.package]) 0).1.filter Work = (run e (calls 0 .oneShot) s).1.filter Work ∧
    (session e s (rs ++ [.package]) 0).2 = (run e (calls 0 .oneShot) s).2 := by
  cases hcomp : e.ok .compile with
  | true =>
    have h := session_work e s hcomp rs 0 hn hp (fun r _ => by cases r <;> decide)
    rw [h.1, h.2, oneShot_work e s hcomp hpat hdeps hpart]
    refine ⟨?_, rfl⟩
    rw [List.filter_append, show List.filter Work [Call.compile, .patchExists, .checkDeps, .fetchComponent] = [] by decide, List.nil_append,
      work_takeWhile e allWork (by decide)]
    rfl
  | false =>
    have hone : run e (calls 0 .oneShot) s = ([], .error (.call .compile)) := by simp [calls, run, step, hcomp]
    have hst : ∀ r, run e (calls 0 r) s = ([], .error (.call .compile)) := by
      intro r
      cases r <;> simp [calls, run, step, hcomp]
    rw [hone]
    cases rs with
    | nil => simp only [List.nil_append, session, hst]; exact ⟨trivial, trivial⟩
    | cons r rs => simp only [List.cons_append, session, hst]; exact ⟨trivial, trivial⟩

/-- Builds in stages never check the build dependencies or the patches and never look for the component. -/
theorem staged_unchecked (r : Req) (hr : r ≠ .oneShot) (last : Nat) :
    Call.checkDeps ∉ calls last r ∧ Call.patchExists ∉ calls last r ∧ Call.fetchComponent ∉ calls last r := by
  have h1 : ∀ n, Call.checkDeps ∉ setupCalls n ∧ Call.patchExists ∉ setupCalls n ∧ Call.fetchComponent ∉ setupCalls n := by
    intro n; unfold setupCalls; split <;> decide
  have h2 : ∀ n, Call.checkDeps ∉ buildCalls n ∧ Call.patchExists ∉ buildCalls n ∧ Call.fetchComponent ∉ buildCalls n := by
    intro n; unfold buildCalls; split
    · simp [h1 n]
    · decide
  have h3 : ∀ n, Call.checkDeps ∉ installCalls n ∧ Call.patchExists ∉ installCalls n ∧ Call.fetchComponent ∉ installCalls n := by
    intro n; unfold installCalls; split
    · simp [h2 n]
    · decide
  have h4 : ∀ n, Call.checkDeps ∉ packageCalls n ∧ Call.patchExists ∉ packageCalls n ∧ Call.fetchComponent ∉ packageCalls n := by
    intro n; unfold packageCalls; split
    · simp [h3 n]
    · decide
  cases r with
  | oneShot => exact absurd rfl hr
  | unpack => simp [calls, unpackCalls]
  | setup => simp [calls, h1 last]
  | build => simp [calls, h2 last]
  | install => simp [calls, h3 last]
  | package => simp [calls, h4 last]

/-! ## Builds in one shot -/

/-- In one shot a phase is reached only after the checks. -/
theorem oneShot_checked (e : Env) (s : SpecFile) (last : Nat) {c : Call} (h : c ∈ (run e (calls last .oneShot) s).1) (hc : Phase c) :
    checkBuildDeps e.w e.o e.devel s.source.buildDeps = .ok () ∧ ∃ t, fetchComponent e.comp s = .ok t := by
  have hne : c ≠ .compile ∧ c ≠ .patchExists ∧ c ≠ .checkDeps ∧ c ≠ .fetchComponent := by
    rcases hc with rfl | rfl | rfl | rfl <;> decide
  simp only [calls, run, step] at h
  cases h1 : e.ok .compile with
  | false => simp [h1] at h
  | true =>
    cases h2 : e.ok .patchExists with
    | false => simp [h1, h2, hne] at h
    | true =>
      cases h3 : checkBuildDeps e.w e.o e.devel s.source.buildDeps with
      | error x => simp [h1, h2, h3, hne] at h
      | ok u =>
        cases h4 : fetchComponent e.comp s with
        | error x => simp [h1, h2, h3, h4, hne] at h
        | ok t => exact ⟨rfl, t, rfl⟩

/-- **C98** for builds in one shot. -/
theorem deps_partial (e : Env) (s : SpecFile) (last : Nat) (ho : e.o.ignoreDependency = false)
    (h : ∃ c ∈ (run e (calls last .oneShot) s).1, Phase c) : (∀ d ∈ s.source.buildDeps, Satisfied e.w d) ∧
    (e.o.bypassSafety = false → ∀ l, e.devel = some l → ∀ x ∈ l, ∃ i, e.w.inst.get x = some i) := by
  obtain ⟨c, hc, hp⟩ := h
  exact build_deps_sound (oneShot_checked e s last hc hp).1 ho

/-- A source with a build dependency that is nowhere, and without a component. -/
def bare : SpecFile := { source := { name := ['s'], buildDeps := [{ package := ['d'] }] }, history := [], packages := [] }

/-- **C98 is false of the code** for builds in stages. -/
theorem deps_refuted : ¬ DepsFull := by
  intro h
  have := (h { w := { inst := [], repo := [], track := [], revInst := [], revRepo := [] } } bare .setup 0 rfl ⟨.setup, by decide, .inl rfl⟩).1 { package := ['d'] } (by decide)
  obtain ⟨⟨i, hi⟩, _⟩ := this
  cases hi

/-- **C96** for builds in one shot: the component is known. -/
theorem component_partial (e : Env) (s t : SpecFile) (last : Nat) (hr : (run e (calls last .oneShot) s).2 = .ok t) (hn : e.comp ≠ some []) :
    ¬ Missing t.source.partOf := by
  simp only [calls, run, step] at hr
  cases h1 : e.ok .compile with
  | false => simp [h1] at hr
  | true =>
    cases h2 : e.ok .patchExists with
    | false => simp [h1, h2] at hr
    | true =>
      cases h3 : checkBuildDeps e.w e.o e.devel s.source.buildDeps with
      | error x => simp [h1, h2, h3] at hr
      | ok u =>
        cases h4 : fetchComponent e.comp s with
        | error x => simp [h1, h2, h3, h4] at hr
        | ok t' =>
          have ht : t = t' := by
            have hh : (run e allWork t').2 = .ok t := by
              simpa [h1, h2, h3, h4, run, step, allWork] using hr
            rw [run_plain e t' allWork (by unfold Plain; decide)] at hh
            exact (outcome_ok e t' t _ hh).1
          subst ht
          unfold fetchComponent at h4
          split at h4
          next hf =>
            cases hcomp : e.comp with
            | none => rw [hcomp] at h4; cases h4
            | some x =>
              rw [hcomp] at h4
              cases h4
              rintro (hm | hm)
              · cases hm
              · exact hn (by rw [hcomp]; exact hm)
          next hf =>
            cases h4
            exact fun hm => hf ((falsy_iff _).mpr hm)

/-- **C96 is false of the code** for builds in stages. -/
theorem component_refuted : ¬ ComponentFull := by
  intro h
  exact h { w := { inst := [], repo := [], track := [], revInst := [], revRepo := [] }, comp := some ['c'] } bare bare .package 0 (by rfl) (by decide) (by decide) (.inl rfl)

/-- **C211 is false of the code**: a build in stages goes on where the one in one shot fails. -/
theorem staged_same_refuted : ¬ StagedFull := by
  intro h
  have := (h { w := { inst := [], repo := [], track := [], revInst := [], revRepo := [] } } bare [] (by simp) (by simp)).1
  revert this
  decide

/-- The hypotheses of `staged_same_partial` can be met: three stages. -/
example (e : Env) (hpat : e.ok .patchExists = true) (hd : e.devel = none) (ho : e.o = {}) :
    (session e { source := { name := ['s'], partOf := some ['c'] }, history := [], packages := [] } [.unpack, .build, .package] 0).2 =
      (run e (calls 0 .oneShot) { source := { name := ['s'], partOf := some ['c'] }, history := [], packages := [] }).2 := by
  refine (staged_same_partial e _ [.unpack, .build] (by decide) (by decide) hpat ?_ (by unfold Missing; decide)).2
  rw [hd, ho]
  rfl

end Pisi.BuildRun
