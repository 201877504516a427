import Verif.Spec.BuildTools
import Verif.Props.SystemCmd
import Verif.Props.Shell

/-! # Helpers that run build systems: failures (C161), the install directory (C162), python modules (C163) -/
namespace Pisi.Tools
open Pisi.ToolsSpec

variable {σ : Type} {m : Machine σ} {e : Env}

/-! ## Failures -/

/-- How the end of a computation has to look like after a failed program. -/
def Ends (P : Err → Prop) (a : Prog σ) : Prop := ∀ s, (∀ x ∈ (a s).2.1.dropLast, x.2 = 0) ∧
  ∀ x, (a s).2.1.getLast? = some x → x.2 ≠ 0 → ∃ y, (a s).2.2 = .error y ∧ P y

theorem Ends.all {P : Err → Prop} {a : Prog σ} (h : Ends P a) {s : σ} (hr : (a s).2.2 = .ok ()) : ∀ x ∈ (a s).2.1, x.2 = 0 := by
  obtain ⟨h1, h2⟩ := h s
  intro x hx
  rcases List.eq_nil_or_concat (a s).2.1 with hn | ⟨l, y, hl⟩
  · rw [hn] at hx; cases hx
  · rw [hl] at hx h1 h2
    rw [List.concat_eq_append] at hx h1 h2
    rw [List.dropLast_concat] at h1
    rcases List.mem_append.1 hx with hx | hx
    · exact h1 x hx
    · rw [List.mem_singleton.1 hx]
      refine Classical.byContradiction fun hne => ?_
      obtain ⟨z, hz, _⟩ := h2 y (by simp) hne
      rw [hr] at hz; cases hz

theorem ends_done {P : Err → Prop} : Ends P (done : Prog σ) := fun s => by simp [done]
theorem ends_raise {P : Err → Prop} {x : Err} : Ends P (raise x : Prog σ) := fun s => by simp [raise]
theorem ends_quiet {P : Err → Prop} {f : σ → σ} : Ends P (quiet f) := fun s => by simp [quiet]

theorem ends_step {P : Err → Prop} {f : σ → σ × Bool} : Ends P (step f) := fun s => by
  unfold step
  rcases f s with ⟨s', _ | _⟩ <;> simp

theorem ends_check {P : Err → Prop} {cmd : Str} {x : Err} (hx : P x) : Ends P (check m cmd x) := fun s => by
  unfold check
  rcases m.run s (Act.squeeze cmd) with ⟨s', rc⟩
  refine ⟨by simp, ?_⟩
  intro y hy hne
  simp only [List.getLast?_singleton, Option.some.injEq] at hy
  subst hy
  refine ⟨x, ?_, hx⟩
  show (if rc = 0 then _ else _) = _
  rw [if_neg hne]

theorem ends_ifFile {P : Err → Prop} {p : Str} {a b : Prog σ} (ha : Ends P a) (hb : Ends P b) : Ends P (ifFile m p a b) := fun s => by
  unfold ifFile
  by_cases h : m.access s p = true
  · simp only [h, if_true]; exact ha s
  · simp only [h, Bool.false_eq_true, if_false]; exact hb s

theorem ends_andThen {P : Err → Prop} {a b : Prog σ} (ha : Ends P a) (hb : Ends P b) : Ends P (andThen a b) := fun s => by
  have h1 := ha s
  have h2 := ha.all (s := s)
  unfold andThen
  rcases h : a s with ⟨s', l, _ | _⟩
  · rw [h] at h1; exact h1
  · rw [h] at h2
    have h2 := h2 rfl
    have h3 := hb s'
    dsimp only
    generalize b s' = q at h3
    obtain ⟨s'', l', r⟩ := q
    rcases List.eq_nil_or_concat l' with rfl | ⟨k, y, rfl⟩
    · dsimp only at h2 ⊢
      rw [List.append_nil]
      refine ⟨fun x hx => h2 x (List.dropLast_subset _ hx), fun x hx hne => absurd (h2 x (List.mem_of_getLast? hx)) hne⟩
    · rw [List.concat_eq_append] at h3 ⊢
      dsimp only at h2 h3 ⊢
      rw [← List.append_assoc, List.dropLast_concat, List.getLast?_concat]
      rw [List.dropLast_concat, List.getLast?_concat] at h3
      refine ⟨fun x hx => ?_, h3.2⟩
      rcases List.mem_append.1 hx with hx | hx
      · exact h2 x hx
      · exact h3.1 x hx

theorem ends_makefile {P : Err → Prop} {a b : Prog σ} (ha : Ends P a) (hb : Ends P b) : Ends P (ifMakefile m a b) :=
  ends_ifFile ha (ends_ifFile ha (ends_ifFile ha hb))

theorem ends_info {P : Err → Prop} : Ends P (fixInfoDir m e) := fun s => ends_ifFile (ends_quiet) ends_done s

theorem ends_pod {P : Err → Prop} {f : Str} : Ends P (fixPod m f) := ends_ifFile ends_quiet ends_done

theorem ends_docs {P : Err → Prop} : ∀ l, Ends P (pyDocs m l)
  | [] => ends_done
  | _ :: l => ends_andThen (ends_ifFile ends_raise ends_done) (ends_docs l)

theorem call_ends (c : Call) (hc : ∀ p, c ≠ .autoCompile p) :
    Ends (fun y => y = .action ∨ (y = .name ∧ ∃ p, c = .perlConfigure p)) (c.prog m e) := by
  cases c with
  | autoConfigure p => exact ends_ifFile (ends_andThen ends_step (ends_check (Or.inl rfl))) ends_raise
  | autoRawConfigure p => exact ends_ifFile (ends_andThen ends_step (ends_check (Or.inl rfl))) ends_raise
  | autoCompile p => exact absurd rfl (hc p)
  | autoMake p => exact ends_check (Or.inl rfl)
  | autoInstall p a => exact ends_andThen (ends_makefile (ends_check (Or.inl rfl)) ends_raise) ends_info
  | autoRawInstall p a => exact ends_andThen (ends_makefile (ends_check (Or.inl rfl)) ends_raise) ends_info
  | auto c p => exact ends_check (Or.inl rfl)
  | kdeConfigure p => exact ends_ifFile (ends_check (Or.inl rfl)) ends_raise
  | kdeInstall p => exact ends_ifFile (ends_check (Or.inl rfl)) ends_raise
  | perlConfigure p => exact ends_ifFile (ends_check (Or.inr ⟨rfl, p, rfl⟩)) (ends_check (Or.inr ⟨rfl, p, rfl⟩))
  | perlMake p => exact ends_ifFile (ends_check (Or.inl rfl)) (ends_check (Or.inl rfl))
  | perlInstall p =>
    exact ends_andThen (ends_ifFile (ends_check (Or.inl rfl)) (ends_check (Or.inl rfl)))
      (ends_andThen ends_pod (ends_andThen ends_pod ends_pod))
  | pyCompile p => exact ends_check (Or.inl rfl)
  | pyInstall p => exact ends_andThen (ends_check (Or.inl rfl)) (ends_docs _)
  | pyRun p => exact ends_check (Or.inl rfl)
  | sconsMake p => exact ends_check (Or.inl rfl)
  | sconsInstall p q a => exact ends_check (Or.inl rfl)
  | preplib d =>
    intro s
    show (∀ x ∈ (preplib m d s).2.1.dropLast, _) ∧ _
    unfold Call.prog preplib
    by_cases h : m.accessDir s d = true
    · simp only [h, if_true]; exact ends_check (Or.inl rfl) s
    · simp only [h, Bool.false_eq_true, if_false]; exact ends_done s

theorem Ends.mono {P Q : Err → Prop} {a : Prog σ} (h : Ends P a) (hPQ : ∀ y, P y → Q y) : Ends Q a :=
  fun s => ⟨(h s).1, fun x hx hne => let ⟨y, h1, h2⟩ := (h s).2 x hx hne; ⟨y, h1, hPQ y h2⟩⟩

theorem script_ends (l : List Call) (hc : ∀ p, Call.autoCompile p ∉ l) :
    Ends (fun y => y = .action ∨ (y = .name ∧ ∃ p, Call.perlConfigure p ∈ l)) (script m e l) := by
  induction l with
  | nil => exact ends_done
  | cons c l ih =>
    refine ends_andThen ?_ ((ih fun p hp => hc p (List.mem_cons_of_mem _ hp)).mono ?_)
    · refine (call_ends c (fun p hp => hc p (hp ▸ List.mem_cons_self))).mono ?_
      rintro y (h | ⟨h, p, rfl⟩)
      · exact Or.inl h
      · exact Or.inr ⟨h, p, List.mem_cons_self⟩
    · rintro y (h | ⟨h, p, hp⟩)
      · exact Or.inl h
      · exact Or.inr ⟨h, p, List.mem_cons_of_mem _ hp⟩

/-- **C161, full statement.**  When a program that an actions script runs through the helpers fails, no other program is run and the
script ends with an error of the actions API. -/
def FailuresFull : Prop := ∀ (σ : Type) (m : Machine σ) (e : Env) (l : List Call) (s : σ),
  Heeded (script m e l s).2.1 (script m e l s).2.2

/-- **C161, partial.**  Without `autotools.compile` a failed program is the last one that is run and the script ends with an error;
without `perlmodules.configure` it is an error of the actions API. -/
theorem failures_partial (m : Machine σ) (e : Env) (l : List Call) (s : σ) (hc : ∀ p, Call.autoCompile p ∉ l) :
    Stopped (script m e l s).2.1 (script m e l s).2.2 ∧
    ((∀ p, Call.perlConfigure p ∉ l) → Heeded (script m e l s).2.1 (script m e l s).2.2) := by
  obtain ⟨h1, h2⟩ := script_ends (m := m) (e := e) l hc s
  refine ⟨⟨h1, fun x hx hne => let ⟨y, h, _⟩ := h2 x hx hne; ⟨y, h⟩⟩, fun hp => ⟨h1, fun x hx hne => ?_⟩⟩
  obtain ⟨y, h, rfl | ⟨_, p, hpl⟩⟩ := h2 x hx hne
  · exact h
  · exact absurd hpl (hp p)

/-- A script that ends well has run only programs that ended well. -/
theorem script_ok (m : Machine σ) (e : Env) (l : List Call) (s : σ) (hc : ∀ p, Call.autoCompile p ∉ l)
    (hr : (script m e l s).2.2 = .ok ()) : ∀ x ∈ (script m e l s).2.1, x.2 = 0 :=
  (script_ends l hc).all hr

/-- A computer on which every program fails and every file is there. -/
def broken : Machine Unit where
  access _ _ := true
  accessDir _ _ := true
  run _ _ := ((), 1)
  unlink _ _ := ()
  gnuconfig _ := ((), true)

/-- One on which every program succeeds and the files are given. -/
def fine (files : List Str) : Machine Unit where
  access _ p := files.contains p
  accessDir _ _ := true
  run _ _ := ((), 0)
  unlink _ _ := ()
  gnuconfig _ := ((), true)

def exEnv : Env := ⟨['/', 'i'], ['h'], ['-', 'j', '2'], [], some ['g', 'c', 'c'], ['/', 'k'], ['/', 'q'], ['5'], ['/', 'i']⟩

/-- The compiler fails, and `make` is run. -/
theorem failures_refuted : ¬ FailuresFull := by
  intro h
  have := (h Unit broken exEnv [.autoCompile [], .autoMake []] ()).1
  have h2 := this (Act.squeeze (line [['g', 'c', 'c'], [], []]), 1) (by decide +kernel)
  revert h2; decide

/-- `perlmodules.configure` does not get to raise its error. -/
theorem failures_perl : (script broken exEnv [.perlConfigure []] ()).2.2 = .error .name := by decide +kernel

/-- The hypotheses are met by a script whose second program fails. -/
example : (∀ p, Call.autoCompile p ∉ [Call.autoConfigure [], .autoMake [], .autoInstall [] []]) ∧
    (script (fine [['c', 'o', 'n', 'f', 'i', 'g', 'u', 'r', 'e'], ['M', 'a', 'k', 'e', 'f', 'i', 'l', 'e']]) exEnv
      [.autoConfigure [], .autoMake [], .autoInstall [] []] ()).2.1.length = 3 ∧
    (script broken exEnv [.autoConfigure [], .autoMake [], .autoInstall [] []] ()).2.1.length = 1 := by
  refine ⟨by simp, by decide +kernel, by decide +kernel⟩

/-! ## The install directory -/

open Pisi.ShellSpec (Runs Tok rd)

theorem simple_char {c : Char} (h : c = ' ' ∨ (ShellSpec.safeChar c = true ∧ ShellSpec.first c = false)) :
    c ∉ ['"', '\'', '\\', '\n', '\r', '\x0b', '\x0c'] ∨ c ∈ ['\r', '\x0b', '\x0c'] := by
  by_cases hc : c ∈ ['\r', '\x0b', '\x0c']
  · exact Or.inr hc
  · refine Or.inl ?_
    intro hm
    simp only [List.mem_cons, List.not_mem_nil, or_false] at hm hc
    rcases h with rfl | ⟨h, _⟩
    · revert hm; decide
    · rcases hm with rfl | rfl | rfl | rfl | hm
      · revert h; decide
      · revert h; decide
      · revert h; decide
      · revert h; decide
      · exact hc hm

/-- Simple text without the other white space. -/
def Plain (s : Str) : Prop := Simple s ∧ ∀ c ∈ s, c ∉ ['\r', '\x0b', '\x0c']

theorem plain_words : ∀ (s w : Str), Plain s →
    rd .bare (if w = [] then none else some w) s = some ((Act.splitBlank w s).map Tok.word) := by
  intro s
  induction s with
  | nil => intro w _; by_cases h : w = [] <;> simp [Act.splitBlank, rd, ShellSpec.flush, h]
  | cons c s ih =>
    intro w hs
    have hs' : Plain s := ⟨fun x hx => hs.1 x (List.mem_cons_of_mem _ hx), fun x hx => hs.2 x (List.mem_cons_of_mem _ hx)⟩
    have h2 := hs.2 c List.mem_cons_self
    rcases hs.1 c List.mem_cons_self with rfl | ⟨h, hf⟩
    · have h0 := ih [] hs'
      rw [if_pos rfl] at h0
      have hb : Act.blank ' ' = true := by decide
      have hb' : ShellSpec.blank ' ' = true := by decide
      by_cases hw : w = []
      · simp [rd, hb', h0, Act.splitBlank, hb, hw, ShellSpec.flush]
      · simp [rd, hb', h0, Act.splitBlank, hb, hw, ShellSpec.flush]
    · have hb : Act.blank c = false := by
        obtain ⟨h1, h3, _⟩ := Shell.safeChar_parts h
        simp only [List.mem_cons, List.not_mem_nil, or_false, not_or] at h2
        have hn : c ≠ '\n' := by rintro rfl; revert h3; decide
        simp only [ShellSpec.blank, Bool.or_eq_false_iff, decide_eq_false_iff_not] at h1
        simp [Act.blank, h1, hn, h2]
      rw [Shell.rd_safe h (by simp [hf])]
      have := ih (w ++ [c]) hs'
      rw [if_neg (by simp)] at this
      have hm : ShellSpec.more (if w = [] then none else some w) c = some (w ++ [c]) := by
        by_cases hw : w = [] <;> simp [ShellSpec.more, hw]
      rw [hm, this]
      simp [Act.splitBlank, hb]

theorem plain_run {s : Str} (h : Plain s) : Runs (Act.squeeze s) (Act.splitBlank [] s) := by
  unfold Runs
  rw [(SystemCmd.system_partial s).1]
  · have := plain_words s [] h
    rw [if_pos rfl] at this
    exact this
  · intro c hc
    rcases simple_char (h.1 c hc) with h1 | h1
    · exact h1
    · exact absurd h1 (h.2 c hc)

theorem split_blank (a r w : Str) : Act.splitBlank w (a ++ ' ' :: r) = Act.splitBlank w a ++ Act.splitBlank [] r := by
  induction a generalizing w with
  | nil =>
    have hb : Act.blank ' ' = true := by decide
    by_cases h : w = [] <;> simp [Act.splitBlank, hb, h]
  | cons c a ih =>
    simp only [List.cons_append, Act.splitBlank]
    by_cases hb : Act.blank c = true
    · by_cases h : w = [] <;> simp [hb, h, ih]
    · simp [hb, ih]

theorem split_line (l : List Str) : Act.splitBlank [] (line l) = l.flatMap (Act.splitBlank []) := by
  induction l with
  | nil => rfl
  | cons w l ih =>
    by_cases h : l = []
    · subst h; simp [line, List.intercalate]
    · unfold line at ih ⊢
      rw [Act.intercalate_cons h, List.append_assoc, List.singleton_append, split_blank, ih, List.flatMap_cons]

/-- A word: not empty, and no white space in it. -/
def Word (w : Str) : Prop := w ≠ [] ∧ ∀ c ∈ w, Act.blank c = false

theorem split_word : ∀ (w v : Str), v ++ w ≠ [] → (∀ c ∈ w, Act.blank c = false) → Act.splitBlank v w = [v ++ w] := by
  intro w
  induction w with
  | nil => intro v h _; rw [List.append_nil] at h; simp [Act.splitBlank, h]
  | cons c w ih =>
    intro v _ hw
    simp only [Act.splitBlank, hw c List.mem_cons_self, Bool.false_eq_true, if_false]
    rw [ih (v ++ [c]) (by simp) fun x hx => hw x (List.mem_cons_of_mem _ hx)]
    simp

theorem mem_line {w : Str} {l : List Str} (hw : Word w) (h : w ∈ l) : w ∈ Act.splitBlank [] (line l) := by
  rw [split_line, List.mem_flatMap]
  refine ⟨w, h, ?_⟩
  rw [split_word w [] (by simpa using hw.1) hw.2]
  simp

theorem plain_line {l : List Str} (h : ∀ w ∈ l, Plain w) : Plain (line l) := by
  induction l with
  | nil => exact ⟨fun c hc => (List.not_mem_nil hc).elim, fun c hc => (List.not_mem_nil hc).elim⟩
  | cons w l ih =>
    have hl := ih fun x hx => h x (List.mem_cons_of_mem _ hx)
    have hw := h w List.mem_cons_self
    by_cases h0 : l = []
    · subst h0; simpa [line, List.intercalate] using hw
    · unfold line at hl ⊢
      rw [Act.intercalate_cons h0]
      constructor
      · intro c hc
        rcases List.mem_append.1 hc with hc | hc
        · rcases List.mem_append.1 hc with hc | hc
          · exact hw.1 c hc
          · exact Or.inl (List.mem_singleton.1 hc)
        · exact hl.1 c hc
      · intro c hc
        rcases List.mem_append.1 hc with hc | hc
        · rcases List.mem_append.1 hc with hc | hc
          · exact hw.2 c hc
          · rw [List.mem_singleton.1 hc]; decide
        · exact hl.2 c hc

theorem plain_append {a b : Str} (ha : Plain a) (hb : Plain b) : Plain (a ++ b) :=
  ⟨fun c hc => (List.mem_append.1 hc).elim (ha.1 c) (hb.1 c), fun c hc => (List.mem_append.1 hc).elim (ha.2 c) (hb.2 c)⟩

theorem word_append {a b : Str} (ha : a ≠ []) (h1 : ∀ c ∈ a, Act.blank c = false) (h2 : ∀ c ∈ b, Act.blank c = false) : Word (a ++ b) :=
  ⟨by simp [ha], fun c hc => (List.mem_append.1 hc).elim (h1 c) (h2 c)⟩

/-- Being plain can be decided for a given text. -/
def plainB (s : Str) : Bool := s.all fun c => (c = ' ' || (ShellSpec.safeChar c && !ShellSpec.first c)) && !(['\r', '\x0b', '\x0c'].contains c)

theorem plainB_iff {s : Str} (h : plainB s = true) : Plain s := by
  simp only [plainB, List.all_eq_true, Bool.and_eq_true, Bool.or_eq_true, decide_eq_true_eq, Bool.not_eq_true'] at h
  exact ⟨fun c hc => (h c hc).1, fun c hc hm => by
    have := (h c hc).2
    rw [List.contains_iff_mem.2 hm] at this; cases this⟩

/-- The directories of a script: `sconsPrefix` is that of the first package of the run whose script imported `scons`. -/
theorem scons_default (d : Option Str) (l : List Pkg) : sconsDefault d l = (d.or ((l.find? (·.imports)).map (·.inst))) := by
  induction l generalizing d with
  | nil => cases d <;> rfl
  | cons p l ih =>
    unfold sconsDefault
    rw [ih]
    cases d with
    | some x => simp
    | none => by_cases h : p.imports = true <;> simp [h]

/-- Every command line that is run has a property. -/
def Only (Q : Str → Prop) (a : Prog σ) : Prop := ∀ s, ∀ x ∈ (a s).2.1, Q x.1

theorem only_check {Q : Str → Prop} {cmd : Str} {x : Err} (h : Q (Act.squeeze cmd)) : Only Q (check m cmd x) := fun s y hy => by
  unfold check at hy
  generalize m.run s (Act.squeeze cmd) = q at hy
  obtain ⟨s', rc⟩ := q
  rw [List.mem_singleton.1 hy]; exact h

theorem only_done {Q : Str → Prop} : Only Q (done : Prog σ) := fun s y hy => by cases hy
theorem only_raise {Q : Str → Prop} {x : Err} : Only Q (raise x : Prog σ) := fun s y hy => by cases hy
theorem only_quiet {Q : Str → Prop} {f : σ → σ} : Only Q (quiet f) := fun s y hy => by cases hy

theorem only_ifFile {Q : Str → Prop} {p : Str} {a b : Prog σ} (ha : Only Q a) (hb : Only Q b) : Only Q (ifFile m p a b) :=
  fun s y hy => by
    unfold ifFile at hy
    by_cases h : m.access s p = true
    · rw [if_pos h] at hy; exact ha s y hy
    · rw [if_neg h] at hy; exact hb s y hy

theorem only_andThen {Q : Str → Prop} {a b : Prog σ} (ha : Only Q a) (hb : Only Q b) : Only Q (andThen a b) := fun s y hy => by
  unfold andThen at hy
  have h1 := ha s
  generalize a s = q at h1 hy
  obtain ⟨s', l, _ | _⟩ := q
  · exact h1 y hy
  · dsimp only at hy
    have h2 := hb s'
    generalize b s' = q at h2 hy
    obtain ⟨s'', l', r⟩ := q
    exact (List.mem_append.1 hy).elim (h1 y) (h2 y)

theorem only_info {Q : Str → Prop} : Only Q (fixInfoDir m e) := fun s => only_ifFile only_quiet only_done s

theorem only_docs {Q : Str → Prop} : ∀ l, Only Q (pyDocs m l)
  | [] => only_done
  | _ :: l => only_andThen (only_ifFile only_raise only_done) (only_docs l)

/-- A command line put together from words and plain texts contains the words. -/
theorem told {l : List Str} (h : ∀ w ∈ l, Plain w) : ∃ ws, Runs (Act.squeeze (line l)) ws ∧ ∀ w ∈ l, Word w → w ∈ ws :=
  ⟨_, plain_run (plain_line h), fun _ hw hW => mem_line hW hw⟩

/-- **C162, full statement.**  When packages are built one after the other in one run of pisi, the helpers that install tell the build
system to put the files below the install directory of the package being built. -/
def InstFull : Prop := ∀ (σ : Type) (m : Machine σ) (e : Env) (before : List Pkg) (p : Pkg) (c : Call) (s : σ),
  e.inst = p.inst → p.imports = true → sconsDefault none (before ++ [p]) = some e.sconsPrefix →
  installs c = true → (∀ t ∈ texts c, Plain t) → (∀ t q a, c = .sconsInstall t q a → ' ' ∉ a) →
  ∀ x ∈ (c.prog m e s).2.1, ∃ ws, Runs x.1 ws ∧ Tells p.inst c ws

/-- The directory that the build system is told: for `scons` that of the first package whose script imported it. -/
def toldDir (before : List Pkg) (p : Pkg) : Call → Str
  | .sconsInstall _ _ _ => match before.find? (·.imports) with
    | some q => q.inst
    | none => p.inst
  | _ => p.inst

theorem noblank {w : Str} (h : Plain w) (h2 : ' ' ∉ w) : ∀ c ∈ w, Act.blank c = false := by
  intro c hc
  rcases h.1 c hc with rfl | ⟨h1, _⟩
  · exact absurd hc h2
  · obtain ⟨h3, h4, _⟩ := Shell.safeChar_parts h1
    have h5 := h.2 c hc
    have hn : c ≠ '\n' := by rintro rfl; revert h4; decide
    simp only [List.mem_cons, List.not_mem_nil, or_false, not_or] at h5
    simp only [ShellSpec.blank, Bool.or_eq_false_iff, decide_eq_false_iff_not] at h3
    simp [Act.blank, h3, hn, h5]

/-- **C162, partial.**  If the directory has no blanks and no characters with a meaning to the shell, the build system is told the
install directory of the package being built; only `scons` is told that of the first package of the run whose script imported
`scons`. -/
theorem inst_partial (m : Machine σ) (e : Env) (before : List Pkg) (p : Pkg) (c : Call) (s : σ)
    (hi : e.inst = p.inst) (hp : p.imports = true) (hd : sconsDefault none (before ++ [p]) = some e.sconsPrefix)
    (hc : installs c = true) (ht : ∀ t ∈ texts c, Plain t) (ha : ∀ t q a, c = .sconsInstall t q a → ' ' ∉ a)
    (hs : ∀ q ∈ p :: before, Plain q.inst ∧ ' ' ∉ q.inst) :
    ∀ x ∈ (c.prog m e s).2.1, ∃ ws, Runs x.1 ws ∧ Tells (toldDir before p c) c ws := by
  have hpi := hs p List.mem_cons_self
  have hib := noblank hpi.1 hpi.2
  have lit : ∀ {a b : Str}, plainB a = true → a ≠ [] → (∀ c ∈ a, Act.blank c = false) → plainB b = true → (∀ c ∈ b, Act.blank c = false) →
      Plain (a ++ p.inst ++ b) ∧ Word (a ++ p.inst ++ b) := by
    intro a b h1 h2 h3 h4 h5
    refine ⟨plain_append (plain_append (plainB_iff h1) hpi.1) (plainB_iff h4), ?_⟩
    refine ⟨by simp [h2], fun c hc => (List.mem_append.1 hc).elim (fun hc => (List.mem_append.1 hc).elim (h3 c) (hib c)) (h5 c)⟩
  have lit0 : ∀ {a : Str}, plainB a = true → a ≠ [] → (∀ c ∈ a, Act.blank c = false) → Plain (a ++ p.inst) ∧ Word (a ++ p.inst) := by
    intro a h1 h2 h3
    have := lit (b := []) h1 h2 h3 (by decide) (by simp)
    rwa [List.append_nil] at this
  cases c with
  | autoInstall t a =>
    have h1 := ht t (by simp [texts])
    have h2 := ht a (by simp [texts])
    refine only_andThen (Q := fun x => ∃ ws, Runs x ws ∧ Tells p.inst (.autoInstall t a) ws) ?_ ?_ s
    · unfold ifMakefile
      refine only_ifFile ?_ (only_ifFile ?_ (only_ifFile ?_ only_raise)) <;>
      · refine only_check ?_
        unfold autoInstallCmd
        rw [hi]
        have l1 := lit (a := "prefix=".toList) (b := "/usr".toList) (by decide) (by decide) (by decide) (by decide) (by decide)
        have l2 := lit (a := "datadir=".toList) (b := "/usr/share".toList) (by decide) (by decide) (by decide) (by decide) (by decide)
        have l3 := lit (a := "infodir=".toList) (b := "/usr/share/info".toList) (by decide) (by decide) (by decide) (by decide) (by decide)
        have l4 := lit (a := "localstatedir=".toList) (b := "/var/lib".toList) (by decide) (by decide) (by decide) (by decide) (by decide)
        have l5 := lit (a := "mandir=".toList) (b := "/usr/share/man".toList) (by decide) (by decide) (by decide) (by decide) (by decide)
        have l6 := lit (a := "sysconfdir=".toList) (b := "/etc".toList) (by decide) (by decide) (by decide) (by decide) (by decide)
        obtain ⟨ws, hr, hm⟩ := told (l := ["make".toList, "prefix=".toList ++ p.inst ++ "/usr".toList,
          "datadir=".toList ++ p.inst ++ "/usr/share".toList, "infodir=".toList ++ p.inst ++ "/usr/share/info".toList,
          "localstatedir=".toList ++ p.inst ++ "/var/lib".toList, "mandir=".toList ++ p.inst ++ "/usr/share/man".toList,
          "sysconfdir=".toList ++ p.inst ++ "/etc".toList, t, a]) (by
            intro w hw
            simp only [List.mem_cons, List.not_mem_nil, or_false] at hw
            rcases hw with rfl | rfl | rfl | rfl | rfl | rfl | rfl | rfl | rfl
            exacts [plainB_iff (by decide), l1.1, l2.1, l3.1, l4.1, l5.1, l6.1, h1, h2])
        refine ⟨ws, hr, ?_⟩
        intro v hv
        simp only [List.mem_cons, List.not_mem_nil, or_false] at hv
        rcases hv with rfl | rfl | rfl | rfl | rfl | rfl
        · exact hm _ (by simp) l1.2
        · exact hm _ (by simp) l2.2
        · exact hm _ (by simp) l3.2
        · exact hm _ (by simp) l4.2
        · exact hm _ (by simp) l5.2
        · exact hm _ (by simp) l6.2
    · exact only_info
  | kdeInstall t =>
    have h1 := ht t (by simp [texts])
    refine only_ifFile (Q := fun x => ∃ ws, Runs x ws ∧ Tells p.inst (.kdeInstall t) ws) (only_check ?_) only_raise s
    unfold kdeInstallCmd
    rw [hi]
    have l1 := lit0 (a := "DESTDIR=".toList) (by decide) (by decide) (by decide)
    have l2 := lit0 (a := "destdir=".toList) (by decide) (by decide) (by decide)
    obtain ⟨ws, hr, hm⟩ := told (l := ["make".toList, "DESTDIR=".toList ++ p.inst, "destdir=".toList ++ p.inst, t]) (by
      intro w hw
      simp only [List.mem_cons, List.not_mem_nil, or_false] at hw
      rcases hw with rfl | rfl | rfl | rfl
      exacts [plainB_iff (by decide), l1.1, l2.1, h1])
    exact ⟨ws, hr, hm _ (by simp) l1.2, hm _ (by simp) l2.2⟩
  | perlConfigure t =>
    have h1 := ht t (by simp [texts])
    refine only_ifFile (Q := fun x => ∃ ws, Runs x ws ∧ Tells p.inst (.perlConfigure t) ws) (only_check ?_) (only_check ?_) s
    · unfold perlBuildPL
      rw [hi]
      have l2 := lit0 (a := "destdir=".toList) (by decide) (by decide) (by decide)
      obtain ⟨ws, hr, hm⟩ := told (l := ["perl".toList, "Build.PL".toList, "installdirs=vendor".toList, "destdir=".toList ++ p.inst]) (by
        intro w hw
        simp only [List.mem_cons, List.not_mem_nil, or_false] at hw
        rcases hw with rfl | rfl | rfl | rfl
        exacts [plainB_iff (by decide), plainB_iff (by decide), plainB_iff (by decide), l2.1])
      exact ⟨ws, hr, Or.inr (hm _ (by simp) l2.2)⟩
    · unfold perlMakefilePL
      rw [hi]
      have l2 := lit0 (a := "DESTDIR=".toList) (by decide) (by decide) (by decide)
      obtain ⟨ws, hr, hm⟩ := told (l := ["perl".toList, "Makefile.PL".toList, t, "PREFIX=/usr".toList, "INSTALLDIRS=vendor".toList,
        "DESTDIR=".toList ++ p.inst]) (by
        intro w hw
        simp only [List.mem_cons, List.not_mem_nil, or_false] at hw
        rcases hw with rfl | rfl | rfl | rfl | rfl | rfl
        exacts [plainB_iff (by decide), plainB_iff (by decide), h1, plainB_iff (by decide), plainB_iff (by decide), l2.1])
      exact ⟨ws, hr, Or.inl (hm _ (by simp) l2.2)⟩
  | pyInstall t =>
    have h1 := ht t (by simp [texts])
    refine only_andThen (Q := fun x => ∃ ws, Runs x ws ∧ Tells p.inst (.pyInstall t) ws) (only_check ?_) (only_docs _) s
    unfold pyInstallCmd
    rw [hi]
    have l2 := lit0 (a := "--root=".toList) (by decide) (by decide) (by decide)
    obtain ⟨ws, hr, hm⟩ := told (l := ["python".toList, "setup.py".toList, "install".toList, "--root=".toList ++ p.inst,
      "--no-compile".toList, t]) (by
        intro w hw
        simp only [List.mem_cons, List.not_mem_nil, or_false] at hw
        rcases hw with rfl | rfl | rfl | rfl | rfl | rfl
        exacts [plainB_iff (by decide), plainB_iff (by decide), plainB_iff (by decide), l2.1, plainB_iff (by decide), h1])
    exact ⟨ws, hr, hm _ (by simp) l2.2⟩
  | sconsInstall t q a =>
    cases q with
    | some q => cases hc
    | none =>
      have h1 := ht t (by simp [texts])
      have h2 := ht a (by simp [texts])
      have hs' : ∃ q ∈ p :: before, toldDir before p (.sconsInstall t none a) = q.inst ∧ e.sconsPrefix = q.inst := by
        rw [scons_default, List.find?_append] at hd
        unfold toldDir
        cases hf : before.find? (·.imports) with
        | some q =>
          rw [hf] at hd
          refine ⟨q, List.mem_cons_of_mem _ (List.mem_of_find?_eq_some hf), rfl, ?_⟩
          simpa using hd.symm
        | none =>
          rw [hf] at hd
          refine ⟨p, List.mem_cons_self, rfl, ?_⟩
          simpa [hp] using hd.symm
      obtain ⟨q, hq, hq1, hq2⟩ := hs'
      have hqi := hs q hq
      rw [hq1]
      refine only_check (Q := fun x => ∃ ws, Runs x ws ∧ Tells q.inst (.sconsInstall t none a) ws) ?_ s
      unfold sconsInstallCmd
      rw [Option.getD_none, hq2]
      have hpl : Plain (a ++ '=' :: q.inst) := plain_append h2 (plain_append (a := ['=']) (plainB_iff (by decide)) hqi.1)
      have hwd : Word (a ++ '=' :: q.inst) := ⟨by simp, noblank hpl (by
        intro hm
        rcases List.mem_append.1 hm with hm | hm
        · exact ha t none a rfl hm
        · rcases List.mem_cons.1 hm with hm | hm
          · revert hm; decide
          · exact hqi.2 hm)⟩
      obtain ⟨ws, hr, hm⟩ := told (l := ["scons".toList, a ++ '=' :: q.inst, t]) (by
        intro w hw
        simp only [List.mem_cons, List.not_mem_nil, or_false] at hw
        rcases hw with rfl | rfl | rfl
        exacts [plainB_iff (by decide), hpl, h1])
      exact ⟨ws, hr, hm _ (by simp) hwd⟩
  | _ => cases hc

/-- Two packages, both built with `scons`: the files of the second are put where those of the first were. -/
theorem inst_refuted : ¬ InstFull := by
  intro h
  have := h Unit (fine []) { exEnv with inst := ['/', 'b'], sconsPrefix := ['/', 'a'] } [⟨['/', 'a'], true⟩] ⟨['/', 'b'], true⟩
    (.sconsInstall [] none ['p']) () rfl rfl rfl rfl
    (by intro t ht; simp only [texts, List.mem_cons, List.not_mem_nil, or_false] at ht; rcases ht with rfl | rfl <;> exact plainB_iff (by decide))
    (by intro t q a ha; cases ha; decide)
    (['s', 'c', 'o', 'n', 's', ' ', 'p', '=', '/', 'a'], 0) (by decide +kernel)
  obtain ⟨ws, hr, ht⟩ := this
  have h2 : ShellSpec.read ['s', 'c', 'o', 'n', 's', ' ', 'p', '=', '/', 'a'] =
      some [.word ['s', 'c', 'o', 'n', 's'], .word ['p', '=', '/', 'a']] := by decide
  unfold Runs at hr
  rw [h2, Option.some.injEq] at hr
  have h3 : Tok.word ['p', '=', '/', 'b'] ∈ ws.map Tok.word := List.mem_map.2 ⟨_, ht, rfl⟩
  rw [← hr] at h3
  revert h3; decide

/-- A directory with a blank in it: the build system is told another one. -/
theorem inst_blank : ∃ x ∈ ((Call.kdeInstall []).prog (fine [['M', 'a', 'k', 'e', 'f', 'i', 'l', 'e']])
    { exEnv with inst := ['/', 'a', ' ', 'b'] } ()).2.1, ∃ ws, Runs x.1 ws ∧ ¬ Tells ['/', 'a', ' ', 'b'] (.kdeInstall []) ws := by
  refine ⟨(Act.squeeze (kdeInstallCmd { exEnv with inst := ['/', 'a', ' ', 'b'] } []), 0), by decide +kernel,
    [['m', 'a', 'k', 'e'], ['D', 'E', 'S', 'T', 'D', 'I', 'R', '=', '/', 'a'], ['b'], ['d', 'e', 's', 't', 'd', 'i', 'r', '=', '/', 'a'],
      ['b']], ?_, ?_⟩
  · unfold Runs; decide +kernel
  · rintro ⟨h, _⟩; revert h; decide +kernel

/-- The hypotheses are met by a second package that uses `make`. -/
example : sconsDefault none ([⟨['/', 'a'], false⟩] ++ [⟨['/', 'b'], true⟩]) = some ['/', 'b'] ∧
    installs (.autoInstall [] ['i']) = true ∧ (∀ t ∈ texts (.autoInstall ['V', '=', '1', ' ', 'W', '=', '2'] ['i']), plainB t = true) ∧
    (∀ q ∈ [Pkg.mk ['/', 'b'] true, ⟨['/', 'a'], false⟩], plainB q.inst = true ∧ ' ' ∉ q.inst) := by decide

/-! ## Python modules -/

theorem docs_run (l : Str) (s : σ) : pyDocs m l s = if ∃ c ∈ l, m.access s [c] = true then (s, [], .error .name) else (s, [], .ok ()) := by
  induction l with
  | nil => simp [pyDocs, done]
  | cons c l ih =>
    unfold pyDocs andThen ifFile
    by_cases h : m.access s [c] = true
    · rw [if_pos h, if_pos ⟨c, List.mem_cons_self, h⟩]; rfl
    · rw [if_neg h]
      show (match pyDocs m l s with | (s'', l', r) => (s'', [] ++ l', r)) = _
      rw [ih]
      by_cases h2 : ∃ x ∈ l, m.access s [x] = true
      · rw [if_pos h2, if_pos (by obtain ⟨x, hx, hx2⟩ := h2; exact ⟨x, List.mem_cons_of_mem _ hx, hx2⟩)]; rfl
      · rw [if_neg h2, if_neg]; · rfl
        rintro ⟨x, hx, hx2⟩
        rcases List.mem_cons.1 hx with rfl | hx
        · exact h hx2
        · exact h2 ⟨x, hx, hx2⟩

/-- **C163, full statement.**  `pythonmodules.install` succeeds exactly when `setup.py install` does. -/
def PyInstallFull : Prop := ∀ (σ : Type) (m : Machine σ) (e : Env) (p : Str) (s : σ),
  (pyInstall m e p s).2.2 = .ok () ↔ ∀ x ∈ (pyInstall m e p s).2.1, x.2 = 0

/-- **C163, partial.**  It succeeds exactly when `setup.py install` does and no file in the directory of the sources has one of these
characters for its name; after `setup.py` nothing more is done to the computer: no documentation is installed. -/
theorem pyInstall_partial (m : Machine σ) (e : Env) (p : Str) (s : σ) :
    (pyInstall m e p s).1 = (m.run s (Act.squeeze (pyInstallCmd e p))).1 ∧
    (pyInstall m e p s).2.1 = [(Act.squeeze (pyInstallCmd e p), (m.run s (Act.squeeze (pyInstallCmd e p))).2)] ∧
    ((pyInstall m e p s).2.2 = .ok () ↔ (m.run s (Act.squeeze (pyInstallCmd e p))).2 = 0 ∧
      ∀ c ∈ " *-ABCDEFGHIKLMNOPRSTUWY_aeghn".toList,
        m.access (m.run s (Act.squeeze (pyInstallCmd e p))).1 [c] = false) := by
  have hmem : ∀ c, c ∈ ddocs ↔ c ∈ " *-ABCDEFGHIKLMNOPRSTUWY_aeghn".toList := fun c =>
    ⟨fun h => (by decide +kernel : ∀ c ∈ ddocs, c ∈ " *-ABCDEFGHIKLMNOPRSTUWY_aeghn".toList) c h,
     fun h => (by decide +kernel : ∀ c ∈ " *-ABCDEFGHIKLMNOPRSTUWY_aeghn".toList, c ∈ ddocs) c h⟩
  unfold pyInstall andThen check
  generalize m.run s (Act.squeeze (pyInstallCmd e p)) = q
  obtain ⟨s', rc⟩ := q
  by_cases h : rc = 0
  · subst h
    simp only [if_true, docs_run]
    by_cases h2 : ∃ c ∈ ddocs, m.access s' [c] = true
    · simp only [if_pos h2]
      refine ⟨trivial, by simp, ?_⟩
      obtain ⟨c, hc, hc2⟩ := h2
      constructor
      · intro h; cases h
      · rintro ⟨_, h⟩
        have := h c ((hmem c).1 hc)
        rw [hc2] at this; cases this
    · simp only [if_neg h2]
      refine ⟨trivial, by simp, ⟨fun _ => ⟨trivial, fun c hc => ?_⟩, fun _ => trivial⟩⟩
      rw [← Bool.not_eq_true]
      exact fun h => h2 ⟨c, (hmem c).2 hc, h⟩
  · simp only [if_neg h]
    refine ⟨trivial, trivial, ?_⟩
    constructor
    · intro h3; cases h3
    · intro h3; exact absurd h3.1 h

/-- A file `C` in the directory of the sources, and the call fails after everything was installed. -/
theorem pyInstall_refuted : ¬ PyInstallFull := by
  intro h
  have := (h Unit (fine [['C']]) exEnv [] ()).2 (by decide +kernel)
  revert this; decide +kernel

/-- Both ends are possible. -/
example : (pyInstall (fine [['R', 'E', 'A', 'D', 'M', 'E']]) exEnv [] ()).2.2 = .ok () ∧
    (pyInstall broken exEnv [] ()).2.2 = .error .action := by
  constructor <;> decide +kernel

end Pisi.Tools
