import Verif.Props.BuildTools
import Verif.Spec.BuildLines

/-! # C173: the programs the helpers run -/
namespace Pisi.Tools
open ShellSpec ToolsSpec

variable {σ : Type} {m : Machine σ} {e : Env}

/-- A plain command line is read as the words of its parts. -/
theorem run_line {l : List Str} (h : ∀ w ∈ l, Plain w) : Runs (Act.squeeze (line l)) (l.flatMap (Act.splitBlank [])) := by
  rw [← split_line]; exact plain_run (plain_line h)

/-- Nothing is run. -/
def Still (a : Prog σ) : Prop := ∀ s, (a s).2.1 = []

theorem still_done : Still (done : Prog σ) := fun _ => rfl
theorem still_raise {x : Err} : Still (raise x : Prog σ) := fun _ => rfl
theorem still_quiet {f : σ → σ} : Still (quiet f) := fun _ => rfl

theorem still_ifFile {p : Str} {a b : Prog σ} (ha : Still a) (hb : Still b) : Still (ifFile m p a b) := fun s => by
  unfold ifFile
  by_cases h : m.access s p = true
  · rw [if_pos h]; exact ha s
  · rw [if_neg h]; exact hb s

theorem ran_andThen {a b : Prog σ} (hb : Still b) (s : σ) : (andThen a b s).2.1 = (a s).2.1 := by
  unfold andThen
  rcases h : a s with ⟨s', l, _ | _⟩
  · rfl
  · show l ++ (b s').2.1 = l
    rw [hb s', List.append_nil]

theorem still_andThen {a b : Prog σ} (ha : Still a) (hb : Still b) : Still (andThen a b) := fun s => by
  rw [ran_andThen hb, ha]

theorem still_info : Still (fixInfoDir m e) := fun s => still_ifFile still_quiet still_done s
theorem still_pod {f : Str} : Still (fixPod m f) := still_ifFile still_quiet still_done
theorem still_pods : Still (fixLocalPod m e) := still_andThen still_pod (still_andThen still_pod still_pod)
theorem still_docs : ∀ l, Still (pyDocs m l)
  | [] => still_done
  | _ :: l => still_andThen (still_ifFile still_raise still_done) (still_docs l)

/-- What is run is this command line, or nothing. -/
def Line (ran : List (Str × Int)) : Option (List Str) → Prop
  | none => ran = []
  | some l => ∃ rc, ran = [(Act.squeeze (line l), rc)]

theorem line_check (l : List Str) (x : Err) (s : σ) : Line (check m (line l) x s).2.1 (some l) := ⟨(m.run s (Act.squeeze (line l))).2, rfl⟩

theorem line_makefile {l : List Str} {x : Err} {s : σ} :
    Line (ifMakefile m (check m (line l) x) (raise x) s).2.1 (if makefile (m.access s) then some l else none) := by
  unfold ifMakefile makefile ifFile
  by_cases h1 : m.access s "makefile".toList = true
  · simp only [h1, if_true, Bool.true_or]; exact line_check ..
  by_cases h2 : m.access s "Makefile".toList = true
  · simp only [h1, h2, if_true, Bool.true_or, Bool.or_true, Bool.false_eq_true, if_false]; exact line_check ..
  by_cases h3 : m.access s "GNUmakefile".toList = true
  · simp only [h1, h2, h3, if_true, Bool.or_true, Bool.false_eq_true, if_false]; exact line_check ..
  simp only [h1, h2, h3, Bool.or_self, Bool.false_eq_true, if_false]; rfl

theorem line_gnu {l : List Str} {x : Err} {s : σ} :
    Line (ifFile m "configure".toList (andThen (step m.gnuconfig) (check m (line l) x)) (raise x) s).2.1
      (if m.access s "configure".toList && (m.gnuconfig s).2 then some l else none) := by
  unfold ifFile
  by_cases h1 : m.access s "configure".toList = true
  · simp only [h1, if_true, Bool.true_and]
    unfold andThen step
    rcases h2 : m.gnuconfig s with ⟨s', _ | _⟩
    · rfl
    · simp only [if_true]
      exact line_check l x s'
  · simp only [h1, Bool.false_eq_true, if_false, Bool.false_and]; rfl

theorem line_build : ("perl Build build".toList) = line ["perl".toList, "Build".toList, "build".toList] := by decide
theorem line_install : ("perl Build install".toList) = line ["perl".toList, "Build".toList, "install".toList] := by decide

/-- Every call runs one program at most, and that with the command line of the documentation. -/
theorem call_line (c : Call) (s : σ) :
    Line (c.prog m e s).2.1 (expected e (m.access s) (m.accessDir s) (m.gnuconfig s).2 c) := by
  cases c with
  | autoConfigure p => exact line_gnu
  | autoRawConfigure p => exact line_gnu
  | autoCompile p =>
    show Line (autoCompile m e p s).2.1 (e.cc.map fun cc => [cc, e.cflags, p])
    unfold autoCompile
    cases h : e.cc with
    | none => rfl
    | some cc => exact ⟨(m.run s (Act.squeeze (line [cc, e.cflags, p]))).2, rfl⟩
  | autoMake p => exact line_check ..
  | autoInstall p a =>
    show Line (autoInstall m e p a s).2.1 _
    unfold autoInstall
    rw [ran_andThen still_info]
    exact line_makefile
  | autoRawInstall p a =>
    show Line (autoRawInstall m e p a s).2.1 _
    unfold autoRawInstall
    rw [ran_andThen still_info]
    exact line_makefile
  | auto c p => exact line_check ..
  | kdeConfigure p =>
    show Line (kdeConfigure m e p s).2.1 (if _ then _ else _)
    unfold kdeConfigure ifFile
    by_cases h1 : m.access s "configure".toList = true
    · rw [if_pos h1, if_pos h1]; exact line_check ..
    · rw [if_neg h1, if_neg h1]; rfl
  | kdeInstall p =>
    show Line (kdeInstall m e p s).2.1 (if _ then _ else _)
    unfold kdeInstall ifFile
    by_cases h1 : m.access s "Makefile".toList = true
    · rw [if_pos h1, if_pos h1]; exact line_check ..
    · rw [if_neg h1, if_neg h1]; rfl
  | perlConfigure p =>
    show Line (perlConfigure m e p s).2.1 (some (if _ then _ else _))
    unfold perlConfigure ifFile
    by_cases h1 : m.access s "Build.PL".toList = true
    · rw [if_pos h1, if_pos h1]; exact line_check ..
    · rw [if_neg h1, if_neg h1]; exact line_check ..
  | perlMake p =>
    show Line (perlMake m p s).2.1 (some (if _ then _ else _))
    unfold perlMake ifFile
    by_cases h1 : m.access s "Makefile".toList = true
    · rw [if_pos h1, if_pos h1]; exact line_check ..
    · rw [if_neg h1, if_neg h1, line_build]; exact line_check ..
  | perlInstall p =>
    show Line (perlInstall m e p s).2.1 (some (if _ then _ else _))
    unfold perlInstall
    rw [ran_andThen still_pods]
    unfold ifFile
    by_cases h1 : m.access s "Makefile".toList = true
    · rw [if_pos h1, if_pos h1]; exact line_check ..
    · rw [if_neg h1, if_neg h1, line_install]; exact line_check ..
  | pyCompile p => exact line_check ..
  | pyInstall p =>
    show Line (pyInstall m e p s).2.1 _
    unfold pyInstall
    rw [ran_andThen (still_docs _)]
    exact line_check ..
  | pyRun p => exact line_check ..
  | sconsMake p => exact line_check ..
  | sconsInstall p pre a => exact line_check ..
  | preplib d =>
    show Line (preplib m d s).2.1 (if _ then _ else _)
    unfold preplib
    by_cases h1 : m.accessDir s d = true
    · rw [if_pos h1, if_pos h1]; exact line_check ..
    · rw [if_neg h1, if_neg h1]; rfl

/-- **C173.**  Every call runs one program at most; the shell reads the words that the documentation has, for plain texts. -/
theorem call_words (m : Machine σ) (e : Env) (c : Call) (s : σ) : match expected e (m.access s) (m.accessDir s) (m.gnuconfig s).2 c with
    | none => (c.prog m e s).2.1 = []
    | some l => ∃ x rc, (c.prog m e s).2.1 = [(x, rc)] ∧ ((∀ w ∈ l, Plain w) → Runs x (l.flatMap (Act.splitBlank []))) := by
  have := call_line (m := m) (e := e) c s
  cases h : expected e (m.access s) (m.accessDir s) (m.gnuconfig s).2 c with
  | none => rw [h] at this; exact this
  | some l =>
    rw [h] at this
    obtain ⟨rc, hr⟩ := this
    exact ⟨_, rc, hr, run_line⟩

/-- Files are taken away if they are there. -/
def sweep (m : Machine σ) (l : List Str) (s : σ) : σ := l.foldl (fun s f => if m.access s f then m.unlink s f else s) s

theorem pod_run (f : Str) (s : σ) : fixPod m f s = (sweep m [f] s, [], .ok ()) := by
  unfold fixPod ifFile sweep
  by_cases h : m.access s f = true
  · simp only [List.foldl_cons, List.foldl_nil, h, if_true]; rfl
  · simp only [List.foldl_cons, List.foldl_nil, h]; rfl

theorem info_run (s : σ) : fixInfoDir m e s = (sweep m [e.inst ++ "/usr/share/info/dir".toList] s, [], .ok ()) := pod_run _ s

theorem andThen_ok {a b : Prog σ} {s s' : σ} {l : List (Str × Int)} (h : a s = (s', l, .ok ())) :
    andThen a b s = ((b s').1, l ++ (b s').2.1, (b s').2.2) := by
  unfold andThen; rw [h]

theorem pods_run (s : σ) : fixLocalPod m e s = (sweep m (removed e (.perlInstall [])) s, [], .ok ()) := by
  unfold fixLocalPod
  rw [andThen_ok (pod_run _ s), andThen_ok (pod_run _ _), pod_run]
  rfl

/-- **C173.**  After an installation that succeeded the files that every package has are gone, and nothing else is done. -/
theorem install_state (m : Machine σ) (e : Env) (c : Call) (s : σ) (hc : removed e c ≠ []) (hr : (c.prog m e s).2.2 = .ok ()) :
    ∃ x, (c.prog m e s).2.1 = [(x, 0)] ∧ (c.prog m e s).1 = sweep m (removed e c) (m.run s x).1 := by
  have key : ∀ (a b : Prog σ) (l : List Str), (∀ s, b s = (sweep m l s, [], .ok ())) →
      (∀ s, (a s).2.2 = .ok () → ∃ x, (a s).2.1 = [(x, 0)] ∧ (a s).1 = (m.run s x).1) → (andThen a b s).2.2 = .ok () →
      ∃ x, (andThen a b s).2.1 = [(x, 0)] ∧ (andThen a b s).1 = sweep m l (m.run s x).1 := by
    intro a b l hb ha hok
    unfold andThen at hok ⊢
    have h1 := ha s
    rcases h : a s with ⟨s', r, x | ⟨⟩⟩
    · rw [h] at hok; cases hok
    · rw [h] at h1
      obtain ⟨x, h2, h3⟩ := h1 rfl
      dsimp only at h2 h3 ⊢
      rw [hb]
      dsimp only
      exact ⟨x, by rw [h2]; rfl, by rw [h3]⟩
  have hchk : ∀ cmd x s, (check m cmd x s).2.2 = .ok () → ∃ y, (check m cmd x s).2.1 = [(y, 0)] ∧ (check m cmd x s).1 = (m.run s y).1 := by
    intro cmd x s h
    have h1 : (if (m.run s (Act.squeeze cmd)).2 = 0 then (.ok () : Except Err Unit) else .error x) = .ok () := h
    by_cases h0 : (m.run s (Act.squeeze cmd)).2 = 0
    · exact ⟨Act.squeeze cmd, by rw [← h0]; rfl, rfl⟩
    · rw [if_neg h0] at h1; cases h1
  have hif : ∀ p (a b : Prog σ), (∀ s, (a s).2.2 = .ok () → ∃ x, (a s).2.1 = [(x, 0)] ∧ (a s).1 = (m.run s x).1) →
      (∀ s, (b s).2.2 = .ok () → ∃ x, (b s).2.1 = [(x, 0)] ∧ (b s).1 = (m.run s x).1) →
      ∀ s, (ifFile m p a b s).2.2 = .ok () → ∃ x, (ifFile m p a b s).2.1 = [(x, 0)] ∧ (ifFile m p a b s).1 = (m.run s x).1 := by
    intro p a b ha hb s
    unfold ifFile
    by_cases h : m.access s p = true
    · rw [if_pos h]; exact ha s
    · rw [if_neg h]; exact hb s
  have hra : ∀ x s, (raise x s : σ × List (Str × Int) × Except Err Unit).2.2 = .ok () → ∃ y, (raise x s : σ × _ × _).2.1 = [(y, 0)] ∧
      (raise x s : σ × _ × _).1 = (m.run s y).1 := by
    intro x s h; cases h
  cases c with
  | autoInstall p a => exact key _ _ _ info_run (hif _ _ _ (hchk _ _) (hif _ _ _ (hchk _ _) (hif _ _ _ (hchk _ _) (hra _)))) hr
  | autoRawInstall p a => exact key _ _ _ info_run (hif _ _ _ (hchk _ _) (hif _ _ _ (hchk _ _) (hif _ _ _ (hchk _ _) (hra _)))) hr
  | perlInstall p => exact key _ _ _ pods_run (hif _ _ _ (hchk _ _) (hchk _ _)) hr
  | _ => exact absurd rfl hc

/-- `configure` on the machine of the examples. -/
example : ((Call.autoConfigure ['-', '-', 'x']).prog (fine [['c', 'o', 'n', 'f', 'i', 'g', 'u', 'r', 'e']]) exEnv ()).2.1.length = 1 := by
  decide +kernel

example : ((Call.autoRawInstall ['i'] []).prog (fine [['M', 'a', 'k', 'e', 'f', 'i', 'l', 'e']]) exEnv ()).2.2 = .ok () := by decide +kernel

end Pisi.Tools
