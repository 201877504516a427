import Verif.Spec.PackPar
import Verif.Props.PackRun

/-!
# C237: builds at the same time
-/
namespace Pisi.PackRun

/-- The step touches no package files but those of `ps`. -/
def Own (ps : List Pkg) : Step → Prop
  | .open n | .add n _ | .addTar n | .close n => ∃ p ∈ ps, p.name = n
  | _ => True

theorem own_progs (old : Bool) (ps : List Pkg) : ∀ st ∈ progs old ps, Own ps st := by
  intro st h
  obtain ⟨p, hp, h⟩ := List.mem_flatMap.1 h
  have own : ∀ (l : List Member), ∀ st ∈ l.map (Step.add p.name), Own ps st := by
    intro l st h
    obtain ⟨m, _, rfl⟩ := List.mem_map.1 h
    exact ⟨p, hp, rfl⟩
  cases old with
  | true =>
    rw [prog_old] at h
    rcases List.mem_cons.1 h with rfl | h
    · exact ⟨p, hp, rfl⟩
    · rcases List.mem_append.1 h with h | h
      · exact own _ st h
      · rw [List.mem_singleton.1 h]; exact ⟨p, hp, rfl⟩
  | false =>
    rw [prog_new] at h
    rcases List.mem_cons.1 h with rfl | h
    · exact ⟨p, hp, rfl⟩
    · rcases List.mem_append.1 h with h | h
      · exact own _ st h
      · rcases List.mem_cons.1 h with rfl | h
        · trivial
        · rcases List.mem_append.1 h with h | h
          · unfold tars at h
            split at h
            · cases h
            · rcases List.mem_cons.1 h with rfl | h
              · trivial
              · obtain ⟨x, _, rfl⟩ := List.mem_map.1 h; trivial
          · simp only [tails, List.mem_cons, List.not_mem_nil, or_false] at h
            rcases h with rfl | rfl | rfl | rfl | rfl
            · trivial
            · exact ⟨p, hp, rfl⟩
            · exact ⟨p, hp, rfl⟩
            · trivial
            · trivial

/-- A step of others leaves a file that is not theirs. -/
theorem run_frame {ps : List Pkg} {st : Step} {s s' : State} (ho : Own ps st) (h : st.run s = some s') (n : Str)
    (hn : ∀ p ∈ ps, p.name ≠ n) : s'.out n = s.out n := by
  have key : ∀ (m : Str) x, (∃ p ∈ ps, p.name = m) → (s.put m x).out n = s.out n := by
    rintro m x ⟨p, hp, rfl⟩
    exact put_other s x (hn p hp).symm
  cases st with
  | «open» m => cases h; exact key _ _ ho
  | add m x => simp only [Step.run, Option.map_eq_some_iff] at h; obtain ⟨y, _, rfl⟩ := h; exact key _ _ ho
  | setLeft => cases h; rfl
  | tarOpen => cases h; rfl
  | tarAdd x => cases h; rfl
  | tarClose b =>
    simp only [Step.run] at h
    split at h
    · split at h
      · cases h; rfl
      · cases h
    · cases h
  | addTar m =>
    simp only [Step.run] at h
    split at h
    · simp only [Option.map_eq_some_iff] at h; obtain ⟨y, _, rfl⟩ := h; exact key _ _ ho
    · cases h
  | close m => simp only [Step.run, Option.map_eq_some_iff] at h; obtain ⟨y, _, rfl⟩ := h; exact key _ _ ho
  | unlink =>
    simp only [Step.run] at h
    split at h
    · cases h; rfl
    · cases h
  | clearLeft => cases h; rfl

theorem agree_put {ps : List Pkg} {s t : State} (h : Agree ps s t) (n : Str) (x : List Member × Bool) :
    Agree ps (s.put n x) (t.put n x) := by
  refine ⟨fun p hp => ?_, h.2⟩
  by_cases e : p.name = n
  · subst e; rw [put_get, put_get]
  · rw [put_other _ _ e, put_other _ _ e, h.1 p hp]

/-- A step does the same to what is the same. -/
theorem run_agree {ps : List Pkg} {st : Step} {s t s' : State} (ho : Own ps st) (ha : Agree ps s t) (h : st.run s = some s') :
    ∃ t', st.run t = some t' ∧ Agree ps s' t' := by
  have get : ∀ m, (∃ p ∈ ps, p.name = m) → s.out m = t.out m := by
    rintro m ⟨p, hp, rfl⟩
    exact ha.1 p hp
  obtain ⟨a1, a2, a3, a4⟩ := ha
  cases st with
  | «open» m => cases h; exact ⟨_, rfl, agree_put ⟨a1, a2, a3, a4⟩ _ _⟩
  | add m x =>
    simp only [Step.run, Option.map_eq_some_iff] at h
    obtain ⟨y, e, rfl⟩ := h
    exact ⟨_, by simp [Step.run, ← get m ho, e], agree_put ⟨a1, a2, a3, a4⟩ _ _⟩
  | setLeft => cases h; exact ⟨_, rfl, a1, a2, a3, rfl⟩
  | tarOpen => cases h; exact ⟨_, rfl, a1, rfl, a3, a4⟩
  | tarAdd x => cases h; exact ⟨_, rfl, a1, by simp [a2], a3, a4⟩
  | tarClose b =>
    simp only [Step.run] at h ⊢
    rw [← a3]
    by_cases hb : b = true
    · rw [if_pos hb] at h ⊢
      split at h
      · cases h; exact ⟨_, rfl, a1, rfl, a2, a4⟩
      · cases h
    · rw [if_neg hb] at h; cases h
  | addTar m =>
    simp only [Step.run] at h ⊢
    rw [← a3]
    split at h
    · next hz =>
      simp only [Option.map_eq_some_iff] at h
      obtain ⟨y, e, rfl⟩ := h
      exact ⟨_, by simp [← get m ho, e], agree_put ⟨a1, a2, a3, a4⟩ _ _⟩
    · cases h
  | close m =>
    simp only [Step.run, Option.map_eq_some_iff] at h
    obtain ⟨y, e, rfl⟩ := h
    exact ⟨_, by simp [Step.run, ← get m ho, e], agree_put ⟨a1, a2, a3, a4⟩ _ _⟩
  | unlink =>
    simp only [Step.run] at h ⊢
    rw [← a3]
    split at h
    · cases h; exact ⟨_, rfl, a1, a2, rfl, a4⟩
    · cases h
  | clearLeft => cases h; exact ⟨_, rfl, a1, a2, a3, rfl⟩

theorem upd_same {α β : Type} [DecidableEq α] (f : α → β) (a : α) (b : β) : upd f a b a = b := by simp [upd]

theorem upd_other {α β : Type} [DecidableEq α] (f : α → β) {a x : α} (b : β) (h : x ≠ a) : upd f a b x = f x := by simp [upd, h]

theorem view_set (d : Nat → Str) (g : Sys) (q : Nat) (s : State) (p : Phase) : (g.set d q s p).view d q = s := by
  simp [Sys.view, Sys.set, upd_same]

theorem ph_set (d : Nat → Str) (g : Sys) (q : Nat) (s : State) (p : Phase) : (g.set d q s p).ph q = p := by
  simp [Sys.set, upd_same]

/-- An event: of which process, what it made of what it found, and where it is then. -/
theorem ev_cases {d : Nat → Str} {g g' : Sys} (h : Ev d g g') : ∃ q s p, g' = g.set d q s p ∧
    ((∃ st r, g.ph q = .run (st :: r) ∧ st.run (g.view d q) = some s ∧ p = .run r) ∨
     (∃ r, g.ph q = .run r ∧ s = g.view d q ∧ p = .stopped) ∨
     (∃ b r x, g.ph q = .run (.tarClose b :: r) ∧ g.lz (d q) = none ∧ s = { g.view d q with lz := x } ∧ p = .stopped) ∨
     (g.ph q = .stopped ∧ s = finalize (g.view d q) ∧ p = .over false) ∨
     (g.ph q = .run [] ∧ s = finalize (g.view d q) ∧ p = .over true)) := by
  cases h with
  | step h1 h2 => exact ⟨_, _, _, rfl, .inl ⟨_, _, h1, h2, rfl⟩⟩
  | stop h1 => exact ⟨_, _, _, rfl, .inr (.inl ⟨_, h1, rfl, rfl⟩)⟩
  | lzma x h1 h2 => exact ⟨_, _, _, rfl, .inr (.inr (.inl ⟨_, _, x, h1, h2, rfl, rfl⟩))⟩
  | fail h1 => exact ⟨_, _, _, rfl, .inr (.inr (.inr (.inl ⟨h1, rfl, rfl⟩)))⟩
  | done h1 => exact ⟨_, _, _, rfl, .inr (.inr (.inr (.inr ⟨h1, rfl, rfl⟩)))⟩

/-- Every process writes only the files of its own packages. -/
def Tidy (ps : Nat → List Pkg) (g : Sys) : Prop := ∀ q r, g.ph q = .run r → ∀ st ∈ r, Own (ps q) st

theorem tidy_evs {old : Nat → Bool} {ps : Nat → List Pkg} {d : Nat → Str} {g g' : Sys} (hs : Start old ps g) (h : Evs d g g') :
    Tidy ps g' := by
  induction h with
  | nil =>
    intro q r hr
    rw [(hs q).1] at hr
    cases hr
    exact own_progs _ _
  | snoc _ he ih =>
    obtain ⟨q, s, p, rfl, hc⟩ := ev_cases he
    intro q' r hr
    by_cases e : q' = q
    · subst e
      rw [ph_set] at hr
      rcases hc with ⟨st, r', h1, _, rfl⟩ | ⟨_, _, _, rfl⟩ | ⟨_, _, _, _, _, _, rfl⟩ | ⟨_, _, rfl⟩ | ⟨_, _, rfl⟩
      · cases hr
        exact fun x hx => ih q' _ h1 x (by simp [hx])
      all_goals cases hr
    · simp only [Sys.set, upd_other _ _ e] at hr
      exact ih q' r hr

/-- What an event makes of the package files. -/
theorem ev_out {ps : Nat → List Pkg} {d : Nat → Str} {g : Sys} {q : Nat} {s : State} {p : Phase} (ht : Tidy ps g)
    (hc : (∃ st r, g.ph q = .run (st :: r) ∧ st.run (g.view d q) = some s ∧ p = .run r) ∨
     (∃ r, g.ph q = .run r ∧ s = g.view d q ∧ p = .stopped) ∨
     (∃ b r x, g.ph q = .run (.tarClose b :: r) ∧ g.lz (d q) = none ∧ s = { g.view d q with lz := x } ∧ p = .stopped) ∨
     (g.ph q = .stopped ∧ s = finalize (g.view d q) ∧ p = .over false) ∨
     (g.ph q = .run [] ∧ s = finalize (g.view d q) ∧ p = .over true)) (n : Str) (hn : ∀ p ∈ ps q, p.name ≠ n) :
    s.out n = g.out n := by
  rcases hc with ⟨st, r, h1, h2, _⟩ | ⟨_, _, rfl, _⟩ | ⟨_, _, _, _, _, rfl, _⟩ | ⟨_, rfl, _⟩ | ⟨_, rfl, _⟩
  · exact run_frame (ht q _ h1 st (by simp)) h2 n hn
  all_goals rfl

theorem stops_of_exec (a r : List Step) (s s' : State) (h : exec a s = (s', true)) (s2 : State) (h2 : Stops r s' s2) :
    Stops (a ++ r) s s2 := by
  induction a generalizing s with
  | nil => cases h; exact h2
  | cons st a ih =>
    cases hr : st.run s with
    | none => rw [exec_cons_none hr] at h; cases h
    | some s1 => rw [exec_cons_some hr] at h; exact .next hr (ih s1 h)

theorem agree_finalize {ps : List Pkg} {s t : State} (h : Agree ps s t) : Agree ps (finalize s) (finalize t) := by
  obtain ⟨a1, a2, a3, a4⟩ := h
  exact ⟨a1, a2, by simp [finalize, a3, a4], rfl⟩

/-- C237: a build that has a directory and package files of its own is, whatever other builds do at the same time and wherever
they are stopped, at every moment where it could be if it were alone. -/
theorem par_alone_partial {old : Nat → Bool} {ps : Nat → List Pkg} {d : Nat → Str} {g g' : Sys} (hs : Start old ps g)
    (h : Evs d g g') (q : Nat) (ha : Apart d ps q) :
    ∃ s', Agree (ps q) (g'.view d q) s' ∧ Alone (old q) (ps q) (g.view d q) s' (g'.ph q) := by
  have hl : { g.view d q with left := false } = g.view d q := by simp [Sys.view, (hs q).2]
  induction h with
  | nil =>
    refine ⟨g.view d q, ⟨fun _ _ => rfl, rfl, rfl, rfl⟩, ?_⟩
    rw [(hs q).1]
    exact ⟨[], rfl, rfl⟩
  | @snoc g1 g2 hevs he ih =>
    have ht := tidy_evs hs hevs
    obtain ⟨q', s, p, rfl, hc⟩ := ev_cases he
    obtain ⟨s', hag, hal⟩ := ih
    by_cases e : q = q'
    · subst e
      rw [view_set, ph_set]
      rcases hc with ⟨st, r, h1, h2, rfl⟩ | ⟨r, h1, rfl, rfl⟩ | ⟨b, r, x, h1, h2, rfl, rfl⟩ | ⟨h1, rfl, rfl⟩ | ⟨h1, rfl, rfl⟩
      · rw [h1] at hal
        obtain ⟨a, e1, e2⟩ := hal
        obtain ⟨t', k1, k2⟩ := run_agree (ht q _ h1 st (by simp)) hag h2
        refine ⟨t', k2, a ++ [st], by rw [e1]; simp, ?_⟩
        rw [exec_append, e2, if_pos rfl]
        exact exec_cons_some k1
      · rw [h1] at hal
        obtain ⟨a, e1, e2⟩ := hal
        refine ⟨s', hag, ?_⟩
        simp only [Alone]
        rw [e1]
        exact stops_of_exec _ _ _ _ e2 _ (.here _ _)
      · rw [h1] at hal
        obtain ⟨a, e1, e2⟩ := hal
        refine ⟨{ s' with lz := x }, ⟨hag.1, hag.2.1, rfl, hag.2.2.2⟩, ?_⟩
        simp only [Alone]
        rw [e1]
        exact stops_of_exec _ _ _ _ e2 _ (.lzma _ _ _ _ (by rw [← hag.2.2.1]; exact h2))
      · rw [h1] at hal
        exact ⟨finalize s', agree_finalize hag, s', by rw [hl]; exact hal, rfl⟩
      · rw [h1] at hal
        obtain ⟨a, e1, e2⟩ := hal
        refine ⟨finalize s', agree_finalize hag, ?_⟩
        simp only [Alone, attempt]
        rw [hl, e1, List.append_nil, e2]
    · obtain ⟨hd, hn⟩ := ha q' (fun h => e h.symm)
      refine ⟨s', ⟨fun r hr => ?_, ?_, ?_, ?_⟩, ?_⟩
      · rw [← hag.1 r hr]
        exact ev_out ht hc r.name (fun r' hr' => (hn r hr r' hr').symm)
      · rw [← hag.2.1]; exact upd_other _ _ (fun h => hd h.symm)
      · rw [← hag.2.2.1]; exact upd_other _ _ (fun h => hd h.symm)
      · rw [← hag.2.2.2]; exact upd_other _ _ e
      · simp only [Sys.set, upd_other _ _ e]
        exact hal

/-- C237: no package file is touched that is not one of those to be written. -/
theorem par_others {old : Nat → Bool} {ps : Nat → List Pkg} {d : Nat → Str} {g g' : Sys} (hs : Start old ps g)
    (h : Evs d g g') (n : Str) (hn : ∀ q, ∀ p ∈ ps q, p.name ≠ n) : g'.out n = g.out n := by
  induction h with
  | nil => rfl
  | snoc hevs he ih =>
    obtain ⟨q', s, p, rfl, hc⟩ := ev_cases he
    rw [← ih]
    exact ev_out (tidy_evs hs hevs) hc n (hn q')

theorem exec_built (old : Bool) (ps : List Pkg) (s : State) (hd : Distinct ps) (h : (exec (progs old ps) s).2 = true) :
    Built old ps s (exec (progs old ps) s).1 := by
  induction ps generalizing s with
  | nil => exact ⟨fun p hp => (by cases hp), fun _ _ => rfl⟩
  | cons p ps ih =>
    obtain ⟨hd1, hd2⟩ := List.pairwise_cons.1 hd
    rw [progs_cons, exec_append] at h ⊢
    by_cases hok : (exec (prog old p) s).2 = true
    · rw [if_pos hok] at h ⊢
      obtain ⟨h1, _, _⟩ := exec_one old p s hok
      obtain ⟨k2, k3⟩ := ih _ hd2 h
      refine ⟨fun q hq => ?_, fun n hn => ?_⟩
      · rcases List.mem_cons.1 hq with rfl | hq
        · rw [k3 _ (fun r hr => (hd1 r hr).symm), h1, put_get]
        · exact k2 q hq
      · rw [k3 n (fun r hr => hn r (by simp [hr])), h1, put_other _ _ (hn p (by simp)).symm]
    · rw [if_neg hok] at h
      exact absurd h hok

/-- C237: when such a build has ended well its packages are all whole. -/
theorem par_built {old : Nat → Bool} {ps : Nat → List Pkg} {d : Nat → Str} {g g' : Sys} (hs : Start old ps g)
    (h : Evs d g g') (q : Nat) (ha : Apart d ps q) (hd : Distinct (ps q)) (ho : g'.ph q = .over true) :
    ∀ p ∈ ps q, g'.out p.name = some (whole (old q) p, true) := by
  obtain ⟨s', hag, hal⟩ := par_alone_partial hs h q ha
  rw [ho] at hal
  have e1 : (attempt (old q) (ps q) (g.view d q)).2 = true := by rw [hal]
  have := exec_built (old q) (ps q) { g.view d q with left := false } hd e1
  intro p hp
  have k := hag.1 p hp
  have e2 : s' = finalize (exec (progs (old q) (ps q)) { g.view d q with left := false }).1 := (congrArg Prod.fst hal).symm
  rw [e2] at k
  exact k.trans (this.1 p hp)

/-- C237: such a build, if its packages have files and no compressed archive was in its directory, can always take its next
step. -/
theorem par_goes_on {old : Nat → Bool} {ps : Nat → List Pkg} {d : Nat → Str} {g g' : Sys} (hs : Start old ps g)
    (h : Evs d g g') (q : Nat) (ha : Apart d ps q) (hf : old q = false → ∀ p ∈ ps q, p.files ≠ []) (hd : Distinct (ps q))
    (hz : g.lz (d q) = none) (st : Step) (r : List Step) (hr : g'.ph q = .run (st :: r)) :
    ∃ g'', Ev d g' g'' ∧ g''.ph q = .run r := by
  obtain ⟨s', hag, hal⟩ := par_alone_partial hs h q ha
  rw [hr] at hal
  obtain ⟨a, e1, e2⟩ := hal
  have hok := (exec_progs (old q) (ps q) (g.view d q) hd hf (fun _ => hz)).1
  rw [e1, exec_append, e2, if_pos rfl] at hok
  cases hst : st.run s' with
  | none => rw [exec_cons_none hst] at hok; cases hok
  | some t =>
    have own := tidy_evs hs h q _ hr st (by simp)
    obtain ⟨t', k, _⟩ := run_agree own (s := s') (t := g'.view d q) ⟨fun p hp => (hag.1 p hp).symm, hag.2.1.symm, hag.2.2.1.symm, hag.2.2.2.symm⟩ hst
    exact ⟨_, .step hr k, ph_set ..⟩

/-! ## What one would want -/

/-- The same without directories of their own: it is enough that the packages are different. -/
def ParFull : Prop := ∀ (old : Nat → Bool) (ps : Nat → List Pkg) (d : Nat → Str) (g g' : Sys), Start old ps g → Evs d g g' →
  (∀ q q', q ≠ q' → ∀ p ∈ ps q, ∀ p' ∈ ps q', p.name ≠ p'.name) → ∀ q, Distinct (ps q) → g'.ph q = .over true →
  ∀ p ∈ ps q, g'.out p.name = some (whole (old q) p, true)

/-- The next step of a process, or its end. -/
def play1 (d : Nat → Str) (g : Sys) (q : Nat) : Option Sys := match g.ph q with
  | .run (st :: r) => (st.run (g.view d q)).map fun s => g.set d q s (.run r)
  | .run [] => some (g.set d q (finalize (g.view d q)) (.over true))
  | _ => none

/-- Several of them in turn. -/
def play (d : Nat → Str) (g : Sys) : List Nat → Option Sys
  | [] => some g
  | q :: l => (play1 d g q).bind fun g' => play d g' l

theorem play_evs (d : Nat → Str) (l : List Nat) (g0 g g' : Sys) (h0 : Evs d g0 g) (h : play d g l = some g') : Evs d g0 g' := by
  induction l generalizing g with
  | nil => cases h; exact h0
  | cons q l ih =>
    simp only [play, Option.bind_eq_some_iff] at h
    obtain ⟨g1, h1, h2⟩ := h
    refine ih g1 (.snoc h0 ?_) h2
    unfold play1 at h1
    split at h1
    · next e =>
      obtain ⟨s, k1, rfl⟩ := Option.map_eq_some_iff.1 h1
      exact .step e k1
    · next e => cases h1; exact .done e
    · cases h1

/-- A third package. -/
def pkgC : Pkg := ⟨['c'], [], [['i']]⟩

/-- Two builds of one package each. -/
def twoPs : Nat → List Pkg
  | 0 => [pkgB]
  | 1 => [pkgC]
  | _ => []

/-- Before them. -/
def twoG : Sys := ⟨fun _ => none, fun _ => none, fun _ => none, fun _ => false, fun q => .run (progs false (twoPs q))⟩

theorem twoStart : Start (fun _ => false) twoPs twoG := fun _ => ⟨rfl, rfl⟩

theorem twoApart : ∀ q q', q ≠ q' → ∀ p ∈ twoPs q, ∀ p' ∈ twoPs q', p.name ≠ p'.name := by
  intro q q' hq p hp p' hp'
  match q, q' with
  | 0, 0 => exact absurd rfl hq
  | 1, 1 => exact absurd rfl hq
  | 0, 1 => simp only [twoPs, List.mem_singleton] at hp hp'; subst hp; subst hp'; decide
  | 1, 0 => simp only [twoPs, List.mem_singleton] at hp hp'; subst hp; subst hp'; decide
  | n + 2, _ => cases hp
  | 0, n + 2 => cases hp'
  | 1, n + 2 => cases hp'

/-- The second begins its archive after the first has written to it. -/
def mixed : List Nat := [0, 0, 0, 0, 0, 0, 1, 1, 1, 1, 1, 0, 0, 0, 0, 0, 0]

/-- What is seen of a package and of the process that builds it. -/
def seen (n : Str) (q : Nat) (g : Sys) : Option (List Member × Bool) × Bool :=
  (g.out n, match g.ph q with | .over b => b | _ => false)

/-- C237, refuted: of two builds in the same directory one ends well with a package that lacks its files. -/
theorem par_refuted : ¬ ParFull := by
  intro h
  have e : (play (fun _ => []) twoG mixed).map (seen ['b'] 0) = some (some ([.metadata, .filesXml, .payload []], true), true) := by
    decide
  obtain ⟨g', h1, h2⟩ := Option.map_eq_some_iff.1 e
  simp only [seen, Prod.mk.injEq] at h2
  have hp : g'.ph 0 = .over true := by
    have := h2.2
    split at this
    · next k => rw [k, this]
    · cases this
  have := h _ twoPs (fun _ => []) twoG g' twoStart (play_evs _ _ _ _ _ (.nil _) h1) twoApart 0 (by simp [Distinct, twoPs]) hp pkgB
    (by simp [twoPs])
  rw [show g'.out pkgB.name = g'.out ['b'] from rfl, h2.1] at this
  revert this
  decide

/-- With directories of their own the same order of the steps gives the whole package. -/
example : (play (fun q => List.replicate q 'x') twoG mixed).map (seen ['b'] 0) =
    some (some ([.metadata, .filesXml, .payload [['h']]], true), true) := by decide

theorem twoOwn (q : Nat) : Apart (fun q => List.replicate q 'x') twoPs q := by
  intro q' hq
  refine ⟨fun e => hq ?_, twoApart q q' hq.symm⟩
  have := congrArg List.length e
  simpa using this

/-- They meet the hypotheses of `par_built`. -/
example : ∃ g', Evs (fun q => List.replicate q 'x') twoG g' ∧ g'.out ['b'] = some (whole false pkgB, true) := by
  have e : (play (fun q => List.replicate q 'x') twoG mixed).map (fun g => (seen ['b'] 0 g).2) = some true := by decide
  obtain ⟨g', h1, h2⟩ := Option.map_eq_some_iff.1 e
  have hp : g'.ph 0 = .over true := by
    simp only [seen] at h2
    split at h2
    · next k => rw [k, h2]
    · cases h2
  have hev := play_evs _ _ _ _ _ (.nil _) h1
  exact ⟨g', hev, par_built twoStart hev 0 (twoOwn 0) (by simp [Distinct, twoPs]) hp pkgB (by simp [twoPs])⟩

end Pisi.PackRun
