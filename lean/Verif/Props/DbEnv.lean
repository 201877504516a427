import Verif.Lemmas.DbEnvRun
import Verif.Lemmas.ListAux

/-!
# C101-C105: several processes at the databases
-/
namespace Pisi.DbEnv

variable {grp : Str → Grp} {dbs : List Str}

/-- The invariant in any execution. -/
theorem reach (hd : dbs.Nodup) (v : Grp → Option (Option Nat)) (f : Str → Option Nat) {es : List Ev} (hc : .clean ∉ es) :
    ∃ L lab, Inv (Forked es) (exec grp dbs (boot v f) es) L lab :=
  (Inv.init v f).exec hd es (fun _ he h => hc (h ▸ he)) (fun p _ h => ⟨p, h⟩)

theorem writing_env {K : Pid → Prop} {s : Sys} {L : Pid → Loc} {lab : Nat → Lk} (h : Inv K s L lab) {p : Pid} (hw : Writing s p) :
    (L p).env = true := by
  cases he : (L p).env with
  | true => rfl
  | false =>
    obtain ⟨h1, h2, _⟩ := (h.wf p).none he
    rcases hw with hw | hw
    · rw [h.envOpen p, h1] at hw; cases hw
    · rw [h.dbOpen p] at hw; exact absurd h2 hw

/-! ## C101 -/

/-- At most one process may change the databases, whatever the processes do and when, as long as nobody runs `pisi clean` in
the database directory. -/
theorem one_writer_partial (hd : dbs.Nodup) (v : Grp → Option (Option Nat)) (f : Str → Option Nat) {es : List Ev}
    (hc : .clean ∉ es) : OneWriter (exec grp dbs (boot v f) es) := by
  obtain ⟨L, lab, h⟩ := reach (grp := grp) hd v f hc
  exact fun p q hp hq => h.one p q (writing_env h hp) (writing_env h hq)

/-- Databases are changed only by a process that has them to itself. -/
theorem changes_alone (hd : dbs.Nodup) (v : Grp → Option (Option Nat)) (f : Str → Option Nat) {es : List Ev}
    (hc : .clean ∉ es) (e : Ev)
    (hch : (step grp dbs (exec grp dbs (boot v f) es) e).fmt ≠ (exec grp dbs (boot v f) es).fmt) :
    ∃ p, e = .run p ∧ Writing (exec grp dbs (boot v f) es) p ∧ ∀ q, Writing (exec grp dbs (boot v f) es) q → q = p := by
  obtain ⟨L, lab, h⟩ := reach (grp := grp) hd v f hc
  generalize exec grp dbs (boot v f) es = s at h hch
  cases e with
  | start p k ver =>
    refine absurd ?_ hch
    simp only [step]
    by_cases hp : (s.procs p).prog = []
    · rw [if_pos hp]; rfl
    · rw [if_neg hp]
  | exit p => exact absurd rfl hch
  | clean => exact absurd rfl hch
  | fork p c =>
    refine absurd ?_ hch
    simp only [step]
    by_cases hp : (s.procs p).alive = true ∧ (s.procs c).alive = false
    · rw [if_pos hp]; rfl
    · rw [if_neg hp]
  | run p =>
    have main : Writing s p → ∃ q, Ev.run p = .run q ∧ Writing s q ∧ ∀ r, Writing s r → r = q := fun hw =>
      ⟨p, rfl, hw, fun r hr => h.one r p (writing_env h hr) (writing_env h hw)⟩
    cases hp : (s.procs p).prog with
    | nil => simp only [step, hp] at hch; exact absurd rfl hch
    | cons a rest =>
      have hok := h.ok p
      rw [hp] at hok
      have hpre := hok.1
      simp only [step, hp] at hch
      cases a with
      | openDb d ro =>
        cases ro with
        | true =>
          refine absurd ?_ hch
          cases hf : s.fmt d <;> simp [act, hf, Sys.die, Sys.setProc]
        | false => exact main (Or.inl ((h.envOpen p).trans hpre))
      | destroy d => exact main (Or.inl ((h.envOpen p).trans hpre))
      | probe => exact absurd rfl hch
      | check g w u =>
        refine absurd ?_ hch
        cases hv : checkVersion (s.verFile g) ((s.procs p).ver g) w u with
        | none => simp [act, hv, Sys.die]
        | some b => cases b <;> simp [act, hv, Sys.setProc]
      | trunc g => exact absurd rfl hch
      | writeVer g => exact absurd rfl hch
      | openLk l =>
        refine absurd ?_ hch
        cases hn : s.names l <;> simp [act, hn, Sys.setProc]
      | flock l =>
        refine absurd ?_ hch
        cases hn : (s.procs p).fds l with
        | none => simp [act, hn, Sys.die]
        | some i =>
          by_cases h0 : s.lockedBy i = []
          · simp [act, hn, h0, Sys.setProc]
          · simp [act, hn, h0, Sys.die]
      | closeLk l =>
        refine absurd ?_ hch
        cases hn : (s.procs p).fds l <;> simp [act, hn, Sys.die, Sys.setProc]
      | unlinkLk l =>
        refine absurd ?_ hch
        cases hn : s.names l <;> simp [act, hn, Sys.die, Sys.setProc]
      | openEnv => exact absurd rfl hch
      | closeEnv => exact absurd rfl hch
      | closeDb d => exact absurd rfl hch
      | work => exact absurd rfl hch

/-- A process that has got hold of the databases never fails because of a lock. -/
theorem writer_goes_on (hd : dbs.Nodup) (v : Grp → Option (Option Nat)) (f : Str → Option Nat) {es : List Ev}
    (hc : .clean ∉ es) {p : Pid} (hw : Writing (exec grp dbs (boot v f) es) p) :
    ((exec grp dbs (boot v f) (es ++ [.run p])).procs p).alive = true := by
  obtain ⟨L, lab, h⟩ := reach (grp := grp) hd v f hc
  have e : exec grp dbs (boot v f) (es ++ [.run p]) = step grp dbs (exec grp dbs (boot v f) es) (.run p) := by
    simp [exec, List.foldl_append]
  rw [e]
  generalize exec grp dbs (boot v f) es = s at h hw
  have he := writing_env h hw
  cases hp : (s.procs p).prog with
  | nil =>
    obtain ⟨i, _, _, hi⟩ := h.env p he
    simp only [step, hp]
    exact h.lives p i hi
  | cons a rest =>
    simp only [step, hp]
    obtain ⟨_, _, _, h'⟩ := h.act_run (grp := grp) hp
    exact (h' he).2.2

/-- What is wanted: at most one process may change the databases. -/
def OneWriterFull : Prop := ∀ (grp : Str → Grp) (dbs : List Str) (v : Grp → Option (Option Nat)) (f : Str → Option Nat) (es : List Ev),
  dbs.Nodup → OneWriter (exec grp dbs (boot v f) es)

/-- Versions 1. -/
def v1 : Grp → Nat := fun _ => 1

/-- Version files of version 1. -/
def vf1 : Grp → Option (Option Nat) := fun _ => some (some 1)

/-- After `pisi clean` in the database directory a second process gets in. -/
theorem one_writer_refuted : ¬ OneWriterFull := by
  intro h
  have := h (fun _ => .main) [] vf1 (fun _ => none)
    (.start 1 .write v1 :: runs 1 5 ++ (.clean :: .start 2 .write v1 :: runs 2 5)) (by simp) 1 2 (Or.inl (by decide)) (Or.inl (by decide))
  exact absurd this (by decide)

/-- Two processes at once: the second one is refused, the first one goes on. -/
example : (fun s : Sys => (s.procs 1).dbOpen = [['a']] ∧ (s.procs 2).alive = false)
    (exec (fun _ => .main) [['a']] (boot vf1 fun _ => none)
      ([Ev.start 1 .write v1, Ev.start 2 .write v1] ++ runs 1 7 ++ runs 2 4 ++ runs 1 1)) := by decide

/-! ## C102 -/

/-- All locks are free when nobody is busy and all programs started from PiSi have ended. -/
theorem quiet_reach (hd : dbs.Nodup) (v : Grp → Option (Option Nat)) (f : Str → Option Nat) {es : List Ev}
    (hc : .clean ∉ es) (hi : Idle (exec grp dbs (boot v f) es))
    (hk : ∀ c, Forked es c → ((exec grp dbs (boot v f) es).procs c).alive = false) : Quiet (exec grp dbs (boot v f) es) := by
  obtain ⟨L, lab, h⟩ := reach (grp := grp) hd v f hc
  generalize exec grp dbs (boot v f) es = s at h hi hk
  refine quiet_of (h.noKids fun j => List.eq_nil_iff_forall_not_mem.mpr fun q hq => ?_) hi
  rcases h.kids q j hq with h1 | h1
  · have := h.ok q
    rw [hi q] at this
    rw [show L q = {} from this] at h1
    cases h1
  · have := h.lives q j hq
    rw [hk q h1] at this
    cases this

/-- Starting a command. -/
theorem start_eq {s : Sys} (hi : Idle s) (p : Pid) (k : Kind) (ver : Grp → Nat) : step grp dbs s (.start p k ver) =
    s.setProc p { s.procs p with alive := true, prog := k.prog dbs, ver := ver, files := k.files } := by
  simp only [step, if_pos (hi p)]

theorem Quiet.start (hd : dbs.Nodup) {s : Sys} (h : Quiet s) (p : Pid) (k : Kind) (ver : Grp → Nat) :
    ∃ L lab, let t := step grp dbs s (.start p k ver)
      Inv (fun _ => False) t L lab ∧ (∀ j, t.lockedBy j = []) ∧ (∀ q, q ≠ p → (t.procs q).prog = []) ∧
      (t.procs p).prog = k.prog dbs ∧ (t.procs p).ver = ver ∧ (t.procs p).files = k.files ∧ t.verFile = s.verFile ∧
      t.fmt = s.fmt ∧ t.log = s.log := by
  obtain ⟨L, lab, h'⟩ := h.inv
  obtain ⟨L1, lab1, h1⟩ := h'.step (grp := grp) hd (e := .start p k ver) (by simp) (by simp)
  refine ⟨L1, lab1, h1, ?_, ?_, ?_, ?_, ?_, ?_, ?_, ?_⟩ <;> rw [start_eq h.idle]
  · exact h.free
  · intro q hq; simp only [Sys.setProc]; rw [upd_ne _ _ hq]; exact h.idle q
  · simp [Sys.setProc]
  · simp [Sys.setProc]
  · simp [Sys.setProc]
  · rfl
  · rfl
  · rfl

theorem check_current {f : Option (Option Nat)} {v : Nat} (h : f = none ∨ f = some (some v)) : ∃ b, checkVersion f v true false = some b := by
  rcases h with h | h <;> subst h
  · exact ⟨true, rfl⟩
  · exact ⟨false, by simp [checkVersion]⟩

/-- Processes that have ended, finished or been killed at any time block nobody: a new command reaches its work with all
databases open for writing, and then its end.  (Programs started from PiSi must have ended too.) -/
theorem ended_block_nobody_partial (hd : dbs.Nodup) (v : Grp → Option (Option Nat)) (f : Str → Option Nat) {es : List Ev}
    (hc : .clean ∉ es) (hi : Idle (exec grp dbs (boot v f) es))
    (hk : ∀ c, Forked es c → ((exec grp dbs (boot v f) es).procs c).alive = false) (p : Pid) (ver : Grp → Nat)
    (hv : Current (exec grp dbs (boot v f) es).verFile ver) :
    Works grp dbs (step grp dbs (exec grp dbs (boot v f) es) (.start p .write ver)) p := by
  have hq := quiet_reach hd v f hc hi hk
  generalize exec grp dbs (boot v f) es = s at hq hv
  obtain ⟨L, lab, h, h1, h2, h3, h4, h5, h6, h7, h8⟩ := hq.start (grp := grp) hd p .write ver
  obtain ⟨b1, hb1⟩ := check_current (hv .main)
  obtain ⟨b2, hb2⟩ := check_current (hv .files)
  exact (write_session (grp := grp) hd h h1 h2 h3 (b1 := b1) (b2 := b2) (by rw [h4, h6]; exact hb1) (by rw [h4, h6]; exact hb2)).1

/-- What is wanted: when nobody is busy with PiSi, a new command can work. -/
def EndedBlockNobodyFull : Prop := ∀ (grp : Str → Grp) (dbs : List Str) (v : Grp → Option (Option Nat)) (f : Str → Option Nat)
  (es : List Ev) (p : Pid) (ver : Grp → Nat), dbs.Nodup → .clean ∉ es → Idle (exec grp dbs (boot v f) es) →
  Current (exec grp dbs (boot v f) es).verFile ver → Works grp dbs (step grp dbs (exec grp dbs (boot v f) es) (.start p .write ver)) p

/-- A command that starts a program which outlives it. -/
def outlived : List Ev := .start 1 .write v1 :: (runs 1 5 ++ (.fork 1 2 :: runs 1 3))

/-- A program started from PiSi, such as a daemon, inherits the lock and keeps it. -/
theorem ended_block_nobody_refuted : ¬ EndedBlockNobodyFull := by
  intro h
  have hi : Idle (exec (fun _ => .main) [] (boot vf1 fun _ => none) outlived) := by
    intro p
    by_cases h1 : p = 1
    · subst h1; decide
    · by_cases h2 : p = 2
      · subst h2; decide
      · have : (exec (fun _ => .main) [] (boot vf1 fun _ => none) outlived).procs p = {} := by
          simp [exec, outlived, runs, List.replicate, step, Sys.setProc, act, boot, upd, h1, h2, Kind.prog, writeProg, openDbs, closeDbs, checkVersion, vf1, v1]
        rw [this]
  obtain ⟨⟨n, hn, _⟩, _⟩ := h (fun _ => .main) [] vf1 (fun _ => none) outlived 3 v1 (by simp) (by simp [outlived, runs, List.replicate]) hi
    (fun g => Or.inr (by cases g <;> decide))
  have hdead : (exec (fun _ => .main) [] (step (fun _ => .main) [] (exec (fun _ => .main) [] (boot vf1 fun _ => none) outlived)
      (.start 3 .write v1)) (runs 3 4)).procs 3 = {} := rfl
  by_cases h4 : n ≤ 4
  · have : n = 0 ∨ n = 1 ∨ n = 2 ∨ n = 3 ∨ n = 4 := by omega
    rcases this with rfl | rfl | rfl | rfl | rfl <;> exact absurd hn (by decide)
  · obtain ⟨k, rfl⟩ := Nat.exists_eq_add_of_le (Nat.le_of_not_le h4)
    rw [exec_runs_add, exec_done (by rw [hdead])] at hn
    rw [hdead] at hn
    cases hn

/-- A process killed with all databases open does not block the next one. -/
example : ((exec (fun _ => .main) [['a']] (boot vf1 fun _ => none)
    (Ev.start 1 .write v1 :: (runs 1 8 ++ (Ev.exit 1 :: Ev.start 2 .write v1 :: runs 2 8)))).procs 2).dbOpen = [['a']] := by decide

/-! ## C103 -/

/-- Programs that leave the version files alone; `m` and `f` tell which of them were found right. -/
def Static : Bool → Bool → List Act → Prop
  | _, _, [] => True
  | _, f, .check .main _ u :: r => u = false ∧ Static true f r
  | m, _, .check .files _ u :: r => u = false ∧ Static m true r
  | m, f, .openDb _ _ :: r => m = true ∧ f = true ∧ Static m f r
  | _, _, .trunc _ :: _ => False
  | _, _, .writeVer _ :: _ => False
  | _, _, .destroy _ :: _ => False
  | _, _, .probe :: _ => False
  | m, f, .openLk _ :: r => Static m f r
  | m, f, .flock _ :: r => Static m f r
  | m, f, .closeLk _ :: r => Static m f r
  | m, f, .unlinkLk _ :: r => Static m f r
  | m, f, .openEnv :: r => Static m f r
  | m, f, .closeEnv :: r => Static m f r
  | m, f, .closeDb _ :: r => Static m f r
  | m, f, .work :: r => Static m f r

theorem static_read : Static false false (readProg dbs) := by
  refine ⟨rfl, rfl, ?_⟩
  induction dbs with
  | nil => trivial
  | cons d ds ih => exact ⟨rfl, rfl, ih⟩

theorem static_open (ds : List Str) {r : List Act} (h : Static true true r) : Static true true (openDbs ds ++ r) := by
  induction ds with
  | nil => exact h
  | cons d ds ih => exact ⟨rfl, rfl, ih⟩

theorem static_close (ds : List Str) {r : List Act} (h : Static true true r) : Static true true (closeDbs ds ++ r) := by
  induction ds with
  | nil => exact h
  | cons d ds ih => exact ih

theorem static_write : Static false false (writeProg dbs) :=
  ⟨rfl, rfl, static_open _ (static_close _ trivial)⟩

/-- With all version files in place and true. -/
structure Fixed (grp : Str → Grp) (v : Grp → Nat) (s : Sys) : Prop where
  ver : ∀ g, s.verFile g = some (some (v g))
  fmt : ∀ d x, s.fmt d = some x → x = v (grp d)
  log : Matched s
  prog : ∀ p, ∃ m f, Static m f (s.procs p).prog ∧ (m = true → (s.procs p).ver .main = v .main) ∧
    (f = true → (s.procs p).ver .files = v .files)

theorem Fixed.other {v : Grp → Nat} {s t : Sys} (h : Fixed grp v s) (h1 : t.verFile = s.verFile) (h2 : t.fmt = s.fmt) (h3 : t.log = s.log)
    (h4 : ∀ q, ∃ m f, Static m f (t.procs q).prog ∧ (m = true → (t.procs q).ver .main = v .main) ∧
      (f = true → (t.procs q).ver .files = v .files)) : Fixed grp v t :=
  ⟨by rw [h1]; exact h.ver, by rw [h2]; exact h.fmt, by unfold Matched; rw [h3]; exact h.log, h4⟩

theorem Fixed.die {v : Grp → Nat} {s : Sys} (h : Fixed grp v s) (p : Pid) : Fixed grp v (s.die p) := by
  refine h.other rfl rfl rfl fun q => ?_
  by_cases hq : q = p
  · subst hq; exact ⟨false, false, by simp [Sys.die, Static], by simp, by simp⟩
  · have : (s.die p).procs q = s.procs q := upd_ne _ _ hq
    rw [this]; exact h.prog q

theorem check_fixed {c v : Nat} {w b : Bool} (h : checkVersion (some (some c)) v w false = some b) : b = false ∧ v = c := by
  simp only [checkVersion] at h
  by_cases h1 : c < v
  · rw [if_pos h1] at h; simp at h
  · rw [if_neg h1] at h
    by_cases h2 : v < c
    · rw [if_pos h2] at h; cases h
    · rw [if_neg h2] at h
      simp only [Bool.not_false, if_true, Option.some.injEq] at h
      exact ⟨h.symm, by omega⟩

theorem Fixed.act {v : Grp → Nat} {s : Sys} (h : Fixed grp v s) {p : Pid} {a : Act} {rest : List Act} (hp : (s.procs p).prog = a :: rest) :
    Fixed grp v (act grp s p a rest) := by
  obtain ⟨m, f, hs, hm, hf⟩ := h.prog p
  rw [hp] at hs
  have upd1 : ∀ (q : Proc) (m' f' : Bool), Static m' f' q.prog → (m' = true → q.ver .main = v .main) → (f' = true → q.ver .files = v .files) →
      ∀ (r : Pid), ∃ m f, Static m f ((upd s.procs p q) r).prog ∧ (m = true → ((upd s.procs p q) r).ver .main = v .main) ∧
      (f = true → ((upd s.procs p q) r).ver .files = v .files) := by
    intro q m' f' g1 g2 g3 r
    by_cases hr : r = p
    · subst hr; rw [upd_self]; exact ⟨m', f', g1, g2, g3⟩
    · rw [upd_ne _ _ hr]; exact h.prog r
  cases a with
  | probe => exact hs.elim
  | trunc g => exact hs.elim
  | writeVer g => exact hs.elim
  | destroy d => exact hs.elim
  | check g w u =>
    have hu : u = false := by cases g <;> exact hs.1
    subst hu
    cases hc : checkVersion (s.verFile g) ((s.procs p).ver g) w false with
    | none => simp only [DbEnv.act, hc]; exact h.die p
    | some b =>
      have hc' := hc
      rw [h.ver g] at hc'
      obtain ⟨rfl, hv⟩ := check_fixed hc'
      simp only [DbEnv.act, hc]
      cases g with
      | main => exact h.other rfl rfl rfl (upd1 { s.procs p with prog := rest } true f hs.2 (fun _ => hv) hf)
      | files => exact h.other rfl rfl rfl (upd1 { s.procs p with prog := rest } m true hs.2 hm (fun _ => hv))
  | openLk l => cases hn : s.names l <;> simp only [DbEnv.act, hn] <;> exact h.other rfl rfl rfl (upd1 _ m f hs hm hf)
  | flock l =>
    cases hn : (s.procs p).fds l with
    | none => simp only [DbEnv.act, hn]; exact h.die p
    | some i =>
      by_cases h0 : s.lockedBy i = []
      · simp only [DbEnv.act, hn, if_pos h0]; exact h.other rfl rfl rfl (upd1 { s.procs p with prog := rest } m f hs hm hf)
      · simp only [DbEnv.act, hn, if_neg h0]; exact h.die p
  | closeLk l =>
    cases hn : (s.procs p).fds l with
    | none => simp only [DbEnv.act, hn]; exact h.die p
    | some i => simp only [DbEnv.act, hn]; exact h.other rfl rfl rfl (upd1 _ m f hs hm hf)
  | unlinkLk l =>
    cases hn : s.names l with
    | none => simp only [DbEnv.act, hn]; exact h.die p
    | some i => simp only [DbEnv.act, hn]; exact h.other rfl rfl rfl (upd1 { s.procs p with prog := rest } m f hs hm hf)
  | openEnv => exact h.other rfl rfl rfl (upd1 _ m f hs hm hf)
  | closeEnv => exact h.other rfl rfl rfl (upd1 _ m f hs hm hf)
  | closeDb d => exact h.other rfl rfl rfl (upd1 _ m f hs hm hf)
  | work => exact h.other rfl rfl rfl (upd1 { s.procs p with prog := rest } m f hs hm hf)
  | openDb d ro =>
    obtain ⟨h1, h2, h3⟩ := hs
    have hv : (s.procs p).ver (grp d) = v (grp d) := by
      cases grp d with
      | main => exact hm h1
      | files => exact hf h2
    cases ro with
    | true =>
      cases hfm : s.fmt d with
      | none => simp only [DbEnv.act, hfm]; exact h.die p
      | some x =>
        simp only [DbEnv.act, hfm]
        refine ⟨h.ver, h.fmt, ?_, upd1 { s.procs p with prog := rest } m f h3 hm hf⟩
        intro e he
        rcases List.mem_append.mp he with he | he
        · exact h.log e he
        · rw [List.mem_singleton.mp he]
          exact hv.trans (h.fmt d x hfm).symm
    | false =>
      have hg : (s.fmt d).getD ((s.procs p).ver (grp d)) = v (grp d) := by
        cases hfm : s.fmt d with
        | none => exact hv
        | some x => exact h.fmt d x hfm
      simp only [DbEnv.act, hg]
      refine ⟨h.ver, ?_, ?_, upd1 _ m f h3 hm hf⟩
      · intro e x he
        dsimp only at he
        by_cases hed : e = d
        · subst hed; rw [upd_self, Option.some.injEq] at he; exact he.symm
        · rw [upd_ne _ _ hed] at he; exact h.fmt e x he
      · intro e he
        rcases List.mem_append.mp he with he | he
        · exact h.log e he
        · rw [List.mem_singleton.mp he]; exact hv

theorem Fixed.step {v : Grp → Nat} {s : Sys} (h : Fixed grp v s) {e : Ev} (he : ∀ p f ver, e ≠ .start p (.rebuild f) ver) :
    Fixed grp v (step grp dbs s e) := by
  cases e with
  | start p k ver =>
    simp only [DbEnv.step]
    by_cases hp : (s.procs p).prog = []
    · rw [if_pos hp]
      refine h.other rfl rfl rfl fun q => ?_
      by_cases hq : q = p
      · subst hq
        refine ⟨false, false, ?_, by simp, by simp⟩
        simp only [Sys.setProc, upd_self]
        cases k with
        | read => exact static_read
        | write => exact static_write
        | rebuild f => exact absurd rfl (he q f ver)
      · simp only [Sys.setProc]; rw [upd_ne _ _ hq]; exact h.prog q
    · rw [if_neg hp]; exact h
  | run p =>
    cases hp : (s.procs p).prog with
    | nil => simp only [DbEnv.step, hp]; exact h
    | cons a rest => simp only [DbEnv.step, hp]; exact h.act hp
  | exit p => exact h.die p
  | fork p c =>
    simp only [DbEnv.step]
    by_cases hc : (s.procs p).alive = true ∧ (s.procs c).alive = false
    · rw [if_pos hc]
      refine h.other rfl rfl rfl fun q => ?_
      by_cases hq : q = c
      · subst hq; exact ⟨false, false, by simp [Sys.setProc, Static], by simp, by simp⟩
      · simp only [Sys.setProc]; rw [upd_ne _ _ hq]; exact h.prog q
    · rw [if_neg hc]; exact h
  | clean => exact h.other rfl rfl rfl h.prog

/-- Where both version files are in place and tell the truth, a database is never opened by a program of another version, as
long as nobody rebuilds the databases: whatever programs of whatever versions run, in any order and interrupted at any time. -/
theorem matched_partial (v : Grp → Nat) (f : Str → Option Nat) (hf : ∀ d x, f d = some x → x = v (grp d)) (es : List Ev)
    (hr : ∀ p b ver, .start p (.rebuild b) ver ∉ es) :
    Matched (exec grp dbs (boot (fun g => some (some (v g))) f) es) := by
  have h0 : Fixed grp v (boot (fun g => some (some (v g))) f) :=
    ⟨fun _ => rfl, hf, fun e he => (by cases he), fun _ => ⟨false, false, trivial, by simp, by simp⟩⟩
  have : ∀ (es : List Ev) (s : Sys), Fixed grp v s → (∀ p b ver, .start p (.rebuild b) ver ∉ es) → Fixed grp v (exec grp dbs s es) := by
    intro es
    induction es with
    | nil => intro s h _; exact h
    | cons e es ih =>
      intro s h hr
      exact ih _ (h.step fun p b ver hc => hr p b ver (hc ▸ List.mem_cons_self)) fun p b ver hc => hr p b ver (List.mem_cons_of_mem _ hc)
  exact (this es _ h0 hr).log

/-- The condition of `matched_partial` met, with a program of another version that is refused. -/
example : Matched (exec (fun _ => .main) [['a']] (boot vf1 fun _ => none)
    (Ev.start 1 .write v1 :: Ev.start 2 .write (fun _ => 2) :: (runs 1 8 ++ (runs 2 8 ++ [Ev.exit 1, .start 3 .read v1]) ++ runs 3 3))) :=
  matched_partial v1 _ (by simp) _ (by simp [runs, List.replicate])

/-! ### One command after the other -/

theorem read_tail {p : Pid} (ds : List Str) : ∀ {s : Sys}, (s.procs p).prog = ds.map (fun d => .openDb d true) ++ [.work] →
    (∀ d ∈ ds, ∀ x, s.fmt d = some x → (s.procs p).ver (grp d) = x) →
    ∃ n, let t := exec grp dbs s (runs p n)
      (t.procs p).prog = [] ∧ t.verFile = s.verFile ∧ t.fmt = s.fmt ∧ (Matched s → Matched t) := by
  induction ds with
  | nil =>
    intro s hp _
    refine ⟨1, ?_⟩
    rw [exec_run_cons hp]
    exact ⟨by simp [act, Sys.setProc], rfl, rfl, fun h => h⟩
  | cons d ds ih =>
    intro s hp hf
    have e := exec_run_cons (grp := grp) (dbs := dbs) (s := s) (p := p) hp
    cases hfm : s.fmt d with
    | none =>
      refine ⟨1, ?_⟩
      rw [e]
      simp only [act, hfm]
      exact ⟨by simp [Sys.die], rfl, rfl, fun h => h⟩
    | some x =>
      simp only [act, hfm] at e
      obtain ⟨n, h1, h2, h3, h4⟩ := ih (s := { s.setProc p { s.procs p with prog := ds.map (fun d => .openDb d true) ++ [.work] } with
        log := s.log ++ [((s.procs p).ver (grp d), x)] }) (by simp [Sys.setProc])
        (by
          intro d' hd' x' hx'
          simp only [Sys.setProc, upd_self]
          exact hf d' (List.mem_cons_of_mem _ hd') x' hx')
      refine ⟨1 + n, ?_⟩
      rw [exec_runs_add, e]
      refine ⟨h1, h2, h3, fun hm => h4 fun a ha => ?_⟩
      rcases List.mem_append.mp ha with ha | ha
      · exact hm a ha
      · rw [List.mem_singleton.mp ha]; exact hf d List.mem_cons_self x hfm

/-- After complete commands. -/
structure Settled (grp : Str → Grp) (dbs : List Str) (vs : Nat → Grp → Nat) (s : Sys) : Prop where
  quiet : Quiet s
  rel : FromRelease vs s
  true_ : Truthful grp dbs s
  log : Matched s

theorem checkVersion_some {f : Option (Option Nat)} {v : Nat} {w u b : Bool} (h : checkVersion f v w u = some b) :
    f = none ∧ w = true ∨ ∃ c, f = some (some c) ∧ c ≤ v ∧ (u = false → c = v) := by
  match f with
  | some none => cases h
  | none =>
    left
    cases w with
    | true => exact ⟨rfl, rfl⟩
    | false => simp [checkVersion] at h
  | some (some c) =>
    right
    refine ⟨c, rfl, ?_⟩
    simp only [checkVersion] at h
    by_cases h1 : c < v
    · rw [if_pos h1] at h
      cases u with
      | false => simp at h
      | true => exact ⟨Nat.le_of_lt h1, by simp⟩
    · rw [if_neg h1] at h
      by_cases h2 : v < c
      · rw [if_pos h2] at h; cases h
      · exact ⟨by omega, fun _ => by omega⟩

/-- The command ends, with the stated result. -/
def Ends (grp : Str → Grp) (dbs : List Str) (vs : Nat → Grp → Nat) (s : Sys) (p : Pid) : Prop :=
  ∃ n, let t := exec grp dbs s (runs p n)
    (t.procs p).prog = [] ∧ FromRelease vs t ∧ Truthful grp dbs t ∧ Matched t

theorem ends_die {vs : Nat → Grp → Nat} {s t : Sys} {p : Pid} {n : Nat} (h : exec grp dbs s (runs p n) = t.die p) (h1 : FromRelease vs t)
    (h2 : Truthful grp dbs t) (h3 : Matched t) : Ends grp dbs vs s p :=
  ⟨n, by rw [h]; exact ⟨by simp [Sys.die], h1, h2, h3⟩⟩

/-- The two checks at the beginning of a command: it ends there, or goes on. -/
theorem checks_or {vs : Nat → Grp → Nat} (hvs : Releases vs) {s : Sys} {p : Pid} {w u : Bool} {rest : List Act} {m : Nat}
    (hp : (s.procs p).prog = .check .main w u :: .check .files w u :: rest) (hv : (s.procs p).ver = vs m)
    (h1 : FromRelease vs s) (h2 : Truthful grp dbs s) (h3 : Matched s) :
    Ends grp dbs vs s p ∨ ∃ b1 b2, checkVersion (s.verFile .main) (vs m .main) w u = some b1 ∧
      checkVersion (s.verFile .files) (vs m .files) w u = some b2 := by
  cases c1 : checkVersion (s.verFile .main) (vs m .main) w u with
  | none => exact Or.inl (ends_die (check_die hp (by rw [hv]; exact c1)) h1 h2 h3)
  | some b1 =>
    cases c2 : checkVersion (s.verFile .files) (vs m .files) w u with
    | some b2 => exact Or.inr ⟨b1, b2, rfl, rfl⟩
    | none =>
      refine Or.inl ?_
      obtain ⟨n, e⟩ := check_run (grp := grp) (dbs := dbs) hp (b := b1) (by rw [hv]; exact c1)
      -- the version file has not been changed
      have hsame : upd s.verFile .main (some (some ((s.procs p).ver .main))) = s.verFile := by
        funext g
        cases g with
        | files => exact upd_ne _ _ (by simp)
        | main =>
          rw [upd_self, hv]
          rcases h1 with h1 | ⟨m0, h1⟩
          · rcases checkVersion_some c1 with ⟨_, hw⟩ | ⟨c, hc, _⟩
            · rw [h1, hw] at c2; simp [checkVersion] at c2
            · rw [h1] at hc; cases hc
          · rw [h1] at c1 c2 ⊢
            rcases checkVersion_some c1 with ⟨hc, _⟩ | ⟨c, hc, hle, hu⟩
            · cases hc
            · obtain rfl : vs m0 .main = c := by simpa using hc
              congr 2
              cases u with
              | false => exact (hu rfl).symm
              | true =>
                refine Nat.le_antisymm ?_ hle
                simp only [checkVersion] at c2
                by_cases hlt : vs m0 .files < vs m .files
                · -- writing is allowed, so it would have succeeded
                  rw [if_pos hlt] at c2
                  cases w with
                  | true => simp at c2
                  | false =>
                    simp only [checkVersion] at c1
                    by_cases g1 : vs m0 .main < vs m .main
                    · rw [if_pos g1] at c1; simp at c1
                    · exact Nat.le_of_not_lt g1
                · rw [if_neg hlt] at c2
                  by_cases hgt : vs m .files < vs m0 .files
                  · have : m ≤ m0 := by
                      apply Classical.byContradiction
                      intro hn
                      have := hvs m0 m (by omega) .files
                      omega
                    exact hvs m m0 this .main
                  · rw [if_neg hgt] at c2
                    cases w with
                    | true => simp at c2
                    | false =>
                      simp only [checkVersion] at c1
                      by_cases g1 : vs m0 .main < vs m .main
                      · rw [if_pos g1] at c1; simp at c1
                      · exact Nat.le_of_not_lt g1
      generalize ht : ({ s with procs := upd s.procs p { s.procs p with prog := .check .files w u :: rest }, verFile := upd s.verFile .main (some (some ((s.procs p).ver .main))) } : Sys) = t at e
      have tv : t.verFile = s.verFile := by subst ht; exact hsame
      have e2 := check_die (grp := grp) (dbs := dbs) (s := t) (p := p) (g := .files) (w := w) (u := u) (rest := rest) (by subst ht; simp)
        (by rw [tv]; subst ht; simp only [upd_self]; rw [hv]; exact c2)
      have tf : t.fmt = s.fmt := by subst ht; rfl
      have tl : t.log = s.log := by subst ht; rfl
      refine ends_die (t := t) (n := n + 1) (by rw [exec_runs_add, e, e2]) ?_ ?_ ?_
      · unfold FromRelease; rw [tv]; exact h1
      · unfold Truthful; rw [tv, tf]; exact h2
      · unfold Matched; rw [tl]; exact h3

theorem ends_command {vs : Nat → Grp → Nat} (hvs : Releases vs) (hd : dbs.Nodup) {s : Sys} (h : Settled grp dbs vs s) (p : Pid) (k : Kind) (m : Nat) :
    Ends grp dbs vs (step grp dbs s (.start p k (vs m))) p := by
  obtain ⟨L, lab, i, i1, i2, i3, i4, i5, i6, i7, i8⟩ := h.quiet.start (grp := grp) hd p k (vs m)
  generalize step grp dbs s (.start p k (vs m)) = t at i i1 i2 i3 i4 i5 i6 i7 i8
  have r : FromRelease vs t := by unfold FromRelease; rw [i6]; exact h.rel
  have tr : Truthful grp dbs t := by unfold Truthful; rw [i6, i7]; exact h.true_
  have tm : Matched t := by unfold Matched; rw [i8]; exact h.log
  -- the version of a database that passes a check
  have same : ∀ {w b1 b2 : Bool}, checkVersion (t.verFile .main) (vs m .main) w false = some b1 → checkVersion (t.verFile .files) (vs m .files) w false = some b2 →
      ∀ d ∈ dbs, t.fmt d = none ∨ t.fmt d = some (vs m (grp d)) := by
    intro w b1 b2 c1 c2 d hdd
    have c : ∃ b, checkVersion (t.verFile (grp d)) (vs m (grp d)) w false = some b := by
      cases grp d with
      | main => exact ⟨_, c1⟩
      | files => exact ⟨_, c2⟩
    obtain ⟨b, c⟩ := c
    cases hfm : t.fmt d with
    | none => exact Or.inl rfl
    | some x =>
      right
      have hx := tr d hdd x hfm
      rcases checkVersion_some c with ⟨hc, _⟩ | ⟨y, hc, _, hy⟩
      · rw [hx] at hc; cases hc
      · rw [hx] at hc
        obtain rfl : x = y := by simpa using hc
        rw [hy rfl]
  cases k with
  | read =>
    rcases checks_or (grp := grp) hvs (w := false) (u := false) (rest := dbs.map (fun d => .openDb d true) ++ [.work]) i3 i4 r tr tm with he | ⟨b1, b2, c1, c2⟩
    · exact he
    · obtain ⟨n, e⟩ := checks_run (grp := grp) (dbs := dbs) (rest := dbs.map (fun d => .openDb d true) ++ [.work]) i3
        (by rw [i4]; exact c1) (by rw [i4]; exact c2)
      have hver : ∀ g, t.verFile g = some (some (vs m g)) := by
        have : ∀ g b, checkVersion (t.verFile g) (vs m g) false false = some b → t.verFile g = some (some (vs m g)) := by
          intro g b hb
          rcases checkVersion_some hb with ⟨_, hw⟩ | ⟨y, hc, _, hy⟩
          · cases hw
          · rw [hc, hy rfl]
        intro g
        cases g with
        | main => exact this _ _ c1
        | files => exact this _ _ c2
      generalize hu : ({ t with procs := upd t.procs p { t.procs p with prog := dbs.map (fun d => .openDb d true) ++ [.work] }, verFile := fun g => some (some ((t.procs p).ver g)) } : Sys) = u at e
      have uv : u.verFile = t.verFile := by subst hu; funext g; dsimp only; rw [i4, hver g]
      have uf : u.fmt = t.fmt := by subst hu; rfl
      have ul : u.log = t.log := by subst hu; rfl
      obtain ⟨n2, d1, d2, d3, d4⟩ := read_tail (grp := grp) (dbs := dbs) (p := p) dbs (s := u) (by subst hu; simp)
        (by
          intro d hdd x hx
          rw [uf] at hx
          have : (u.procs p).ver = vs m := by subst hu; simp [i4]
          rw [this]
          rcases same c1 c2 d hdd with hn | hn <;> rw [hx] at hn
          · cases hn
          · exact (Option.some.inj hn).symm)
      refine ⟨n + n2, ?_⟩
      rw [exec_runs_add, e]
      refine ⟨d1, ?_, ?_, ?_⟩
      · unfold FromRelease; rw [d2, uv]; exact r
      · unfold Truthful; rw [d2, d3, uv, uf]; exact tr
      · exact d4 (by unfold Matched; rw [ul]; exact tm)
  | write =>
    rcases checks_or (grp := grp) hvs (w := true) (u := false) (rest := .openLk .env :: .flock .env :: .openEnv ::
      (openDbs dbs ++ (.work :: (closeDbs dbs ++ [.closeEnv, .closeLk .env])))) i3 i4 r tr tm with he | ⟨b1, b2, c1, c2⟩
    · exact he
    · obtain ⟨_, n, w1, w2, w3, w4⟩ := write_session (grp := grp) hd i i1 i2 i3 (b1 := b1) (b2 := b2) (by rw [i4]; exact c1) (by rw [i4]; exact c2)
      rw [i4] at w3 w4
      obtain ⟨f1, _⟩ := foldl_eff_openDbs (grp := grp) (ver := vs m) (fl := (t.procs p).files) dbs (t.fmt, t.log)
      obtain ⟨f1, f2⟩ := f1 (same c1 c2)
      rw [← w4] at f1 f2
      refine ⟨n, w1.idle p, Or.inr ⟨m, fun g => by rw [w3]⟩, ?_, f2 tm⟩
      intro d hdd x hx
      have := f1 d hdd
      dsimp only at this
      rw [this] at hx
      rw [w3, ← Option.some.inj hx]
  | rebuild fo =>
    -- the probe
    have e0 := exec_run_cons (grp := grp) (dbs := dbs) (rest := (rebuildProg dbs).tail) (a := .probe) i3
    generalize hfl : ((t.procs p).files || checkVersion (t.verFile .files) ((t.procs p).ver .files) false false != some false) = fl
    have et : act grp t p .probe (rebuildProg dbs).tail = t.setProc p { t.procs p with prog := (rebuildProg dbs).tail, files := fl } := by
      subst hfl; rfl
    rw [et] at e0
    generalize hu : t.setProc p { t.procs p with prog := (rebuildProg dbs).tail, files := fl } = u at e0
    have up : u.procs p = { t.procs p with prog := (rebuildProg dbs).tail, files := fl } := by subst hu; exact upd_self _ _ _
    have uv : u.verFile = t.verFile := by subst hu; rfl
    have uf : u.fmt = t.fmt := by subst hu; rfl
    have ul : u.log = t.log := by subst hu; rfl
    rcases checks_or (grp := grp) (dbs := dbs) hvs (s := u) (p := p) (m := m) (w := true) (u := true) (rest := .openLk .env :: .flock .env :: .openEnv ::
      (dbs.map .destroy ++ (.closeEnv :: .closeLk .env :: writeProg dbs))) (by rw [up]; rfl) (by rw [up]; exact i4)
      (by unfold FromRelease; rw [uv]; exact r) (by unfold Truthful; rw [uv, uf]; exact tr) (by unfold Matched; rw [ul]; exact tm)
      with ⟨n, e1, e2, e3, e4⟩ | ⟨b1, b2, c1, c2⟩
    · refine ⟨1 + n, ?_⟩
      rw [exec_runs_add, e0]
      exact ⟨e1, e2, e3, e4⟩
    · rw [uv] at c1 c2
      obtain ⟨_, _, n, w1, w2, w3, fl', hfl', w4⟩ := rebuild_session (grp := grp) hd i i1 i2 i3 (b1 := b1) (b2 := b2) (by rw [i4]; exact c1) (by rw [i4]; exact c2)
      rw [i4] at w3 w4 hfl'
      obtain ⟨g1, g2⟩ := foldl_eff_destroy (grp := grp) (ver := vs m) (fl := fl') dbs (t.fmt, t.log)
      obtain ⟨f1, _⟩ := foldl_eff_openDbs (grp := grp) (ver := vs m) (fl := fl') dbs ((dbs.map Act.destroy).foldl (eff grp (vs m) fl') (t.fmt, t.log))
      obtain ⟨f1, f2⟩ := f1 (by
        intro d hdd
        rw [g2]
        by_cases hc : grp d = .files ∧ fl' = false
        · rw [if_neg (fun h => h.2 hc)]
          have hp : checkVersion (t.verFile .files) (vs m .files) false false = some false := by
            rw [hc.2] at hfl'
            have := (Bool.or_eq_false_iff.mp hfl'.symm).2
            simpa using this
          dsimp only
          cases hfm : t.fmt d with
          | none => exact Or.inl rfl
          | some x =>
            right
            have hx := tr d hdd x hfm
            rw [hc.1] at hx ⊢
            rw [hx] at hp
            obtain ⟨_, hp⟩ := check_fixed hp
            rw [hp]
        · rw [if_pos ⟨hdd, hc⟩]
          exact Or.inl rfl)
      rw [← w4] at f1 f2
      refine ⟨n, w1.idle p, Or.inr ⟨m, fun g => by rw [w3]⟩, ?_, f2 (by rw [g1]; exact tm)⟩
      intro d hdd x hx
      have := f1 d hdd
      dsimp only at this
      rw [this] at hx
      rw [w3, ← Option.some.inj hx]

/-- Commands of any releases of PiSi, one after the other, `rebuild-db` among them: a database is never opened by a program of
another version, and the version files tell the truth about the databases. -/
theorem matched_releases_partial (vs : Nat → Grp → Nat) (hvs : Releases vs) (hd : dbs.Nodup) (v : Grp → Option (Option Nat)) (f : Str → Option Nat)
    (h1 : FromRelease vs (boot v f)) (h2 : Truthful grp dbs (boot v f)) {t : Sys} (h : Sequence grp dbs vs (boot v f) t) :
    Matched t ∧ Truthful grp dbs t := by
  suffices Settled grp dbs vs t from ⟨this.log, this.true_⟩
  generalize hs : boot v f = s at h
  induction h with
  | nil =>
    subst hs
    exact ⟨quiet_reach (grp := grp) hd v f (es := []) (by simp) (fun _ => rfl) (fun _ _ => rfl), h1, h2, fun e he => by cases he⟩
  | snoc c n hseq hend ih =>
    obtain ⟨n', e1, e2, e3, e4⟩ := ends_command (grp := grp) hvs hd ih c.p c.k c.m
    have eq : ∀ (s : Sys), exec grp dbs s (.start c.p c.k (vs c.m) :: runs c.p n) = exec grp dbs (step grp dbs s (.start c.p c.k (vs c.m))) (runs c.p n) := fun _ => rfl
    rw [eq] at hend ⊢
    have hu := exec_unique hend e1
    rw [← hu] at e2 e3 e4
    obtain ⟨L, lab, i, i1, i2, _⟩ := ih.quiet.start (grp := grp) hd c.p c.k (vs c.m)
    obtain ⟨L', lab', i'⟩ := i.runs (grp := grp) hd c.p n
    refine ⟨quiet_of i' fun q => ?_, e2, e3, e4⟩
    by_cases hq : q = c.p
    · rw [hq]; exact hend
    · rw [runs_others hq]; exact i2 q hq

/-- What is wanted: whatever happens, a database is never opened by a program of another version. -/
def MatchedFull : Prop := ∀ (grp : Str → Grp) (dbs : List Str) (vs : Nat → Grp → Nat) (v : Grp → Option (Option Nat)) (f : Str → Option Nat)
  (es : List Ev), dbs.Nodup → Releases vs → FromRelease vs (boot v f) → Truthful grp dbs (boot v f) → .clean ∉ es →
  (∀ p k ver, .start p k ver ∈ es → ∃ m, ver = vs m) → Matched (exec grp dbs (boot v f) es)

/-- The releases used in the examples: release `m` has the versions `m + 1`. -/
def rel : Nat → Grp → Nat := fun m _ => m + 1

theorem rel_releases : Releases rel := fun m n h _ => by simp [rel]; omega

/-- `rebuild-db` writes the new versions before it destroys the old databases: killed in between, it leaves old databases that
every command takes for new ones. -/
theorem matched_refuted : ¬ MatchedFull := by
  intro h
  have := h (fun _ => .main) [['a']] rel vf1 (fun d => if d = ['a'] then some 1 else none)
    (Ev.start 1 (.rebuild true) (rel 1) :: (runs 1 7 ++ (Ev.exit 1 :: Ev.start 2 .read (rel 1) :: runs 2 3))) (by simp) rel_releases
    (Or.inr ⟨0, fun _ => rfl⟩) (by
      intro d hd x hx
      dsimp only [boot] at hx ⊢
      by_cases h1 : d = ['a']
      · rw [if_pos h1] at hx; cases hx; rfl
      · rw [if_neg h1] at hx; cases hx) (by simp [runs, List.replicate])
    (by
      intro p k ver he
      simp [runs, List.replicate] at he
      rcases he with ⟨_, _, rfl⟩ | ⟨_, _, rfl⟩ <;> exact ⟨1, rfl⟩)
  exact absurd this (by unfold Matched; decide)

/-- The conditions of `matched_releases_partial` met: an update of PiSi, a refused command, `rebuild-db` and a command. -/
example : ∃ t, Sequence (fun _ => .main) [['a']] rel (boot (fun _ => none) fun _ => none) t ∧ t.log = [(1, 1), (2, 2), (2, 2)] ∧
    t.fmt ['a'] = some 2 := by
  refine ⟨_, .snoc ⟨4, .read, 1⟩ 4 (.snoc ⟨3, .rebuild false, 1⟩ 30 (.snoc ⟨2, .write, 1⟩ 3 (.snoc ⟨1, .write, 0⟩ 20 (.nil _) ?_) ?_) ?_) ?_, ?_, ?_⟩ <;> rfl

/-! ## C104 -/

theorem check_older {f : Option (Option Nat)} {v : Nat} (h0 : f ≠ some none) (h : ∀ c, f = some (some c) → c ≤ v) :
    ∃ b, checkVersion f v true true = some b := by
  match f with
  | none => exact ⟨true, rfl⟩
  | some none => exact absurd rfl h0
  | some (some c) =>
    refine ⟨true, ?_⟩
    have := h c rfl
    simp only [checkVersion]
    by_cases h1 : c < v
    · simp [h1]
    · rw [if_neg h1, if_neg (by omega)]; rfl

/-- Whatever was interrupted: as long as the version files are not empty, `rebuild-db` of a program not older than them gets
through, and leaves databases of its own version. -/
theorem rebuild_repairs_partial (hd : dbs.Nodup) (v : Grp → Option (Option Nat)) (f : Str → Option Nat) {es : List Ev}
    (hc : .clean ∉ es) (hi : Idle (exec grp dbs (boot v f) es))
    (hk : ∀ c, Forked es c → ((exec grp dbs (boot v f) es).procs c).alive = false)
    (he : ∀ g, (exec grp dbs (boot v f) es).verFile g ≠ some none) (p : Pid) (ver : Grp → Nat)
    (hv : ∀ g c, (exec grp dbs (boot v f) es).verFile g = some (some c) → c ≤ ver g) :
    ∃ n, let t := exec grp dbs (exec grp dbs (boot v f) es) (.start p (.rebuild true) ver :: runs p n)
      (t.procs p).prog = [] ∧ (t.procs p).alive = true ∧ (∀ g, t.verFile g = some (some (ver g))) ∧ ∀ d ∈ dbs, t.fmt d = some (ver (grp d)) := by
  have hq := quiet_reach hd v f hc hi hk
  generalize exec grp dbs (boot v f) es = s at hq hv he
  obtain ⟨L, lab, h, h1, h2, h3, h4, h5, h6, h7, h8⟩ := hq.start (grp := grp) hd p (.rebuild true) ver
  have eq : ∀ n, exec grp dbs s (.start p (.rebuild true) ver :: runs p n) = exec grp dbs (step grp dbs s (.start p (.rebuild true) ver)) (runs p n) := fun _ => rfl
  generalize step grp dbs s (.start p (.rebuild true) ver) = t at h h1 h2 h3 h4 h5 h6 h7 h8 eq
  obtain ⟨b1, c1⟩ := check_older (v := ver .main) (he .main) (hv .main)
  obtain ⟨b2, c2⟩ := check_older (v := ver .files) (he .files) (hv .files)
  obtain ⟨_, _, n, w1, w2, w3, fl, hfl, w4⟩ := rebuild_session (grp := grp) hd h h1 h2 h3 (b1 := b1) (b2 := b2) (by rw [h4, h6]; exact c1) (by rw [h4, h6]; exact c2)
  refine ⟨n, ?_⟩
  rw [eq]
  rw [h4] at w3 w4
  have hfl : fl = true := by rw [hfl, h5]; rfl
  subst hfl
  obtain ⟨_, g2⟩ := foldl_eff_destroy (grp := grp) (ver := ver) (fl := true) dbs (t.fmt, t.log)
  obtain ⟨f1, _⟩ := foldl_eff_openDbs (grp := grp) (ver := ver) (fl := true) dbs ((dbs.map Act.destroy).foldl (eff grp ver true) (t.fmt, t.log))
  obtain ⟨f1, _⟩ := f1 (by
    intro d hdd
    rw [g2, if_pos ⟨hdd, by simp⟩]
    exact Or.inl rfl)
  rw [← w4] at f1
  exact ⟨w1.idle p, w2, fun g => by rw [w3], f1⟩

/-- What a program looks like around the writing of version files. -/
def TruncOk : List Act → Prop
  | [] => True
  | .trunc g :: r => ∃ r', r = .writeVer g :: r' ∧ Act.trunc g ∉ r' ∧ ∀ g', Act.trunc g' ∉ r'
  | _ :: r => ∀ g, Act.trunc g ∉ r

theorem truncOk_of {l : List Act} (h : ∀ g, Act.trunc g ∉ l) : TruncOk l := by
  match l with
  | [] => trivial
  | .trunc g :: r => exact absurd List.mem_cons_self (h g)
  | .probe :: r => exact fun g hg => h g (List.mem_cons_of_mem _ hg)
  | .check .. :: r => exact fun g hg => h g (List.mem_cons_of_mem _ hg)
  | .writeVer _ :: r => exact fun g hg => h g (List.mem_cons_of_mem _ hg)
  | .openLk _ :: r => exact fun g hg => h g (List.mem_cons_of_mem _ hg)
  | .flock _ :: r => exact fun g hg => h g (List.mem_cons_of_mem _ hg)
  | .closeLk _ :: r => exact fun g hg => h g (List.mem_cons_of_mem _ hg)
  | .unlinkLk _ :: r => exact fun g hg => h g (List.mem_cons_of_mem _ hg)
  | .openEnv :: r => exact fun g hg => h g (List.mem_cons_of_mem _ hg)
  | .closeEnv :: r => exact fun g hg => h g (List.mem_cons_of_mem _ hg)
  | .openDb .. :: r => exact fun g hg => h g (List.mem_cons_of_mem _ hg)
  | .closeDb _ :: r => exact fun g hg => h g (List.mem_cons_of_mem _ hg)
  | .destroy _ :: r => exact fun g hg => h g (List.mem_cons_of_mem _ hg)
  | .work :: r => exact fun g hg => h g (List.mem_cons_of_mem _ hg)

theorem TruncOk.tail {a : Act} {l : List Act} (h : TruncOk (a :: l)) : (∀ g, a ≠ .trunc g) → ∀ g, Act.trunc g ∉ l := by
  intro ha
  cases a with
  | trunc g => exact absurd rfl (ha g)
  | _ => exact h

theorem trunc_prog (k : Kind) (g : Grp) : Act.trunc g ∉ k.prog dbs := by
  have ho : Act.trunc g ∉ openDbs dbs := by simp [openDbs]
  have hcl : Act.trunc g ∉ closeDbs dbs := by simp [closeDbs]
  have hw : Act.trunc g ∉ writeProg dbs := by simp [writeProg, ho, hcl]
  cases k with
  | read => simp [Kind.prog, readProg]
  | write => exact hw
  | rebuild f => simp [Kind.prog, rebuildProg, hw]

/-- An empty version file is about to be written. -/
structure Writes (s : Sys) : Prop where
  prog : ∀ p, TruncOk (s.procs p).prog
  alive : ∀ p, (s.procs p).alive = false → (s.procs p).prog = []
  empty : ∀ g, s.verFile g = some none → ∃ p, (s.procs p).prog.head? = some (.writeVer g)

theorem Writes.same {s t : Sys} (h : Writes s) (p : Pid) (ho : ∀ q, q ≠ p → t.procs q = s.procs q) (hp : TruncOk (t.procs p).prog)
    (hal : (t.procs p).alive = false → (t.procs p).prog = []) (hv : t.verFile = s.verFile)
    (hn : ∀ g, (s.procs p).prog.head? ≠ some (.writeVer g)) : Writes t := by
  refine ⟨fun q => ?_, fun q => ?_, fun g hg => ?_⟩
  · by_cases hq : q = p
    · rw [hq]; exact hp
    · rw [ho q hq]; exact h.prog q
  · by_cases hq : q = p
    · rw [hq]; exact hal
    · rw [ho q hq]; exact h.alive q
  · rw [hv] at hg
    obtain ⟨q, hq⟩ := h.empty g hg
    have hqp : q ≠ p := fun e => hn g (e ▸ hq)
    exact ⟨q, by rw [ho q hqp]; exact hq⟩

theorem Writes.die {s : Sys} (h : Writes s) (p : Pid) (hn : ∀ g, (s.procs p).prog.head? ≠ some (.writeVer g)) : Writes (s.die p) :=
  h.same p (fun q hq => upd_ne _ _ hq) (by simp [Sys.die, TruncOk]) (fun _ => by simp [Sys.die]) rfl hn

theorem Writes.act {s : Sys} (h : Writes s) {p : Pid} {a : Act} {rest : List Act} (hp : (s.procs p).prog = a :: rest) : Writes (act grp s p a rest) := by
  have hal : (s.procs p).alive = true := by
    cases hc : (s.procs p).alive with
    | true => rfl
    | false => have := h.alive p hc; rw [hp] at this; cases this
  have hk := h.prog p
  rw [hp] at hk
  have go : ∀ {t : Sys} {q : Proc}, t.procs = upd s.procs p q → q.alive = true → TruncOk q.prog → t.verFile = s.verFile →
      (∀ g, a ≠ .writeVer g) → Writes t := by
    intro t q e1 e2 e3 e4 e5
    refine h.same p (fun r hr => by rw [e1, upd_ne _ _ hr]) (by rw [e1, upd_self]; exact e3) (by rw [e1, upd_self, e2]; simp) e4 ?_
    intro g hg
    rw [hp, List.head?_cons, Option.some.injEq] at hg
    exact e5 g hg
  have dead : (∀ g, a ≠ .writeVer g) → Writes (s.die p) := fun hn => h.die p fun g hg => by
    rw [hp, List.head?_cons, Option.some.injEq] at hg; exact hn g hg
  cases a with
  | probe => exact go rfl hal (truncOk_of (hk.tail (by simp))) rfl (by simp)
  | check g w u =>
    have ht := hk.tail (by simp)
    cases hc : checkVersion (s.verFile g) ((s.procs p).ver g) w u with
    | none => simp only [DbEnv.act, hc]; exact dead (by simp)
    | some b =>
      cases b with
      | false => simp only [DbEnv.act, hc]; exact go rfl hal (truncOk_of ht) rfl (by simp)
      | true => simp only [DbEnv.act, hc]; exact go rfl hal ⟨rest, rfl, ht g, ht⟩ rfl (by simp)
  | trunc g =>
    obtain ⟨r', rfl, h1, h2⟩ := hk
    refine ⟨fun q => ?_, fun q => ?_, fun g' hg => ?_⟩
    · by_cases hq : q = p
      · subst hq; simp only [DbEnv.act, Sys.setProc, upd_self]; exact h2
      · simp only [DbEnv.act, Sys.setProc]; rw [upd_ne _ _ hq]; exact h.prog q
    · by_cases hq : q = p
      · subst hq; simp only [DbEnv.act, Sys.setProc, upd_self, hal]; simp
      · simp only [DbEnv.act, Sys.setProc]; rw [upd_ne _ _ hq]; exact h.alive q
    · by_cases hg' : g' = g
      · subst hg'
        exact ⟨p, by simp [DbEnv.act, Sys.setProc]⟩
      · simp only [DbEnv.act, Sys.setProc] at hg
        rw [upd_ne _ _ hg'] at hg
        obtain ⟨q, hq⟩ := h.empty g' hg
        have hqp : q ≠ p := by
          rintro rfl
          rw [hp] at hq
          simp at hq
        exact ⟨q, by simp only [DbEnv.act, Sys.setProc]; rw [upd_ne _ _ hqp]; exact hq⟩
  | writeVer g =>
    have ht := hk.tail (by simp)
    refine ⟨fun q => ?_, fun q => ?_, fun g' hg => ?_⟩
    · by_cases hq : q = p
      · subst hq; simp only [DbEnv.act, Sys.setProc, upd_self]; exact truncOk_of ht
      · simp only [DbEnv.act, Sys.setProc]; rw [upd_ne _ _ hq]; exact h.prog q
    · by_cases hq : q = p
      · subst hq; simp only [DbEnv.act, Sys.setProc, upd_self, hal]; simp
      · simp only [DbEnv.act, Sys.setProc]; rw [upd_ne _ _ hq]; exact h.alive q
    · simp only [DbEnv.act, Sys.setProc] at hg
      by_cases hg' : g' = g
      · subst hg'; rw [upd_self] at hg; cases hg
      · rw [upd_ne _ _ hg'] at hg
        obtain ⟨q, hq⟩ := h.empty g' hg
        have hqp : q ≠ p := by
          rintro rfl
          rw [hp, List.head?_cons, Option.some.injEq] at hq
          exact hg' (by cases hq; rfl)
        exact ⟨q, by simp only [DbEnv.act, Sys.setProc]; rw [upd_ne _ _ hqp]; exact hq⟩
  | openLk l =>
    have ht := truncOk_of (hk.tail (by simp))
    cases hn : s.names l <;> simp only [DbEnv.act, hn] <;> exact go rfl hal ht rfl (by simp)
  | flock l =>
    have ht := truncOk_of (hk.tail (by simp))
    cases hn : (s.procs p).fds l with
    | none => simp only [DbEnv.act, hn]; exact dead (by simp)
    | some i =>
      by_cases h0 : s.lockedBy i = []
      · simp only [DbEnv.act, hn, if_pos h0]; exact go rfl hal ht rfl (by simp)
      · simp only [DbEnv.act, hn, if_neg h0]; exact dead (by simp)
  | closeLk l =>
    have ht := truncOk_of (hk.tail (by simp))
    cases hn : (s.procs p).fds l with
    | none => simp only [DbEnv.act, hn]; exact dead (by simp)
    | some i => simp only [DbEnv.act, hn]; exact go rfl hal ht rfl (by simp)
  | unlinkLk l =>
    have ht := truncOk_of (hk.tail (by simp))
    cases hn : s.names l with
    | none => simp only [DbEnv.act, hn]; exact dead (by simp)
    | some i => simp only [DbEnv.act, hn]; exact go rfl hal ht rfl (by simp)
  | openEnv => exact go rfl hal (truncOk_of (hk.tail (by simp))) rfl (by simp)
  | closeEnv => exact go rfl hal (truncOk_of (hk.tail (by simp))) rfl (by simp)
  | closeDb d => exact go rfl hal (truncOk_of (hk.tail (by simp))) rfl (by simp)
  | work => exact go rfl hal (truncOk_of (hk.tail (by simp))) rfl (by simp)
  | destroy d =>
    have ht := truncOk_of (hk.tail (by simp))
    by_cases h0 : grp d = .files ∧ (s.procs p).files = false
    · simp only [DbEnv.act, if_pos h0]; exact go rfl hal ht rfl (by simp)
    · simp only [DbEnv.act, if_neg h0]; exact go rfl hal ht rfl (by simp)
  | openDb d ro =>
    have ht := truncOk_of (hk.tail (by simp))
    cases ro with
    | true =>
      cases hn : s.fmt d with
      | none => simp only [DbEnv.act, hn]; exact dead (by simp)
      | some x => simp only [DbEnv.act, hn]; exact go rfl hal ht rfl (by simp)
    | false => exact go rfl hal ht rfl (by simp)

theorem Writes.step {s : Sys} (h : Writes s) {e : Ev} (he : ∀ p g, e = .exit p → (s.procs p).prog.head? ≠ some (.writeVer g)) :
    Writes (step grp dbs s e) := by
  cases e with
  | start p k ver =>
    simp only [DbEnv.step]
    by_cases hp : (s.procs p).prog = []
    · rw [if_pos hp]
      refine h.same p (fun q hq => upd_ne _ _ hq) ?_ (by simp [Sys.setProc]) rfl (by simp [hp])
      simp only [Sys.setProc, upd_self]
      exact truncOk_of (trunc_prog k)
    · rw [if_neg hp]; exact h
  | run p =>
    cases hp : (s.procs p).prog with
    | nil => simp only [DbEnv.step, hp]; exact h
    | cons a rest => simp only [DbEnv.step, hp]; exact h.act hp
  | exit p => exact h.die p fun g => he p g rfl
  | fork p c =>
    simp only [DbEnv.step]
    by_cases hc : (s.procs p).alive = true ∧ (s.procs c).alive = false
    · rw [if_pos hc]
      have := h.alive c hc.2
      exact h.same c (fun q hq => upd_ne _ _ hq) (by simp [Sys.setProc, TruncOk]) (by simp [Sys.setProc]) rfl (by simp [this])
    · rw [if_neg hc]; exact h
  | clean => exact ⟨h.prog, h.alive, h.empty⟩

/-- Version files are only left empty by processes killed between emptying and writing them. -/
theorem never_left_empty {v : Grp → Option (Option Nat)} (hv : ∀ g, v g ≠ some none) (f : Str → Option Nat) (es : List Ev)
    (hk : NotKilledWriting grp dbs (boot v f) es) (hi : Idle (exec grp dbs (boot v f) es)) (g : Grp) :
    (exec grp dbs (boot v f) es).verFile g ≠ some none := by
  have h0 : Writes (boot v f) := ⟨fun _ => trivial, fun _ _ => rfl, fun g hg => absurd hg (hv g)⟩
  have : Writes (exec grp dbs (boot v f) es) := by
    clear hi
    induction es using Pisi.snoc_induction with
    | h0 => exact h0
    | hs es e ih =>
      rw [exec_append]
      refine (ih fun pre post p g he => hk pre (post ++ [e]) p g (by rw [he]; simp)).step ?_
      rintro p g rfl
      exact hk es [] p g (by simp)
  intro hg
  obtain ⟨p, hp⟩ := this.empty g hg
  rw [hi p] at hp
  cases hp

/-- What is wanted: whatever was interrupted, `rebuild-db` gets through. -/
def RebuildRepairsFull : Prop := ∀ (grp : Str → Grp) (dbs : List Str) (v : Grp → Option (Option Nat)) (f : Str → Option Nat)
  (es : List Ev) (p : Pid) (ver : Grp → Nat), dbs.Nodup → .clean ∉ es → (∀ g, v g ≠ some none) → Idle (exec grp dbs (boot v f) es) →
  (∀ c, Forked es c → ((exec grp dbs (boot v f) es).procs c).alive = false) →
  (∀ g c, (exec grp dbs (boot v f) es).verFile g = some (some c) → c ≤ ver g) →
  ∃ n, let t := exec grp dbs (exec grp dbs (boot v f) es) (.start p (.rebuild true) ver :: runs p n)
    (t.procs p).prog = [] ∧ (t.procs p).alive = true

/-- The first command ever, killed while it writes the version. -/
def killedWriting : List Ev := .start 1 .write v1 :: (runs 1 2 ++ [.exit 1])

/-- An empty version file stops every command, `rebuild-db` included. -/
theorem rebuild_repairs_refuted : ¬ RebuildRepairsFull := by
  intro h
  obtain ⟨n, h1, h2⟩ := h (fun _ => .main) [] (fun _ => none) (fun _ => none) killedWriting 3 v1 (by simp) (by simp [killedWriting, runs, List.replicate])
    (by simp) (by
      intro p
      by_cases h1 : p = 1
      · subst h1; rfl
      · simp [exec, killedWriting, runs, List.replicate, step, Sys.setProc, Sys.die, act, boot, upd, h1, Kind.prog, writeProg, checkVersion])
    (by
      rintro c ⟨p, hp⟩
      simp [killedWriting, runs, List.replicate] at hp)
    (by
      intro g c hg
      cases g <;> cases hg)
  have h3 : ((exec (fun _ => .main) [] (exec (fun _ => .main) [] (boot (fun _ => none) fun _ => none) killedWriting) (.start 3 (.rebuild true) v1 :: runs 3 2)).procs 3) = {} := rfl
  have e : ∀ n, exec (fun _ => .main) [] (exec (fun _ => .main) [] (boot (fun _ => none) fun _ => none) killedWriting) (.start 3 (.rebuild true) v1 :: runs 3 n) =
    exec (fun _ => .main) [] (step (fun _ => .main) [] (exec (fun _ => .main) [] (boot (fun _ => none) fun _ => none) killedWriting) (.start 3 (.rebuild true) v1)) (runs 3 n) := fun _ => rfl
  rw [e] at h1 h2 h3
  have hu := exec_unique h1 (by rw [h3])
  rw [hu, h3] at h2
  cases h2

/-- The conditions of `rebuild_repairs_partial` met: `rebuild-db` killed before the databases are destroyed, and repeated. -/
example : (fun t : Sys => (t.procs 2).prog = [] ∧ t.fmt ['a'] = some 2 ∧ t.verFile .main = some (some 2))
    (exec (fun _ => .main) [['a']] (boot vf1 fun d => if d = ['a'] then some 1 else none)
      (Ev.start 1 (.rebuild true) (rel 1) :: (runs 1 7 ++ (Ev.exit 1 :: Ev.start 2 (.rebuild true) (rel 1) :: runs 2 30)))) := by decide

/-! ## C105 -/

/-- The actions of a command that only reads. -/
def ReadAct : Act → Prop
  | .check _ w u => w = false ∧ u = false
  | .openDb _ ro => ro = true
  | .work => True
  | _ => False

/-- Two executions that agree but for the processes among `R`. -/
structure Agree (R : Pid → Bool) (s t : Sys) : Prop where
  ver : s.verFile = t.verFile
  fmt : s.fmt = t.fmt
  names : s.names = t.names
  next : s.next = t.next
  locked : s.lockedBy = t.lockedBy
  procs : ∀ q, R q = false → s.procs q = t.procs q
  prog : ∀ p, R p = true → ∀ a ∈ (s.procs p).prog, ReadAct a
  free : ∀ p, R p = true → ∀ i, p ∉ s.lockedBy i

/-- Something that only changes a reader. -/
theorem Agree.alone {R : Pid → Bool} {s t u : Sys} (h : Agree R s t) {p : Pid} (hR : R p = true) (h1 : u.verFile = s.verFile) (h2 : u.fmt = s.fmt)
    (h3 : u.names = s.names) (h4 : u.next = s.next) (h5 : u.lockedBy = s.lockedBy) (h6 : ∀ q, q ≠ p → u.procs q = s.procs q)
    (h7 : ∀ a ∈ (u.procs p).prog, ReadAct a) : Agree R u t := by
  refine ⟨h1.trans h.ver, h2.trans h.fmt, h3.trans h.names, h4.trans h.next, h5.trans h.locked, fun q hq => ?_, fun q hq => ?_, by rw [h5]; exact h.free⟩
  · have : q ≠ p := fun e => by rw [e, hR] at hq; cases hq
    rw [h6 q this]; exact h.procs q hq
  · by_cases hqp : q = p
    · rw [hqp]; exact h7
    · rw [h6 q hqp]; exact h.prog q hq

theorem Agree.die_alone {R : Pid → Bool} {s t : Sys} (h : Agree R s t) {p : Pid} (hR : R p = true) : Agree R (s.die p) t := by
  refine h.alone hR rfl rfl rfl rfl ?_ (fun q hq => upd_ne _ _ hq) (by simp [Sys.die])
  funext i
  refine List.filter_eq_self.mpr fun q hq => ?_
  have : q ≠ p := fun e => h.free p hR i (e ▸ hq)
  simpa using this

theorem Agree.act_alone {R : Pid → Bool} {s t : Sys} (h : Agree R s t) {p : Pid} (hR : R p = true) {a : Act} {rest : List Act}
    (hp : (s.procs p).prog = a :: rest) : Agree R (act grp s p a rest) t := by
  have hr := h.prog p hR
  rw [hp] at hr
  have ha := hr a List.mem_cons_self
  have hrest : ∀ b ∈ rest, ReadAct b := fun b hb => hr b (List.mem_cons_of_mem _ hb)
  cases a with
  | check g w u =>
    obtain ⟨rfl, rfl⟩ := ha
    cases hc : checkVersion (s.verFile g) ((s.procs p).ver g) false false with
    | none => simp only [act, hc]; exact h.die_alone hR
    | some b =>
      have hb : b = false := by
        match hf : s.verFile g, hc with
        | some (some c), hc => exact (check_fixed hc).1
      subst hb
      simp only [act, hc]
      exact h.alone hR rfl rfl rfl rfl rfl (fun q hq => upd_ne _ _ hq) (by simp only [Sys.setProc, upd_self]; exact hrest)
  | openDb d ro =>
    obtain rfl : ro = true := ha
    cases hn : s.fmt d with
    | none => simp only [act, hn]; exact h.die_alone hR
    | some x =>
      simp only [act, hn]
      exact h.alone hR rfl rfl rfl rfl rfl (fun q hq => upd_ne _ _ hq) (by simp only [Sys.setProc, upd_self]; exact hrest)
  | work => exact h.alone hR rfl rfl rfl rfl rfl (fun q hq => upd_ne _ _ hq) (by simp only [act, Sys.setProc, upd_self]; exact hrest)
  | _ => exact ha.elim

/-- Something that changes another process, in both executions alike. -/
theorem Agree.both {R : Pid → Bool} {s t s' t' : Sys} (h : Agree R s t) {p : Pid} (hR : R p = false) {q q' : Proc} (hq : q = q')
    (h1 : s'.verFile = t'.verFile) (h2 : s'.fmt = t'.fmt) (h3 : s'.names = t'.names) (h4 : s'.next = t'.next) (h5 : s'.lockedBy = t'.lockedBy)
    (h6 : s'.procs = upd s.procs p q) (h7 : t'.procs = upd t.procs p q')
    (h8 : ∀ r, R r = true → ∀ i, r ∉ s'.lockedBy i) : Agree R s' t' := by
  subst hq
  refine ⟨h1, h2, h3, h4, h5, fun r hr => ?_, fun r hr => ?_, h8⟩
  · rw [h6, h7]
    by_cases hrp : r = p
    · subst hrp; rw [upd_self, upd_self]
    · rw [upd_ne _ _ hrp, upd_ne _ _ hrp]; exact h.procs r hr
  · have : r ≠ p := fun e => by rw [e, hR] at hr; cases hr
    rw [h6, upd_ne _ _ this]; exact h.prog r hr

theorem Agree.die_both {R : Pid → Bool} {s t : Sys} (h : Agree R s t) {p : Pid} (hR : R p = false) : Agree R (s.die p) (t.die p) := by
  refine h.both hR (q := {}) rfl h.ver h.fmt h.names h.next ?_ rfl rfl ?_
  · simp only [Sys.die, h.locked]
  · intro r hr i hi
    exact h.free r hr i (List.mem_filter.mp hi).1

theorem Agree.act_both {R : Pid → Bool} {s t : Sys} (h : Agree R s t) {p : Pid} (hR : R p = false) (a : Act) (rest : List Act) :
    Agree R (act grp s p a rest) (act grp t p a rest) := by
  have e := h.procs p hR
  have hne : ∀ r, R r = true → r ≠ p := fun r hr e => by rw [e, hR] at hr; cases hr
  cases a with
  | probe => exact h.both hR (by rw [h.ver, e]) h.ver h.fmt h.names h.next h.locked rfl rfl h.free
  | check g w u =>
    cases hc : checkVersion (s.verFile g) ((s.procs p).ver g) w u with
    | none =>
      have hc' := hc
      rw [h.ver, e] at hc'
      simp only [act, hc, hc']; exact h.die_both hR
    | some b =>
      have hc' := hc
      rw [h.ver, e] at hc'
      cases b <;> simp only [act, hc, hc'] <;> exact h.both hR (by rw [e]) h.ver h.fmt h.names h.next h.locked rfl rfl h.free
  | trunc g => exact h.both hR (by rw [e]) (by simp only [act, h.ver]) h.fmt h.names h.next h.locked rfl rfl h.free
  | writeVer g => exact h.both hR (by rw [e]) (by simp only [act, h.ver, e]) h.fmt h.names h.next h.locked rfl rfl h.free
  | openLk l =>
    cases hn : s.names l with
    | some i =>
      have hn' := hn
      rw [h.names] at hn'
      simp only [act, hn, hn']
      exact h.both hR (by rw [e]) h.ver h.fmt h.names h.next h.locked rfl rfl h.free
    | none =>
      have hn' := hn
      rw [h.names] at hn'
      simp only [act, hn, hn']
      exact h.both hR (by rw [e, h.next]) h.ver h.fmt (by simp only [h.names, h.next]) (by simp only [h.next]) h.locked rfl rfl h.free
  | flock l =>
    cases hn : (s.procs p).fds l with
    | none =>
      have hn' := hn
      rw [e] at hn'
      simp only [act, hn, hn']; exact h.die_both hR
    | some i =>
      have hn' := hn
      rw [e] at hn'
      by_cases h0 : s.lockedBy i = []
      · have h0' := h0
        rw [h.locked] at h0'
        simp only [act, hn, hn', if_pos h0, if_pos h0']
        refine h.both hR (by rw [e]) h.ver h.fmt h.names h.next (by simp only [h.locked]) rfl rfl ?_
        intro r hr j hj
        dsimp only at hj
        by_cases hji : j = i
        · subst hji; rw [upd_self, List.mem_singleton] at hj; exact hne r hr hj
        · rw [upd_ne _ _ hji] at hj; exact h.free r hr j hj
      · have h0' := h0
        rw [h.locked] at h0'
        simp only [act, hn, hn', if_neg h0, if_neg h0']; exact h.die_both hR
  | closeLk l =>
    cases hn : (s.procs p).fds l with
    | none =>
      have hn' := hn
      rw [e] at hn'
      simp only [act, hn, hn']; exact h.die_both hR
    | some i =>
      have hn' := hn
      rw [e] at hn'
      simp only [act, hn, hn']
      refine h.both hR (by rw [e]) h.ver h.fmt h.names h.next (by simp only [h.locked]) rfl rfl ?_
      intro r hr j hj
      dsimp only at hj
      by_cases hji : j = i
      · subst hji; rw [upd_self] at hj; exact h.free r hr j (List.mem_filter.mp hj).1
      · rw [upd_ne _ _ hji] at hj; exact h.free r hr j hj
  | unlinkLk l =>
    cases hn : s.names l with
    | none =>
      have hn' := hn
      rw [h.names] at hn'
      simp only [act, hn, hn']; exact h.die_both hR
    | some i =>
      have hn' := hn
      rw [h.names] at hn'
      simp only [act, hn, hn']
      exact h.both hR (by rw [e]) h.ver h.fmt (by simp only [h.names]) h.next h.locked rfl rfl h.free
  | openEnv => exact h.both hR (by rw [e]) h.ver h.fmt h.names h.next h.locked rfl rfl h.free
  | closeEnv => exact h.both hR (by rw [e]) h.ver h.fmt h.names h.next h.locked rfl rfl h.free
  | closeDb d => exact h.both hR (by rw [e]) h.ver h.fmt h.names h.next h.locked rfl rfl h.free
  | work => exact h.both hR (by rw [e]) h.ver h.fmt h.names h.next h.locked rfl rfl h.free
  | destroy d =>
    by_cases h0 : grp d = .files ∧ (s.procs p).files = false
    · have h0' := h0
      rw [e] at h0'
      simp only [act, if_pos h0, if_pos h0']; exact h.both hR (by rw [e]) h.ver h.fmt h.names h.next h.locked rfl rfl h.free
    · have h0' := h0
      rw [e] at h0'
      simp only [act, if_neg h0, if_neg h0']; exact h.both hR (by rw [e]) h.ver (by simp only [h.fmt]) h.names h.next h.locked rfl rfl h.free
  | openDb d ro =>
    cases ro with
    | true =>
      cases hn : s.fmt d with
      | none =>
        have hn' := hn
        rw [h.fmt] at hn'
        simp only [act, hn, hn']; exact h.die_both hR
      | some x =>
        have hn' := hn
        rw [h.fmt] at hn'
        simp only [act, hn, hn']; exact h.both hR (by rw [e]) h.ver h.fmt h.names h.next h.locked rfl rfl h.free
    | false => exact h.both hR (by rw [e]) h.ver (by simp only [act, h.fmt, e]) h.names h.next h.locked rfl rfl h.free

theorem readAct_prog : ∀ a ∈ readProg dbs, ReadAct a := by
  intro a ha
  simp only [readProg, List.mem_append, List.mem_cons, List.not_mem_nil, or_false, List.mem_map] at ha
  rcases ha with ((rfl | rfl) | ⟨d, _, rfl⟩) | rfl
  · exact ⟨rfl, rfl⟩
  · exact ⟨rfl, rfl⟩
  · exact (rfl : true = true)
  · exact True.intro

theorem Agree.step_alone {R : Pid → Bool} {s t : Sys} (h : Agree R s t) {e : Ev} (he : e.of R = true)
    (h1 : ∀ p k ver, e = .start p k ver → k = .read) (h2 : ∀ p c, e = .fork p c → R c = R p) : Agree R (step grp dbs s e) t := by
  cases e with
  | start p k ver =>
    obtain rfl := h1 p k ver rfl
    simp only [step]
    by_cases hp : (s.procs p).prog = []
    · rw [if_pos hp]
      exact h.alone (p := p) he rfl rfl rfl rfl rfl (fun q hq => upd_ne _ _ hq) (by simp only [Sys.setProc, upd_self]; exact readAct_prog)
    · rw [if_neg hp]; exact h
  | run p =>
    cases hp : (s.procs p).prog with
    | nil => simp only [step, hp]; exact h
    | cons a rest => simp only [step, hp]; exact h.act_alone he hp
  | exit p => exact h.die_alone he
  | fork p c =>
    simp only [step]
    by_cases hc : (s.procs p).alive = true ∧ (s.procs c).alive = false
    · rw [if_pos hc]
      have hR : R c = true := (h2 p c rfl).trans he
      refine h.alone (p := c) hR rfl rfl rfl rfl ?_ (fun q hq => upd_ne _ _ hq) (by simp [Sys.setProc])
      funext i
      exact if_neg (h.free p he i)
    · rw [if_neg hc]; exact h
  | clean => cases he

theorem Agree.step_both {R : Pid → Bool} {s t : Sys} (h : Agree R s t) {e : Ev} (he : e.of R = false)
    (h2 : ∀ p c, e = .fork p c → R c = R p) : Agree R (step grp dbs s e) (step grp dbs t e) := by
  cases e with
  | start p k ver =>
    have hR : R p = false := he
    have e := h.procs p hR
    simp only [step, ← e]
    by_cases hp : (s.procs p).prog = []
    · rw [if_pos hp, if_pos hp]
      exact h.both hR rfl h.ver h.fmt h.names h.next h.locked rfl rfl h.free
    · rw [if_neg hp, if_neg hp]; exact h
  | run p =>
    have hR : R p = false := he
    have e := h.procs p hR
    cases hp : (s.procs p).prog with
    | nil =>
      have hp' := hp
      rw [e] at hp'
      simp only [step, hp, hp']; exact h
    | cons a rest =>
      have hp' := hp
      rw [e] at hp'
      simp only [step, hp, hp']; exact h.act_both hR a rest
  | exit p => exact h.die_both he
  | fork p c =>
    have hR : R p = false := he
    have hc := (h2 p c rfl).trans hR
    have e := h.procs p hR
    have e' := h.procs c hc
    simp only [step, ← e, ← e']
    by_cases h0 : (s.procs p).alive = true ∧ (s.procs c).alive = false
    · rw [if_pos h0, if_pos h0]
      refine h.both hc rfl h.ver h.fmt h.names h.next (by simp only [h.locked]) rfl rfl ?_
      intro r hr i hi
      dsimp only at hi
      by_cases hpi : p ∈ s.lockedBy i
      · rw [if_pos hpi] at hi
        rcases List.mem_cons.mp hi with rfl | hi
        · rw [hc] at hr; cases hr
        · exact h.free r hr i hi
      · rw [if_neg hpi] at hi; exact h.free r hr i hi
    · rw [if_neg h0, if_neg h0]; exact h
  | clean => exact ⟨h.ver, h.fmt, rfl, h.next, h.locked, h.procs, h.prog, h.free⟩

/-- Commands that only read influence nothing and nobody: without them, the version files, the databases, the locks and all other
processes are the same. -/
theorem readers_harmless (R : Pid → Bool) (v : Grp → Option (Option Nat)) (f : Str → Option Nat) (es : List Ev) (h : OnlyRead R es) :
    let s := exec grp dbs (boot v f) es
    let t := exec grp dbs (boot v f) (es.filter fun e => !e.of R)
    s.verFile = t.verFile ∧ s.fmt = t.fmt ∧ s.lockedBy = t.lockedBy ∧ s.names = t.names ∧ ∀ q, R q = false → s.procs q = t.procs q := by
  have h0 : Agree R (boot v f) (boot v f) := ⟨rfl, rfl, rfl, rfl, rfl, fun _ _ => rfl, fun _ _ a ha => (by cases ha), fun _ _ _ ha => (by cases ha)⟩
  have : ∀ (es : List Ev) (s t : Sys), OnlyRead R es → Agree R s t → Agree R (exec grp dbs s es) (exec grp dbs t (es.filter fun e => !e.of R)) := by
    intro es
    induction es with
    | nil => intro s t _ h; exact h
    | cons e es ih =>
      intro s t ho h
      have ho' : OnlyRead R es := ⟨fun p k ver hm => ho.1 p k ver (List.mem_cons_of_mem _ hm), fun p c hm => ho.2 p c (List.mem_cons_of_mem _ hm)⟩
      have hfk : ∀ p c, e = .fork p c → R c = R p := fun p c he => ho.2 p c (he ▸ List.mem_cons_self)
      cases he : e.of R with
      | true =>
        rw [List.filter_cons_of_neg (by simp [he])]
        refine ih _ _ ho' (h.step_alone he (fun p k ver hs => ho.1 p k ver (hs ▸ List.mem_cons_self) ?_) hfk)
        subst hs; exact he
      | false =>
        rw [List.filter_cons_of_pos (by simp [he])]
        exact ih _ _ ho' (h.step_both he hfk)
  obtain ⟨a1, a2, a3, _, a5, a6, _⟩ := this es _ _ h h0
  exact ⟨a1, a2, a5, a3, a6⟩

theorem read_opens {p : Pid} (ds : List Str) : ∀ {s : Sys}, (s.procs p).prog = ds.map (fun d => .openDb d true) ++ [.work] →
    (∀ d ∈ ds, s.fmt d ≠ none) → ((exec grp dbs s (runs p ds.length)).procs p).prog = [.work] := by
  induction ds with
  | nil => intro s hp _; exact hp
  | cons d ds ih =>
    intro s hp hf
    have e := exec_run_cons (grp := grp) (dbs := dbs) (s := s) (p := p) hp
    cases hfm : s.fmt d with
    | none => exact absurd hfm (hf d List.mem_cons_self)
    | some x =>
      simp only [act, hfm] at e
      rw [List.length_cons, Nat.add_comm, exec_runs_add, e]
      exact ih (by simp [Sys.setProc]) fun d' hd' => hf d' (List.mem_cons_of_mem _ hd')

/-- A command that only reads gets to its work whatever locks others have, if the version files are its own and the databases
exist. -/
theorem readers_not_blocked (s : Sys) (p : Pid) (ver : Grp → Nat) (hp : (s.procs p).prog = []) (hv : ∀ g, s.verFile g = some (some (ver g)))
    (hf : ∀ d ∈ dbs, s.fmt d ≠ none) :
    ((exec grp dbs s (.start p .read ver :: runs p (2 + dbs.length))).procs p).prog = [.work] := by
  show ((exec grp dbs (step grp dbs s (.start p .read ver)) (runs p (2 + dbs.length))).procs p).prog = _
  have e0 : step grp dbs s (.start p .read ver) = s.setProc p { s.procs p with alive := true, prog := readProg dbs, ver := ver, files := false } := by
    simp only [step, if_pos hp]; rfl
  rw [e0, Nat.add_assoc 1 1, exec_runs_add, exec_runs_add]
  have hc : ∀ g, checkVersion (s.verFile g) (ver g) false false = some false := fun g => by rw [hv]; simp [checkVersion]
  have pass : ∀ {t : Sys} {g : Grp} {rest : List Act}, (t.procs p).prog = .check g false false :: rest →
      checkVersion (t.verFile g) ((t.procs p).ver g) false false = some false →
      exec grp dbs t (runs p 1) = t.setProc p { t.procs p with prog := rest } := by
    intro t g rest h1 h2
    rw [exec_run_cons h1]
    simp only [act, h2]
  generalize ht : s.setProc p { s.procs p with alive := true, prog := readProg dbs, ver := ver, files := false } = t
  have q1 := pass (t := t) (g := .main) (rest := .check .files false false :: (dbs.map (fun d => .openDb d true) ++ [.work])) (by subst ht; simp [Sys.setProc, readProg])
    (by subst ht; simp [Sys.setProc, hc])
  rw [q1]
  generalize hu : t.setProc p { t.procs p with prog := .check .files false false :: (dbs.map (fun d => .openDb d true) ++ [.work]) } = u
  have q2 := pass (t := u) (g := .files) (rest := dbs.map (fun d => .openDb d true) ++ [.work]) (by subst hu; simp [Sys.setProc]) (by subst hu; subst ht; simp [Sys.setProc, hc])
  rw [q2]
  exact read_opens dbs (by simp [Sys.setProc]) (by subst hu; subst ht; exact hf)

/-- A reader at work while a writer has everything open. -/
example : (fun s : Sys => (s.procs 1).dbOpen = [['a']] ∧ (s.procs 2).prog = [.work])
    (exec (fun _ => .main) [['a']] (boot vf1 fun _ => none) (Ev.start 1 .write v1 :: (runs 1 8 ++ (Ev.start 2 .read v1 :: runs 2 3)))) := by decide

example : OnlyRead (· == 2) (Ev.start 1 .write v1 :: (runs 1 8 ++ (Ev.start 2 .read v1 :: runs 2 3))) := by
  constructor
  · intro p k ver h hp
    simp [runs, List.replicate] at h
    rcases h with ⟨rfl, _⟩ | ⟨_, rfl, _⟩
    · cases hp
    · rfl
  · intro p c h
    simp [runs, List.replicate] at h

end Pisi.DbEnv
