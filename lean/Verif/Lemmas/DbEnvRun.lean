import Verif.Lemmas.DbEnv
import Verif.Spec.DbEnv

/-!
# Processes running by themselves
-/
namespace Pisi.DbEnv

variable {grp : Str → Grp} {dbs : List Str}

theorem exec_append (s : Sys) (a b : List Ev) : exec grp dbs s (a ++ b) = exec grp dbs (exec grp dbs s a) b := by
  simp [exec, List.foldl_append]

theorem runs_add (p : Pid) (m n : Nat) : runs p (m + n) = runs p m ++ runs p n := List.replicate_append_replicate.symm

theorem exec_runs_add (s : Sys) (p : Pid) (m n : Nat) :
    exec grp dbs s (runs p (m + n)) = exec grp dbs (exec grp dbs s (runs p m)) (runs p n) := by
  rw [runs_add, exec_append]

theorem exec_run_cons {s : Sys} {p : Pid} {a : Act} {rest : List Act} (hp : (s.procs p).prog = a :: rest) :
    exec grp dbs s (runs p 1) = act grp s p a rest := by
  show step grp dbs s (.run p) = _
  simp only [step, hp]

theorem runs_clean (p : Pid) (n : Nat) : ∀ e ∈ runs p n, e ≠ Ev.clean := by
  intro e he h
  rw [runs, List.mem_replicate] at he
  rw [he.2] at h
  cases h

theorem runs_fork (p : Pid) (n : Nat) (K : Pid → Prop) : ∀ q c, Ev.fork q c ∈ runs p n → K c := by
  intro q c he
  rw [runs, List.mem_replicate] at he
  cases he.2

theorem Inv.runs {K : Pid → Prop} (hd : dbs.Nodup) {s : Sys} {L : Pid → Loc} {lab : Nat → Lk} (h : Inv K s L lab) (p : Pid) (n : Nat) :
    ∃ L' lab', Inv K (DbEnv.exec grp dbs s (DbEnv.runs p n)) L' lab' :=
  h.exec hd _ (runs_clean p n) (runs_fork p n K)

/-- Nothing to do. -/
theorem exec_done {s : Sys} {p : Pid} (hp : (s.procs p).prog = []) (n : Nat) : exec grp dbs s (runs p n) = s := by
  induction n with
  | zero => rfl
  | succ n ih =>
    rw [Nat.add_comm, exec_runs_add]
    have : exec grp dbs s (runs p 1) = s := by
      show step grp dbs s (.run p) = s
      simp only [step, hp]
    rw [this, ih]

/-- The end is always the same. -/
theorem exec_unique {s : Sys} {p : Pid} {m n : Nat} (hm : ((exec grp dbs s (runs p m)).procs p).prog = [])
    (hn : ((exec grp dbs s (runs p n)).procs p).prog = []) : exec grp dbs s (runs p m) = exec grp dbs s (runs p n) := by
  rcases Nat.le_total m n with h | h
  · obtain ⟨k, rfl⟩ := Nat.exists_eq_add_of_le h
    rw [exec_runs_add, exec_done hm]
  · obtain ⟨k, rfl⟩ := Nat.exists_eq_add_of_le h
    rw [exec_runs_add, exec_done hn]

/-- One process does not touch another. -/
theorem act_others (s : Sys) (p : Pid) (a : Act) (rest : List Act) {q : Pid} (hq : q ≠ p) :
    (act grp s p a rest).procs q = s.procs q := by
  have h1 : ∀ r, (s.setProc p r).procs q = s.procs q := fun r => upd_ne _ _ hq
  have h2 : (s.die p).procs q = s.procs q := upd_ne _ _ hq
  cases a with
  | check g w u =>
    cases hv : checkVersion (s.verFile g) ((s.procs p).ver g) w u with
    | none => simp only [act, hv]; exact h2
    | some b => cases b <;> simp only [act, hv] <;> exact h1 _
  | openLk l => cases hn : s.names l <;> simp only [act, hn] <;> exact h1 _
  | flock l =>
    cases hn : (s.procs p).fds l with
    | none => simp only [act, hn]; exact h2
    | some i =>
      by_cases h0 : s.lockedBy i = []
      · simp only [act, hn, if_pos h0]; exact h1 _
      · simp only [act, hn, if_neg h0]; exact h2
  | closeLk l =>
    cases hn : (s.procs p).fds l with
    | none => simp only [act, hn]; exact h2
    | some i => simp only [act, hn]; exact h1 _
  | unlinkLk l =>
    cases hn : s.names l with
    | none => simp only [act, hn]; exact h2
    | some i => simp only [act, hn]; exact h1 _
  | openDb d ro =>
    cases ro with
    | true =>
      cases hf : s.fmt d with
      | none => simp only [act, hf]; exact h2
      | some i => simp only [act, hf]; exact h1 _
    | false => exact h1 _
  | destroy d =>
    by_cases hc : grp d = .files ∧ (s.procs p).files = false
    · simp only [act, if_pos hc]; exact h1 _
    · simp only [act, if_neg hc]; exact h1 _
  | _ => exact h1 _

theorem runs_others {s : Sys} {p q : Pid} (hq : q ≠ p) (n : Nat) : (exec grp dbs s (runs p n)).procs q = s.procs q := by
  induction n with
  | zero => rfl
  | succ n ih =>
    rw [exec_runs_add]
    generalize exec grp dbs s (runs p n) = t at ih ⊢
    rw [← ih]
    cases hp : (t.procs p).prog with
    | nil => rw [exec_done hp]
    | cons a rest => rw [exec_run_cons hp]; exact act_others t p a rest hq

/-! ## What an action does to the databases -/

/-- The databases and the record of their opening. -/
abbrev Content := (Str → Option Nat) × List (Nat × Nat)

/-- The effect of an action of a process that does not fail. -/
def eff (grp : Str → Grp) (ver : Grp → Nat) (files : Bool) (c : Content) : Act → Content
  | .destroy d => if grp d = .files ∧ files = false then c else (upd c.1 d none, c.2)
  | .openDb d false => (upd c.1 d (some ((c.1 d).getD (ver (grp d)))), c.2 ++ [(ver (grp d), (c.1 d).getD (ver (grp d)))])
  | _ => c

/-- A process that has the lock of the environment does one action. -/
theorem holder_act {K : Pid → Prop} {s : Sys} {L : Pid → Loc} {lab : Nat → Lk} (h : Inv K s L lab) {p : Pid} {a : Act} {rest : List Act}
    (hp : (s.procs p).prog = a :: rest) (he : (L p).env = true) :
    let t := act grp s p a rest
    (t.procs p).ver = (s.procs p).ver ∧ (t.procs p).files = (s.procs p).files ∧ t.verFile = s.verFile ∧
      (t.fmt, t.log) = eff grp (s.procs p).ver (s.procs p).files (s.fmt, s.log) a := by
  have hok := h.ok p
  rw [hp] at hok
  have hpre := hok.1
  have hself : ∀ (q : Proc), (s.setProc p q).procs p = q := fun q => upd_self _ _ _
  have no : (L p).env = false → ∀ {P : Prop}, P := fun h1 => by rw [h1] at he; cases he
  cases a with
  | probe => exact no hpre
  | check g w u => exact no hpre
  | trunc g => exact no hpre
  | writeVer g => exact no hpre
  | openLk l => cases hn : s.names l <;> simp [act, hn, Sys.setProc, eff]
  | flock l =>
    cases l with
    | env => exact no hpre
    | db d => obtain ⟨i, h1, h2, _⟩ := h.flockDb (grp := grp) hp; simp [act, h1, h2, Sys.setProc, eff]
  | closeLk l =>
    cases l with
    | env => obtain ⟨⟨i, h1⟩, _⟩ := h.closeEnvLk (grp := grp) hp; simp [act, h1, Sys.setProc, eff]
    | db d => obtain ⟨⟨i, h1⟩, _⟩ := h.closeDbLk (grp := grp) hp; simp [act, h1, Sys.setProc, eff]
  | unlinkLk l =>
    cases l with
    | env => exact hpre.elim
    | db d => obtain ⟨⟨i, h1⟩, _⟩ := h.unlinkDb (grp := grp) hp; simp [act, h1, Sys.setProc, eff]
  | openDb d ro =>
    cases ro with
    | true => exact no hpre
    | false => simp [act, Sys.setProc, eff]
  | destroy d =>
    by_cases hc : grp d = .files ∧ (s.procs p).files = false
    · simp [act, eff, hc, Sys.setProc]
    · simp [act, eff, hc, Sys.setProc]
  | openEnv => simp [act, Sys.setProc, eff]
  | closeEnv => simp [act, Sys.setProc, eff]
  | closeDb d => simp [act, Sys.setProc, eff]
  | work => simp [act, Sys.setProc, eff]

theorem next_env {L : Loc} {a : Act} (he : L.env = true) (ha : a ≠ .closeLk .env) : (L.next a).env = true := by
  cases a with
  | openLk l => cases l <;> exact he
  | flock l => cases l <;> first | rfl | exact he
  | closeLk l =>
    cases l with
    | env => exact absurd rfl ha
    | db d => exact he
  | unlinkLk l => cases l <;> exact he
  | openDb d ro => cases ro <;> exact he
  | _ => exact he

/-- A process that has the lock of the environment goes on. -/
theorem holder_runs {K : Pid → Prop} {p : Pid} (as : List Act) : ∀ {s : Sys} {L : Pid → Loc} {lab : Nat → Lk} {r : List Act}, Inv K s L lab →
    (s.procs p).prog = as ++ r → (L p).env = true → (s.procs p).alive = true → (∀ a ∈ as.dropLast, a ≠ .closeLk .env) →
    ∃ L' lab', let t := exec grp dbs s (runs p as.length)
      Inv K t L' lab' ∧ (t.procs p).prog = r ∧ L' p = as.foldl Loc.next (L p) ∧ (t.procs p).alive = true ∧
      (t.procs p).ver = (s.procs p).ver ∧ (t.procs p).files = (s.procs p).files ∧ t.verFile = s.verFile ∧
      (t.fmt, t.log) = as.foldl (eff grp (s.procs p).ver (s.procs p).files) (s.fmt, s.log) := by
  induction as with
  | nil => intro s L lab r h hp he hal _; exact ⟨L, lab, h, hp, rfl, hal, rfl, rfl, rfl, rfl⟩
  | cons a as ih =>
    intro s L lab r h hp he hal hne
    have hp' : (s.procs p).prog = a :: (as ++ r) := hp
    obtain ⟨L1, lab1, h1, h2⟩ := h.act_run (grp := grp) hp'
    obtain ⟨h3, h4, h5⟩ := h2 he
    obtain ⟨g1, g2, g3, g4⟩ := holder_act (grp := grp) h hp' he
    have hrun := exec_run_cons (grp := grp) (dbs := dbs) hp'
    rw [List.length_cons, Nat.add_comm, exec_runs_add, hrun]
    cases as with
    | nil => exact ⟨L1, lab1, h1, h4, h3, h5, g1, g2, g3, g4⟩
    | cons b bs =>
      have hea : (L1 p).env = true := by
        rw [h3]; exact next_env he (hne a (by simp))
      obtain ⟨L2, lab2, k1, k2, k3, k4, k5, k6, k7, k8⟩ := ih h1 h4 hea h5 (fun x hx => hne x (by
        rw [List.dropLast_cons_of_ne_nil (by simp)]; exact List.mem_cons_of_mem _ hx))
      refine ⟨L2, lab2, k1, k2, ?_, k4, ?_, ?_, ?_, ?_⟩
      · rw [k3, h3]; rfl
      · rw [k5, g1]
      · rw [k6, g2]
      · rw [k7, g3]
      · rw [k8, g1, g2, g4]; rfl

theorem foldl_next_openDbs (ds : List Str) : ∀ (L : Loc), (openDbs ds).foldl Loc.next L =
    { L with used := ds.reverse ++ L.used, held := ds.reverse ++ L.held, dbOpen := ds.reverse ++ L.dbOpen,
             fresh := if ds = [] then L.fresh else none } := by
  induction ds with
  | nil => intro L; simp [openDbs]
  | cons d ds ih =>
    intro L
    show (openDbs ds).foldl Loc.next { L with used := d :: L.used, held := d :: L.held, dbOpen := d :: L.dbOpen, fresh := none } = _
    rw [ih]
    simp

theorem eff_openDbs {ver : Grp → Nat} {fl : Bool} {c : Content} {d : Str} :
    [Act.openLk (.db d), .flock (.db d), .openDb d false].foldl (eff grp ver fl) c = eff grp ver fl c (.openDb d false) := rfl

/-- What opening all databases does. -/
theorem foldl_eff_openDbs {ver : Grp → Nat} {fl : Bool} (ds : List Str) : ∀ (c : Content),
    ((∀ d ∈ ds, c.1 d = none ∨ c.1 d = some (ver (grp d))) →
      (∀ d ∈ ds, ((openDbs ds).foldl (eff grp ver fl) c).1 d = some (ver (grp d))) ∧
      ((∀ e ∈ c.2, e.1 = e.2) → ∀ e ∈ ((openDbs ds).foldl (eff grp ver fl) c).2, e.1 = e.2)) ∧
    (∀ d, d ∉ ds → ((openDbs ds).foldl (eff grp ver fl) c).1 d = c.1 d) ∧
    (∀ d x, c.1 d = some x → ((openDbs ds).foldl (eff grp ver fl) c).1 d = some x) := by
  induction ds with
  | nil => intro c; exact ⟨fun _ => ⟨by simp, fun h => h⟩, fun _ _ => rfl, fun _ _ h => h⟩
  | cons d ds ih =>
    intro c
    have e : (openDbs (d :: ds)).foldl (eff grp ver fl) c = (openDbs ds).foldl (eff grp ver fl) (eff grp ver fl c (.openDb d false)) := rfl
    rw [e]
    obtain ⟨i1, i2, i3⟩ := ih (eff grp ver fl c (.openDb d false))
    refine ⟨?_, ?_, ?_⟩
    · intro hc
      have hd : (c.1 d).getD (ver (grp d)) = ver (grp d) := by
        rcases hc d List.mem_cons_self with h | h <;> rw [h] <;> rfl
      have hv : (eff grp ver fl c (.openDb d false)).1 d = some (ver (grp d)) := by
        show upd c.1 d _ d = _
        rw [upd_self, hd]
      obtain ⟨j1, j2⟩ := i1 (fun x hx => by
        by_cases hxd : x = d
        · subst hxd; exact Or.inr hv
        · show upd c.1 d _ x = none ∨ upd c.1 d _ x = _
          rw [upd_ne _ _ hxd]
          exact hc x (List.mem_cons_of_mem _ hx))
      refine ⟨?_, ?_⟩
      · intro x hx
        rcases List.mem_cons.mp hx with rfl | hx
        · exact i3 _ _ hv
        · exact j1 x hx
      · intro hl
        refine j2 ?_
        intro e he
        rcases List.mem_append.mp he with he | he
        · exact hl e he
        · rw [List.mem_singleton.mp he, hd]
    · intro x hx
      rw [i2 x (fun hc => hx (List.mem_cons_of_mem _ hc))]
      exact upd_ne _ _ (fun hc => hx (hc ▸ List.mem_cons_self))
    · intro x y hxy
      refine i3 x y ?_
      by_cases hxd : x = d
      · subst hxd
        show upd c.1 x _ x = _
        rw [upd_self, hxy]; rfl
      · show upd c.1 d _ x = _
        rw [upd_ne _ _ hxd, hxy]

/-- What closing all databases does. -/
theorem foldl_eff_closeDbs {ver : Grp → Nat} {fl : Bool} (ds : List Str) : ∀ (c : Content), (closeDbs ds).foldl (eff grp ver fl) c = c := by
  induction ds with
  | nil => intro c; rfl
  | cons d ds ih => intro c; exact ih c

/-- What `destroy` does. -/
theorem foldl_eff_destroy {ver : Grp → Nat} {fl : Bool} (ds : List Str) : ∀ (c : Content),
    ((ds.map Act.destroy).foldl (eff grp ver fl) c).2 = c.2 ∧
    ∀ d, ((ds.map Act.destroy).foldl (eff grp ver fl) c).1 d = if d ∈ ds ∧ ¬ (grp d = .files ∧ fl = false) then none else c.1 d := by
  induction ds with
  | nil => intro c; exact ⟨rfl, fun d => by simp⟩
  | cons d ds ih =>
    intro c
    obtain ⟨i1, i2⟩ := ih (eff grp ver fl c (.destroy d))
    have e : ((d :: ds).map Act.destroy).foldl (eff grp ver fl) c = (ds.map Act.destroy).foldl (eff grp ver fl) (eff grp ver fl c (.destroy d)) := rfl
    rw [e]
    by_cases hc : grp d = .files ∧ fl = false
    · have e2 : eff grp ver fl c (.destroy d) = c := if_pos hc
      rw [e2] at i1 i2 ⊢
      refine ⟨i1, fun x => ?_⟩
      rw [i2]
      by_cases hx : x = d
      · subst hx; simp [hc]
      · simp [hx]
    · have e2 : eff grp ver fl c (.destroy d) = (upd c.1 d none, c.2) := if_neg hc
      rw [e2] at i1 i2 ⊢
      refine ⟨i1, fun x => ?_⟩
      rw [i2]
      by_cases hx : x = d
      · subst hx; simp [hc]
      · simp [hx, upd_ne _ _ hx]

/-! ## Checking the versions -/

/-- A process that is not stopped by the version file. -/
theorem check_run {s : Sys} {p : Pid} {g : Grp} {w u b : Bool} {rest : List Act} (hp : (s.procs p).prog = .check g w u :: rest)
    (hb : checkVersion (s.verFile g) ((s.procs p).ver g) w u = some b) :
    ∃ n, exec grp dbs s (runs p n) =
      { s with procs := upd s.procs p { s.procs p with prog := rest },
               verFile := upd s.verFile g (some (some ((s.procs p).ver g))) } := by
  cases b with
  | false =>
    refine ⟨1, ?_⟩
    rw [exec_run_cons hp]
    have hv : s.verFile g = some (some ((s.procs p).ver g)) := by
      cases hg : s.verFile g with
      | none => rw [hg] at hb; cases w <;> simp [checkVersion] at hb
      | some o =>
        cases o with
        | none => rw [hg] at hb; simp [checkVersion] at hb
        | some c =>
          rw [hg] at hb
          simp only [checkVersion] at hb
          by_cases h1 : c < (s.procs p).ver g
          · rw [if_pos h1] at hb; cases u <;> cases w <;> simp at hb
          · rw [if_neg h1] at hb
            by_cases h2 : (s.procs p).ver g < c
            · rw [if_pos h2] at hb; cases hb
            · have : c = (s.procs p).ver g := by omega
              rw [this]
    have : upd s.verFile g (some (some ((s.procs p).ver g))) = s.verFile := by
      funext x
      by_cases hx : x = g
      · subst hx; rw [upd_self, hv]
      · rw [upd_ne _ _ hx]
    simp only [act, hb, Sys.setProc, this]
  | true =>
    refine ⟨3, ?_⟩
    have e3 : (3 : Nat) = 1 + (1 + 1) := rfl
    rw [e3, exec_runs_add, exec_run_cons hp]
    simp only [act, hb]
    generalize ht : s.setProc p { s.procs p with prog := .trunc g :: .writeVer g :: rest } = t
    have hp1 : (t.procs p).prog = .trunc g :: .writeVer g :: rest := by subst ht; simp [Sys.setProc]
    rw [exec_runs_add, exec_run_cons hp1]
    simp only [act]
    generalize ht2 : ({ t.setProc p { t.procs p with prog := .writeVer g :: rest } with verFile := upd t.verFile g (some none) } : Sys) = t2
    have hp2 : (t2.procs p).prog = .writeVer g :: rest := by subst ht2; simp [Sys.setProc]
    rw [exec_run_cons hp2]
    simp only [act]
    subst ht2
    subst ht
    simp only [Sys.setProc, upd_self]
    congr 1
    · funext x
      by_cases hx : x = g
      · subst hx; rw [upd_self, upd_self]
      · rw [upd_ne _ _ hx, upd_ne _ _ hx, upd_ne _ _ hx]
    · funext x
      by_cases hx : x = p
      · subst hx; rw [upd_self, upd_self]
      · rw [upd_ne _ _ hx, upd_ne _ _ hx, upd_ne _ _ hx, upd_ne _ _ hx]

/-- A process that is stopped by the version file. -/
theorem check_die {s : Sys} {p : Pid} {g : Grp} {w u : Bool} {rest : List Act} (hp : (s.procs p).prog = .check g w u :: rest)
    (hb : checkVersion (s.verFile g) ((s.procs p).ver g) w u = none) : exec grp dbs s (runs p 1) = s.die p := by
  rw [exec_run_cons hp]
  simp only [act, hb]

/-- No lock is taken while nobody is busy. -/
theorem free_of {s : Sys} {L : Pid → Loc} {lab : Nat → Lk} (h : Inv (fun _ => False) s L lab) (hL : ∀ q, (L q).env = false) (j : Nat) :
    s.lockedBy j = [] := by
  refine List.eq_nil_iff_forall_not_mem.mpr fun q hq => ?_
  rcases h.kids q j hq with h1 | h1
  · rw [hL q] at h1; cases h1
  · exact h1

/-- With all locks free, nothing is inherited. -/
theorem Inv.noKids {K : Pid → Prop} {s : Sys} {L : Pid → Loc} {lab : Nat → Lk} (h : Inv K s L lab) (hf : ∀ j, s.lockedBy j = []) :
    Inv (fun _ => False) s L lab :=
  ⟨h.ok, h.wf, h.envOpen, h.dbOpen, h.alive, h.lives, h.names, h.fds, h.unused, h.envFd, h.env, h.one, h.below, h.mine, h.held,
    h.used, h.usedName, h.fresh, fun q j hq => by rw [hf j] at hq; cases hq⟩

/-! ## Sessions -/

theorem loc_nil {L : Loc} (hw : L.Wf) (he : L.env = false) : L = {} := by
  obtain ⟨h1, h2, h3, h4, h5⟩ := hw.none he
  obtain ⟨a, b, c, d, e, f⟩ := L
  simp only at h1 h2 h3 h4 h5 he
  subst h1 h2 h3 h4 h5 he
  rfl

/-- Locking the environment while all locks are free. -/
theorem lock_run {K : Pid → Prop} {s : Sys} {L : Pid → Loc} {lab : Nat → Lk} (h : Inv K s L lab) (hf : ∀ j, s.lockedBy j = []) {p : Pid}
    {rest : List Act} (hp : (s.procs p).prog = .openLk .env :: .flock .env :: rest) :
    ∃ L' lab', let t := exec grp dbs s (runs p 2)
      Inv K t L' lab' ∧ (t.procs p).prog = rest ∧ L' p = { env := true } ∧ (t.procs p).alive = true ∧
      (t.procs p).ver = (s.procs p).ver ∧ (t.procs p).files = (s.procs p).files ∧ t.verFile = s.verFile ∧ t.fmt = s.fmt ∧ t.log = s.log := by
  have hal := h.alive p (by rw [hp]; simp)
  have hok := h.ok p
  rw [hp] at hok
  have hL : L p = {} := loc_nil (h.wf p) hok.1
  obtain ⟨lab1, h1⟩ := h.openEnvLk (grp := grp) hp
  have e2 : (2 : Nat) = 1 + 1 := rfl
  rw [e2, exec_runs_add, exec_run_cons hp]
  obtain ⟨i, hi⟩ : ∃ i, (act grp s p (.openLk .env) (.flock .env :: rest)).procs p =
      { s.procs p with prog := .flock .env :: rest, fds := upd (s.procs p).fds .env (some i) } := by
    cases hn : s.names .env <;> simp [act, hn, Sys.setProc] <;> exact ⟨_, rfl⟩
  have hl : (act grp s p (.openLk .env) (.flock .env :: rest)).lockedBy = s.lockedBy := by
    cases hn : s.names .env <;> simp [act, hn, Sys.setProc]
  have hv : (act grp s p (.openLk .env) (.flock .env :: rest)).verFile = s.verFile := by
    cases hn : s.names .env <;> simp [act, hn, Sys.setProc]
  have hfm : (act grp s p (.openLk .env) (.flock .env :: rest)).fmt = s.fmt := by
    cases hn : s.names .env <;> simp [act, hn, Sys.setProc]
  have hlo : (act grp s p (.openLk .env) (.flock .env :: rest)).log = s.log := by
    cases hn : s.names .env <;> simp [act, hn, Sys.setProc]
  generalize act grp s p (.openLk .env) (.flock .env :: rest) = t at h1 hi hl hv hfm hlo
  have hp1 : (t.procs p).prog = .flock .env :: rest := by rw [hi]
  have hfd : (t.procs p).fds .env = some i := by rw [hi]; simp
  have h0 : t.lockedBy i = [] := by rw [hl, hf]
  have h2 := h1.flockEnv (grp := grp) hp1 hfd h0
  rw [exec_run_cons hp1]
  refine ⟨_, lab1, h2, ?_, ?_, ?_, ?_, ?_, ?_, ?_, ?_⟩
  · simp [act, hfd, h0, Sys.setProc]
  · rw [upd_self, hL]; rfl
  · simp [act, h0, Sys.setProc, hi, hal]
  · simp [act, h0, Sys.setProc, hi]
  · simp [act, h0, Sys.setProc, hi]
  · simp [act, hfd, h0, Sys.setProc, hv]
  · simp [act, hfd, h0, Sys.setProc, hfm]
  · simp [act, hfd, h0, Sys.setProc, hlo]

theorem Inv.ofVer {K : Pid → Prop} {s : Sys} {L : Pid → Loc} {lab : Nat → Lk} (hd : dbs.Nodup) (h : Inv K s L lab) {p : Pid} {n : Nat} {t : Sys}
    (ht : DbEnv.exec grp dbs s (DbEnv.runs p n) = t) : ∃ L' lab', Inv K t L' lab' := by
  subst ht
  exact h.runs hd p n

/-- After the command: nobody is busy and all locks are free. -/
structure Quiet (s : Sys) : Prop where
  idle : Idle s
  free : ∀ j, s.lockedBy j = []
  inv : ∃ L lab, Inv (fun _ => False) s L lab

theorem quiet_of {s : Sys} {L : Pid → Loc} {lab : Nat → Lk} (h : Inv (fun _ => False) s L lab) (hi : Idle s) : Quiet s := by
  refine ⟨hi, free_of h (fun q => ?_), L, lab, h⟩
  have := h.ok q
  rw [hi q] at this
  rw [show L q = {} from this]

theorem mem_openDbs {ds : List Str} {a : Act} (h : a ∈ openDbs ds) : a ≠ .closeLk .env := by
  simp only [openDbs, List.mem_flatMap, List.mem_cons, List.not_mem_nil, or_false] at h
  obtain ⟨d, _, h⟩ := h
  rcases h with rfl | rfl | rfl <;> simp

theorem mem_closeDbs {ds : List Str} {a : Act} (h : a ∈ closeDbs ds) : a ≠ .closeLk .env := by
  simp only [closeDbs, List.mem_flatMap, List.mem_cons, List.not_mem_nil, or_false] at h
  obtain ⟨d, _, h⟩ := h
  rcases h with rfl | rfl | rfl <;> simp

/-- From the lock of the environment to the end of the command. -/
theorem session_tail {s : Sys} {L : Pid → Loc} {lab : Nat → Lk} (h : Inv (fun _ => False) s L lab)
    (hf : ∀ j, s.lockedBy j = []) {p : Pid} (ho : ∀ q, q ≠ p → (s.procs q).prog = [])
    (hp : (s.procs p).prog = .openLk .env :: .flock .env :: .openEnv ::
      (openDbs dbs ++ (.work :: (closeDbs dbs ++ [.closeEnv, .closeLk .env])))) :
    (∃ n, let t := exec grp dbs s (runs p n)
      (t.procs p).prog.head? = some .work ∧ ∀ d ∈ dbs, d ∈ (t.procs p).dbOpen) ∧
    ∃ n, let t := exec grp dbs s (runs p n)
      Quiet t ∧ (t.procs p).alive = true ∧ t.verFile = s.verFile ∧
      (t.fmt, t.log) = (openDbs dbs).foldl (eff grp (s.procs p).ver (s.procs p).files) (s.fmt, s.log) := by
  obtain ⟨L1, lab1, a1, a2, a3, a4, a5, a6, a7, a8, a9⟩ := lock_run (grp := grp) (dbs := dbs) h hf hp
  have he1 : (L1 p).env = true := by rw [a3]
  have b1 := holder_runs (grp := grp) (dbs := dbs) (p := p) (.openEnv :: openDbs dbs)
    (r := .work :: (closeDbs dbs ++ [.closeEnv, .closeLk .env])) a1 (by rw [a2]; rfl) he1 a4 (fun a ha => by
      have ha := (List.dropLast_subset _) ha
      rcases List.mem_cons.mp ha with rfl | ha
      · simp
      · exact mem_openDbs ha)
  obtain ⟨L2, lab2, b1, b2, b3, b4, b5, b6, b7, b8⟩ := b1
  rw [← exec_runs_add] at b1 b2 b4 b5 b6 b7 b8
  have hL2 : L2 p = { env := true, envOpen := true, used := dbs.reverse, held := dbs.reverse, dbOpen := dbs.reverse } := by
    rw [b3, a3]
    show (openDbs dbs).foldl Loc.next { env := true, envOpen := true } = _
    rw [foldl_next_openDbs]
    simp
  refine ⟨⟨2 + (Act.openEnv :: openDbs dbs).length, ?_, ?_⟩, ?_⟩
  · rw [b2]; rfl
  · intro d hd'
    rw [b1.dbOpen p, hL2]
    exact List.mem_reverse.mpr hd'
  · have he2 : (L2 p).env = true := by rw [hL2]
    have c1 := holder_runs (grp := grp) (dbs := dbs) (p := p) (.work :: (closeDbs dbs ++ [.closeEnv, .closeLk .env])) (r := []) b1
      (by rw [b2]; simp) he2 b4 (fun a ha => by
        have e : (Act.work :: (closeDbs dbs ++ [.closeEnv, .closeLk .env])).dropLast = .work :: (closeDbs dbs ++ [.closeEnv]) := by
          have : (Act.work :: (closeDbs dbs ++ [Act.closeEnv, .closeLk .env])) = (Act.work :: (closeDbs dbs ++ [Act.closeEnv])) ++ [.closeLk .env] := by simp
          rw [this, List.dropLast_concat]
        rw [e] at ha
        rcases List.mem_cons.mp ha with rfl | ha
        · simp
        · rcases List.mem_append.mp ha with ha | ha
          · exact mem_closeDbs ha
          · rw [List.mem_singleton.mp ha]; simp)
    obtain ⟨L3, lab3, c1, c2, c3, c4, c5, c6, c7, c8⟩ := c1
    rw [← exec_runs_add] at c1 c2 c4 c5 c6 c7 c8
    refine ⟨_, quiet_of c1 (fun q => ?_), c4, ?_, ?_⟩
    · by_cases hq : q = p
      · rw [hq, c2]
      · rw [runs_others hq]; exact ho q hq
    · rw [c7, b7, a7]
    · rw [c8, b5, b6, b8, a5, a6, a8, a9]
      show List.foldl _ (List.foldl _ (s.fmt, s.log) (openDbs dbs)) (closeDbs dbs ++ [.closeEnv, .closeLk .env]) = _
      rw [List.foldl_append, foldl_eff_closeDbs]
      rfl

/-- Both version files checked. -/
theorem checks_run {s : Sys} {p : Pid} {w u b1 b2 : Bool} {rest : List Act}
    (hp : (s.procs p).prog = .check .main w u :: .check .files w u :: rest)
    (h1 : checkVersion (s.verFile .main) ((s.procs p).ver .main) w u = some b1)
    (h2 : checkVersion (s.verFile .files) ((s.procs p).ver .files) w u = some b2) :
    ∃ n, exec grp dbs s (runs p n) =
      { s with procs := upd s.procs p { s.procs p with prog := rest }, verFile := fun g => some (some ((s.procs p).ver g)) } := by
  obtain ⟨n1, e1⟩ := check_run (grp := grp) (dbs := dbs) hp h1
  generalize ht : ({ s with procs := upd s.procs p { s.procs p with prog := .check .files w u :: rest }, verFile := upd s.verFile .main (some (some ((s.procs p).ver .main))) } : Sys) = t at e1
  have hp2 : (t.procs p).prog = .check .files w u :: rest := by subst ht; simp
  have hb2 : checkVersion (t.verFile .files) ((t.procs p).ver .files) w u = some b2 := by
    subst ht
    simp only [upd_self]
    rw [upd_ne _ _ (by simp)]
    exact h2
  obtain ⟨n2, e2⟩ := check_run (grp := grp) (dbs := dbs) hp2 hb2
  refine ⟨n1 + n2, ?_⟩
  rw [exec_runs_add, e1, e2]
  subst ht
  simp only [upd_self]
  congr 1
  · funext g
    cases g with
    | main => rw [upd_ne _ _ (by simp), upd_self]
    | files => rw [upd_self]
  · funext x
    by_cases hx : x = p
    · subst hx; rw [upd_self, upd_self]
    · rw [upd_ne _ _ hx, upd_ne _ _ hx, upd_ne _ _ hx]

/-- A writing command that is not stopped by the version files. -/
theorem write_session {s : Sys} {L : Pid → Loc} {lab : Nat → Lk} (hd : dbs.Nodup) (h : Inv (fun _ => False) s L lab)
    (hf : ∀ j, s.lockedBy j = []) {p : Pid} (ho : ∀ q, q ≠ p → (s.procs q).prog = []) (hp : (s.procs p).prog = writeProg dbs)
    {b1 b2 : Bool} (h1 : checkVersion (s.verFile .main) ((s.procs p).ver .main) true false = some b1)
    (h2 : checkVersion (s.verFile .files) ((s.procs p).ver .files) true false = some b2) :
    Works grp dbs s p ∧ ∃ n, let t := exec grp dbs s (runs p n)
      Quiet t ∧ (t.procs p).alive = true ∧ t.verFile = (fun g => some (some ((s.procs p).ver g))) ∧
      (t.fmt, t.log) = (openDbs dbs).foldl (eff grp (s.procs p).ver (s.procs p).files) (s.fmt, s.log) := by
  obtain ⟨n, e⟩ := checks_run (grp := grp) (dbs := dbs) (rest := .openLk .env :: .flock .env :: .openEnv ::
      (openDbs dbs ++ (.work :: (closeDbs dbs ++ [.closeEnv, .closeLk .env])))) hp h1 h2
  obtain ⟨L', lab', h'⟩ := h.ofVer hd e
  generalize ht : ({ s with procs := upd s.procs p { s.procs p with prog := .openLk .env :: .flock .env :: .openEnv ::
      (openDbs dbs ++ (.work :: (closeDbs dbs ++ [.closeEnv, .closeLk .env]))) }, verFile := fun g => some (some ((s.procs p).ver g)) } : Sys) = t at e h'
  have hp' : (t.procs p).prog = .openLk .env :: .flock .env :: .openEnv ::
      (openDbs dbs ++ (.work :: (closeDbs dbs ++ [.closeEnv, .closeLk .env]))) := by subst ht; simp
  have ho' : ∀ q, q ≠ p → (t.procs q).prog = [] := by
    intro q hq; subst ht; dsimp only; rw [upd_ne _ _ hq]; exact ho q hq
  obtain ⟨⟨m, m1, m2⟩, k, k1, k2, k3, k4⟩ := session_tail (grp := grp) h' (by subst ht; exact hf) ho' hp'
  have ev : (t.procs p).ver = (s.procs p).ver := by subst ht; simp
  have ef : (t.procs p).files = (s.procs p).files := by subst ht; simp
  have efm : t.fmt = s.fmt := by subst ht; rfl
  have elo : t.log = s.log := by subst ht; rfl
  have evf : t.verFile = (fun g => some (some ((s.procs p).ver g))) := by subst ht; rfl
  rw [← e, ← exec_runs_add] at m1 m2 k1 k2 k3 k4
  rw [e, ev, ef, efm, elo] at k4
  rw [e, evf] at k3
  exact ⟨⟨⟨_, m1, m2⟩, ⟨_, k1.idle p, k2⟩⟩, _, k1, k2, k3, k4⟩

theorem foldl_next_destroy (ds : List Str) (L : Loc) : (ds.map Act.destroy).foldl Loc.next L = L := by
  induction ds with
  | nil => rfl
  | cons d ds ih => exact ih

/-- `rebuild_db` that is not stopped by the version files. -/
theorem rebuild_session {s : Sys} {L : Pid → Loc} {lab : Nat → Lk} (hd : dbs.Nodup) (h : Inv (fun _ => False) s L lab)
    (hf : ∀ j, s.lockedBy j = []) {p : Pid} (ho : ∀ q, q ≠ p → (s.procs q).prog = []) (hp : (s.procs p).prog = rebuildProg dbs)
    {b1 b2 : Bool} (h1 : checkVersion (s.verFile .main) ((s.procs p).ver .main) true true = some b1)
    (h2 : checkVersion (s.verFile .files) ((s.procs p).ver .files) true true = some b2) :
    ∃ n, Works grp dbs (exec grp dbs s (runs p n)) p ∧ ∃ n, let t := exec grp dbs s (runs p n)
      Quiet t ∧ (t.procs p).alive = true ∧ t.verFile = (fun g => some (some ((s.procs p).ver g))) ∧
      ∃ fl, fl = ((s.procs p).files || checkVersion (s.verFile .files) ((s.procs p).ver .files) false false != some false) ∧
      (t.fmt, t.log) = (openDbs dbs).foldl (eff grp (s.procs p).ver fl)
        ((dbs.map Act.destroy).foldl (eff grp (s.procs p).ver fl) (s.fmt, s.log)) := by
  -- the probe
  have e0 := exec_run_cons (grp := grp) (dbs := dbs) (rest := (rebuildProg dbs).tail) (a := .probe) hp
  obtain ⟨L0, lab0, i0⟩ := h.runs (grp := grp) hd p 1
  rw [e0] at i0
  generalize hfl : ((s.procs p).files || checkVersion (s.verFile .files) ((s.procs p).ver .files) false false != some false) = fl
  have et : act grp s p .probe (rebuildProg dbs).tail = s.setProc p { s.procs p with prog := (rebuildProg dbs).tail, files := fl } := by
    subst hfl; rfl
  rw [et] at e0 i0
  generalize ht : s.setProc p { s.procs p with prog := (rebuildProg dbs).tail, files := fl } = t at e0 i0
  have tp : t.procs p = { s.procs p with prog := (rebuildProg dbs).tail, files := fl } := by subst ht; exact upd_self _ _ _
  have to : ∀ q, q ≠ p → (t.procs q).prog = [] := by
    intro q hq; subst ht; simp only [Sys.setProc]; rw [upd_ne _ _ hq]; exact ho q hq
  have tl : ∀ j, t.lockedBy j = [] := by subst ht; exact hf
  have tv : t.verFile = s.verFile := by subst ht; rfl
  have tf : t.fmt = s.fmt := by subst ht; rfl
  have tg : t.log = s.log := by subst ht; rfl
  -- the version files
  have hpt : (t.procs p).prog = .check .main true true :: .check .files true true :: .openLk .env :: .flock .env :: .openEnv ::
      (dbs.map .destroy ++ (.closeEnv :: .closeLk .env :: writeProg dbs)) := by rw [tp]; rfl
  obtain ⟨n1, e1⟩ := checks_run (grp := grp) (dbs := dbs) hpt (b1 := b1) (b2 := b2) (by rw [tv, tp]; exact h1) (by rw [tv, tp]; exact h2)
  obtain ⟨L1, lab1, i1⟩ := i0.ofVer hd e1
  generalize hu : ({ t with procs := upd t.procs p { t.procs p with prog := .openLk .env :: .flock .env :: .openEnv ::
      (dbs.map .destroy ++ (.closeEnv :: .closeLk .env :: writeProg dbs)) }, verFile := fun g => some (some ((t.procs p).ver g)) } : Sys) = u at e1 i1
  have up : u.procs p = { t.procs p with prog := .openLk .env :: .flock .env :: .openEnv ::
      (dbs.map .destroy ++ (.closeEnv :: .closeLk .env :: writeProg dbs)) } := by subst hu; exact upd_self _ _ _
  have uo : ∀ q, q ≠ p → (u.procs q).prog = [] := by
    intro q hq; subst hu; dsimp only; rw [upd_ne _ _ hq]; exact to q hq
  have ul : ∀ j, u.lockedBy j = [] := by subst hu; exact tl
  have uv : u.verFile = fun g => some (some ((s.procs p).ver g)) := by subst hu; dsimp only; rw [tp]
  have uf : u.fmt = s.fmt := by subst hu; exact tf
  have ug : u.log = s.log := by subst hu; exact tg
  have ue : (u.procs p).ver = (s.procs p).ver := by rw [up, tp]
  have ufl : (u.procs p).files = fl := by rw [up, tp]
  -- the lock
  obtain ⟨L2, lab2, a1, a2, a3, a4, a5, a6, a7, a8, a9⟩ := lock_run (grp := grp) (dbs := dbs) i1 ul (p := p) (by rw [up])
  have he2 : (L2 p).env = true := by rw [a3]
  -- destruction
  have b := holder_runs (grp := grp) (dbs := dbs) (p := p) (.openEnv :: (dbs.map .destroy ++ [.closeEnv, .closeLk .env]))
    (r := writeProg dbs) a1 (by rw [a2]; simp) he2 a4 (fun a ha => by
      have e : (Act.openEnv :: (dbs.map .destroy ++ [.closeEnv, .closeLk .env])).dropLast = .openEnv :: (dbs.map .destroy ++ [.closeEnv]) := by
        have : (Act.openEnv :: (dbs.map Act.destroy ++ [Act.closeEnv, .closeLk .env])) = (Act.openEnv :: (dbs.map Act.destroy ++ [Act.closeEnv])) ++ [.closeLk .env] := by simp
        rw [this, List.dropLast_concat]
      rw [e] at ha
      rcases List.mem_cons.mp ha with rfl | ha
      · simp
      · rcases List.mem_append.mp ha with ha | ha
        · obtain ⟨d, _, rfl⟩ := List.mem_map.mp ha; simp
        · rw [List.mem_singleton.mp ha]; simp)
  obtain ⟨L3, lab3, c1, c2, c3, c4, c5, c6, c7, c8⟩ := b
  rw [← exec_runs_add] at c1 c2 c4 c5 c6 c7 c8
  rw [a7, uv] at c7
  rw [a5, ue] at c5
  rw [a6, ufl] at c6
  rw [a5, a6, a8, a9, ue, ufl, uf, ug] at c8
  have hL3 : L3 p = {} := by
    rw [c3, a3]
    show (dbs.map Act.destroy ++ [Act.closeEnv, .closeLk .env]).foldl Loc.next { env := true, envOpen := true } = _
    rw [List.foldl_append, foldl_next_destroy]
    rfl
  have c8' : ((exec grp dbs u (runs p (2 + (Act.openEnv :: (dbs.map Act.destroy ++ [Act.closeEnv, .closeLk .env])).length))).fmt,
      (exec grp dbs u (runs p (2 + (Act.openEnv :: (dbs.map Act.destroy ++ [Act.closeEnv, .closeLk .env])).length))).log) =
      (dbs.map Act.destroy).foldl (eff grp (s.procs p).ver fl) (s.fmt, s.log) := by
    rw [c8]
    show (dbs.map Act.destroy ++ [Act.closeEnv, .closeLk .env]).foldl _ (s.fmt, s.log) = _
    rw [List.foldl_append]
    rfl
  have wo : ∀ q, q ≠ p → ((exec grp dbs u (runs p (2 + (Act.openEnv :: (dbs.map Act.destroy ++ [Act.closeEnv, .closeLk .env])).length))).procs q).prog = [] := by
    intro q hq; rw [runs_others hq]; exact uo q hq
  generalize hw : 2 + (Act.openEnv :: (dbs.map Act.destroy ++ [Act.closeEnv, .closeLk .env])).length = k at c1 c2 c4 c5 c6 c7 c8' wo
  have ew : exec grp dbs u (runs p k) = exec grp dbs s (runs p (1 + (n1 + k))) := by
    rw [exec_runs_add, e0, exec_runs_add, e1]
  have wl := free_of c1 (fun q => by
    by_cases hq : q = p
    · rw [hq, hL3]
    · have := c1.ok q
      rw [wo q hq] at this
      rw [show L3 q = {} from this])
  have pass : ∀ g, checkVersion ((exec grp dbs u (runs p k)).verFile g) (((exec grp dbs u (runs p k)).procs p).ver g) true false = some false := by
    intro g
    rw [c7, c5]
    simp [checkVersion]
  obtain ⟨w1, n, w2, w3, w4, w5⟩ := write_session (grp := grp) hd c1 wl wo c2 (pass .main) (pass .files)
  refine ⟨1 + (n1 + k), ?_, 1 + (n1 + k) + n, ?_, ?_, ?_, fl, rfl, ?_⟩
  · rw [← ew]; exact w1
  · rw [exec_runs_add, ← ew]; exact w2
  · rw [exec_runs_add, ← ew]; exact w3
  · rw [exec_runs_add, ← ew, w4, c5]
  · rw [exec_runs_add, ← ew, w5, c5, c6, c8']

end Pisi.DbEnv
