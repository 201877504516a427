import Verif.Model.DbEnv

/-!
# The discipline of the lock files

A static check of the programs (`Ok`) and the invariant of all executions without `pisi clean`.
-/
namespace Pisi.DbEnv

/-- What a process has, as far as its program tells. -/
structure Loc where
  /-- the lock of the environment -/
  env : Bool := false
  envOpen : Bool := false
  dbOpen : List Str := []
  /-- databases between opening and removing their lock files -/
  used : List Str := []
  /-- databases whose locks are held -/
  held : List Str := []
  /-- the database whose lock file was just opened -/
  fresh : Option Str := none

/-- When an action is in order. -/
def Pre (L : Loc) : Act → Prop
  | .probe | .check .. | .trunc _ | .writeVer _ => L.env = false
  | .openLk .env | .flock .env => L.env = false
  | .openLk (.db d) => L.env = true ∧ d ∉ L.used ∧ L.fresh = none
  | .flock (.db d) => L.env = true ∧ L.fresh = some d
  | .closeLk .env => L.env = true ∧ L.envOpen = false ∧ L.dbOpen = [] ∧ L.used = [] ∧ L.held = [] ∧ L.fresh = none
  | .closeLk (.db d) => L.env = true ∧ d ∈ L.held ∧ L.fresh = none
  | .unlinkLk .env => False
  | .unlinkLk (.db d) => L.env = true ∧ d ∈ L.used ∧ d ∉ L.held ∧ L.fresh = none
  | .openEnv => L.env = true
  | .closeEnv => True
  | .openDb _ true => L.env = false
  | .openDb _ false => L.envOpen = true
  | .closeDb _ => True
  | .destroy _ => L.envOpen = true
  | .work => True

/-- What an action changes. -/
def Loc.next (L : Loc) : Act → Loc
  | .openLk (.db d) => { L with used := d :: L.used, fresh := some d }
  | .flock .env => { L with env := true }
  | .flock (.db d) => { L with held := d :: L.held, fresh := none }
  | .closeLk .env => { L with env := false }
  | .closeLk (.db d) => { L with held := L.held.filter (· ≠ d) }
  | .unlinkLk (.db d) => { L with used := L.used.filter (· ≠ d) }
  | .openEnv => { L with envOpen := true }
  | .closeEnv => { L with envOpen := false }
  | .openDb d false => { L with dbOpen := d :: L.dbOpen }
  | .closeDb d => { L with dbOpen := L.dbOpen.filter (· ≠ d) }
  | _ => L

/-- A program in order. -/
def Ok : Loc → List Act → Prop
  | L, [] => L = {}
  | L, a :: r => Pre L a ∧ Ok (L.next a) r

/-- Without the lock of the environment there is nothing else. -/
structure Loc.Wf (L : Loc) : Prop where
  none : L.env = false → L.envOpen = false ∧ L.dbOpen = [] ∧ L.used = [] ∧ L.held = [] ∧ L.fresh = none
  held : ∀ d ∈ L.held, d ∈ L.used
  fresh : ∀ d, L.fresh = some d → d ∈ L.used ∧ d ∉ L.held

theorem Loc.Wf.next {L : Loc} (h : L.Wf) {a : Act} (hp : Pre L a) : (L.next a).Wf := by
  have hn := h.none
  cases a with
  | openLk l =>
    cases l with
    | env => exact h
    | db d =>
      obtain ⟨h1, h2, h3⟩ := hp
      refine ⟨?_, ?_, ?_⟩
      · intro h'; simp [Loc.next, h1] at h'
      · intro e he; exact List.mem_cons_of_mem _ (h.held e he)
      · intro e he
        simp only [Loc.next, Option.some.injEq] at he
        subst he
        exact ⟨List.mem_cons_self, fun hc => h2 (h.held _ hc)⟩
  | flock l =>
    cases l with
    | env =>
      refine ⟨fun h' => by simp [Loc.next] at h', h.held, h.fresh⟩
    | db d =>
      obtain ⟨h1, h2⟩ := hp
      refine ⟨fun h' => by simp [Loc.next, h1] at h', ?_, fun e he => by simp [Loc.next] at he⟩
      intro e he
      simp only [Loc.next, List.mem_cons] at he
      rcases he with rfl | he
      · exact (h.fresh _ h2).1
      · exact h.held e he
  | closeLk l =>
    cases l with
    | env =>
      obtain ⟨h1, h2, h3, h4, h5, h6⟩ := hp
      exact ⟨fun _ => ⟨h2, h3, h4, h5, h6⟩, h.held, h.fresh⟩
    | db d =>
      obtain ⟨h1, h2, h3⟩ := hp
      refine ⟨fun h' => by simp [Loc.next, h1] at h', ?_, fun e he => by simp [Loc.next, h3] at he⟩
      intro e he
      exact h.held e (List.mem_filter.mp he).1
  | unlinkLk l =>
    cases l with
    | env => exact hp.elim
    | db d =>
      obtain ⟨h1, h2, h3, h4⟩ := hp
      refine ⟨fun h' => by simp [Loc.next, h1] at h', ?_, fun e he => by simp [Loc.next, h4] at he⟩
      intro e he
      refine List.mem_filter.mpr ⟨h.held e he, ?_⟩
      simp only [decide_not, Bool.not_eq_eq_eq_not, Bool.not_true, decide_eq_false_iff_not]
      rintro rfl
      exact h3 he
  | openEnv => exact ⟨fun h' => by simp [Loc.next, show L.env = true from hp] at h', h.held, h.fresh⟩
  | closeEnv =>
    refine ⟨fun h' => ?_, h.held, h.fresh⟩
    obtain ⟨h1, h2, h3, h4, h5⟩ := hn h'
    exact ⟨rfl, h2, h3, h4, h5⟩
  | openDb d ro =>
    cases ro with
    | true => exact h
    | false =>
      refine ⟨fun h' => ?_, h.held, h.fresh⟩
      have hp' : L.envOpen = true := hp
      rw [(hn h').1] at hp'
      cases hp'
  | closeDb d =>
    refine ⟨fun h' => ?_, h.held, h.fresh⟩
    obtain ⟨h1, h2, h3, h4, h5⟩ := hn h'
    exact ⟨h1, by simp [Loc.next, h2], h3, h4, h5⟩
  | _ => exact h

theorem wf_nil : ({} : Loc).Wf := ⟨fun _ => ⟨rfl, rfl, rfl, rfl, rfl⟩, by simp, by simp⟩

/-! ## The programs are in order -/

theorem ok_openDbs {ds : List Str} : ∀ {L : Loc} {r : List Act}, ds.Nodup → L.env = true → L.envOpen = true →
    L.fresh = none → (∀ d ∈ ds, d ∉ L.used) →
    Ok { L with used := ds.reverse ++ L.used, held := ds.reverse ++ L.held, dbOpen := ds.reverse ++ L.dbOpen } r →
    Ok L (openDbs ds ++ r) := by
  induction ds with
  | nil => intro L r _ _ _ _ _ h; simpa [openDbs] using h
  | cons d ds ih =>
    intro L r hn he heo hf hu h
    rw [List.nodup_cons] at hn
    have hd := hu d List.mem_cons_self
    show Ok L (.openLk (.db d) :: .flock (.db d) :: .openDb d false :: (openDbs ds ++ r))
    refine ⟨⟨he, hd, hf⟩, ⟨he, rfl⟩, heo, ?_⟩
    refine ih hn.2 he heo rfl ?_ ?_
    · intro e hed hc
      rcases List.mem_cons.mp hc with rfl | hc
      · exact hn.1 hed
      · exact hu e (List.mem_cons_of_mem _ hed) hc
    · simp only [Loc.next, List.reverse_cons, List.append_assoc, List.singleton_append] at h ⊢
      rw [hf] at h
      exact h

theorem filter_ne_of_notMem {d : Str} {l : List Str} (h : d ∉ l) : l.filter (· ≠ d) = l := by
  rw [List.filter_eq_self]
  intro a ha
  simp only [decide_not, Bool.not_eq_eq_eq_not, Bool.not_true, decide_eq_false_iff_not]
  rintro rfl
  exact h ha

theorem ok_closeDbs {ds : List Str} : ∀ {L : Loc} {r : List Act}, ds.Nodup → L.env = true → L.fresh = none →
    (∀ d, d ∈ L.used ↔ d ∈ ds) → (∀ d, d ∈ L.held ↔ d ∈ ds) → (∀ d, d ∈ L.dbOpen ↔ d ∈ ds) →
    Ok { L with used := [], held := [], dbOpen := [] } r → Ok L (closeDbs ds ++ r) := by
  induction ds with
  | nil =>
    intro L r _ _ _ hu hh ho h
    have e1 : L.used = [] := List.eq_nil_iff_forall_not_mem.mpr fun d hd => by simpa using (hu d).mp hd
    have e2 : L.held = [] := List.eq_nil_iff_forall_not_mem.mpr fun d hd => by simpa using (hh d).mp hd
    have e3 : L.dbOpen = [] := List.eq_nil_iff_forall_not_mem.mpr fun d hd => by simpa using (ho d).mp hd
    obtain ⟨a, b, c, d, e, f⟩ := L
    simp only at e1 e2 e3
    subst e1 e2 e3
    exact h
  | cons d ds ih =>
    intro L r hn he hf hu hh ho h
    rw [List.nodup_cons] at hn
    show Ok L (.closeDb d :: .closeLk (.db d) :: .unlinkLk (.db d) :: (closeDbs ds ++ r))
    have key : ∀ {l : List Str}, (∀ e, e ∈ l ↔ e ∈ d :: ds) → ∀ e, e ∈ l.filter (· ≠ d) ↔ e ∈ ds := by
      intro l hl e
      rw [List.mem_filter, hl]
      simp only [List.mem_cons, decide_not, Bool.not_eq_eq_eq_not, Bool.not_true, decide_eq_false_iff_not]
      constructor
      · rintro ⟨h1 | h1, h2⟩
        · exact absurd h1 h2
        · exact h1
      · intro h1
        exact ⟨Or.inr h1, fun hc => hn.1 (hc ▸ h1)⟩
    refine ⟨trivial, ⟨he, ?_, hf⟩, ⟨he, ?_, ?_, hf⟩, ?_⟩
    · exact (hh d).mpr List.mem_cons_self
    · exact (hu d).mpr List.mem_cons_self
    · simp [Loc.next]
    · exact ih hn.2 he hf (key hu) (key hh) (key ho) h

theorem ok_writeProg {dbs : List Str} (hn : dbs.Nodup) : Ok {} (writeProg dbs) := by
  refine ⟨rfl, rfl, rfl, rfl, rfl, ?_⟩
  refine ok_openDbs hn rfl rfl rfl (by simp [Loc.next]) ?_
  refine ⟨trivial, ?_⟩
  refine ok_closeDbs hn rfl rfl (by simp [Loc.next]) (by simp [Loc.next]) (by simp [Loc.next]) ?_
  refine ⟨trivial, ?_, ?_⟩
  · exact ⟨rfl, rfl, rfl, rfl, rfl, rfl⟩
  · rfl

theorem ok_readProg {dbs : List Str} : Ok {} (readProg dbs) := by
  refine ⟨rfl, rfl, ?_⟩
  show Ok {} (dbs.map (fun d => Act.openDb d true) ++ [.work])
  induction dbs with
  | nil => exact ⟨trivial, rfl⟩
  | cons d ds ih => exact ⟨rfl, ih⟩

theorem ok_rebuildProg {dbs : List Str} (hn : dbs.Nodup) : Ok {} (rebuildProg dbs) := by
  refine ⟨rfl, rfl, rfl, rfl, rfl, rfl, ?_⟩
  have key : ∀ (l : List Str), Ok { env := true, envOpen := true } (l.map Act.destroy ++ (.closeEnv :: .closeLk .env :: writeProg dbs)) := by
    intro l
    induction l with
    | nil => exact ⟨trivial, ⟨rfl, rfl, rfl, rfl, rfl, rfl⟩, ok_writeProg hn⟩
    | cons d ds ih => exact ⟨rfl, ih⟩
  exact key dbs

theorem ok_prog {dbs : List Str} (hn : dbs.Nodup) (k : Kind) : Ok {} (k.prog dbs) := by
  cases k with
  | read => exact ok_readProg
  | write => exact ok_writeProg hn
  | rebuild _ => exact ok_rebuildProg hn

/-! ## The invariant -/

@[simp] theorem upd_self {α β : Type} [DecidableEq α] (f : α → β) (a : α) (b : β) : upd f a b a = b := if_pos rfl

theorem upd_ne {α β : Type} [DecidableEq α] (f : α → β) {a x : α} (b : β) (h : x ≠ a) : upd f a b x = f x := if_neg h

/-- What holds in all executions without `pisi clean`; `L` tells what each process has and `lab` what an inode is for. -/
structure Inv (K : Pid → Prop) (s : Sys) (L : Pid → Loc) (lab : Nat → Lk) : Prop where
  ok : ∀ p, Ok (L p) (s.procs p).prog
  wf : ∀ p, (L p).Wf
  envOpen : ∀ p, (s.procs p).envOpen = (L p).envOpen
  dbOpen : ∀ p, (s.procs p).dbOpen = (L p).dbOpen
  alive : ∀ p, (s.procs p).prog ≠ [] → (s.procs p).alive = true
  lives : ∀ p j, p ∈ s.lockedBy j → (s.procs p).alive = true
  /-- labels -/
  names : ∀ l i, s.names l = some i → lab i = l ∧ i < s.next
  fds : ∀ p l i, (s.procs p).fds l = some i → lab i = l ∧ i < s.next
  unused : ∀ j, s.next ≤ j → s.lockedBy j = []
  /-- the lock file of the environment stays the same -/
  envFd : ∀ p i, (s.procs p).fds .env = some i → s.names .env = some i
  env : ∀ p, (L p).env = true → ∃ i, s.names .env = some i ∧ (s.procs p).fds .env = some i ∧ p ∈ s.lockedBy i
  one : ∀ p q, (L p).env = true → (L q).env = true → p = q
  /-- who has any lock has the one of the environment -/
  below : ∀ q j, q ∈ s.lockedBy j → ∃ i, s.names .env = some i ∧ q ∈ s.lockedBy i
  mine : ∀ p j, (L p).env = true → p ∈ s.lockedBy j →
    s.names .env = some j ∨ ∃ d ∈ (L p).held, (s.procs p).fds (.db d) = some j
  held : ∀ p, ∀ d ∈ (L p).held, ∃ j, (s.procs p).fds (.db d) = some j
  used : ∀ p d j, (L p).env = true → s.names (.db d) = some j → s.lockedBy j ≠ [] → d ∈ (L p).used
  usedName : ∀ p, ∀ d ∈ (L p).used, ∃ j, s.names (.db d) = some j
  fresh : ∀ p d, (L p).fresh = some d → ∃ j, (s.procs p).fds (.db d) = some j ∧ s.lockedBy j = []
  /-- a lock belongs to a process that took it, or was inherited -/
  kids : ∀ q j, q ∈ s.lockedBy j → (L q).env = true ∨ K q

namespace Inv

variable {K : Pid → Prop} {s : Sys} {L : Pid → Loc} {lab : Nat → Lk}

/-- Nobody has any lock when the one of the environment is free. -/
theorem free (h : Inv K s L lab) {i : Nat} (hi : s.names .env = some i) (h0 : s.lockedBy i = []) (j : Nat) : s.lockedBy j = [] := by
  refine List.eq_nil_iff_forall_not_mem.mpr fun q hq => ?_
  obtain ⟨k, hk, hq⟩ := h.below q j hq
  rw [hi, Option.some.injEq] at hk
  subst hk
  rw [h0] at hq
  exact absurd hq (by simp)

theorem noEnv (h : Inv K s L lab) {i : Nat} (hi : s.names .env = some i) (h0 : s.lockedBy i = []) (p : Pid) : (L p).env = false := by
  cases he : (L p).env with
  | false => rfl
  | true =>
    obtain ⟨k, _, _, hp⟩ := h.env p he
    rw [h.free hi h0 k] at hp
    exact absurd hp (by simp)

/-- An action that concerns neither locks nor lock files. -/
theorem own (h : Inv K s L lab) {s' : Sys} {p : Pid} {M : Loc} (hn : s'.names = s.names) (hx : s'.next = s.next)
    (hl : s'.lockedBy = s.lockedBy) (ho : ∀ q, q ≠ p → s'.procs q = s.procs q) (hf : (s'.procs p).fds = (s.procs p).fds)
    (hok : Ok M (s'.procs p).prog) (hwf : M.Wf) (heo : (s'.procs p).envOpen = M.envOpen) (hdo : (s'.procs p).dbOpen = M.dbOpen)
    (hal : (s'.procs p).alive = true)
    (hM : M.env = (L p).env ∧ M.used = (L p).used ∧ M.held = (L p).held ∧ M.fresh = (L p).fresh) :
    Inv K s' (upd L p M) lab := by
  obtain ⟨m1, m2, m3, m4⟩ := hM
  have f : ∀ q, (s'.procs q).fds = (s.procs q).fds := by
    intro q
    by_cases hq : q = p
    · rw [hq, hf]
    · rw [ho q hq]
  have e1 : ∀ q, (upd L p M q).env = (L q).env := by
    intro q; by_cases hq : q = p
    · rw [hq, upd_self, m1]
    · rw [upd_ne _ _ hq]
  have e2 : ∀ q, (upd L p M q).used = (L q).used := by
    intro q; by_cases hq : q = p
    · rw [hq, upd_self, m2]
    · rw [upd_ne _ _ hq]
  have e3 : ∀ q, (upd L p M q).held = (L q).held := by
    intro q; by_cases hq : q = p
    · rw [hq, upd_self, m3]
    · rw [upd_ne _ _ hq]
  have e4 : ∀ q, (upd L p M q).fresh = (L q).fresh := by
    intro q; by_cases hq : q = p
    · rw [hq, upd_self, m4]
    · rw [upd_ne _ _ hq]
  refine ⟨?_, ?_, ?_, ?_, ?_, ?_, ?_, ?_, ?_, ?_, ?_, ?_, ?_, ?_, ?_, ?_, ?_, ?_, ?_⟩
  · intro q; by_cases hq : q = p
    · subst hq; rw [upd_self]; exact hok
    · rw [upd_ne _ _ hq, ho q hq]; exact h.ok q
  · intro q; by_cases hq : q = p
    · subst hq; rw [upd_self]; exact hwf
    · rw [upd_ne _ _ hq]; exact h.wf q
  · intro q; by_cases hq : q = p
    · subst hq; rw [upd_self]; exact heo
    · rw [upd_ne _ _ hq, ho q hq]; exact h.envOpen q
  · intro q; by_cases hq : q = p
    · subst hq; rw [upd_self]; exact hdo
    · rw [upd_ne _ _ hq, ho q hq]; exact h.dbOpen q
  · intro q; by_cases hq : q = p
    · subst hq; exact fun _ => hal
    · rw [ho q hq]; exact h.alive q
  · intro q j; by_cases hq : q = p
    · subst hq; exact fun _ => hal
    · rw [ho q hq, hl]; exact h.lives q j
  · rw [hn, hx]; exact h.names
  · intro q; rw [f, hx]; exact h.fds q
  · rw [hx, hl]; exact h.unused
  · intro q; rw [f, hn]; exact h.envFd q
  · intro q; rw [e1, f, hn, hl]; exact h.env q
  · intro q r; rw [e1, e1]; exact h.one q r
  · rw [hn, hl]; exact h.below
  · intro q j; rw [e1, e3, f, hn, hl]; exact h.mine q j
  · intro q; rw [e3, f]; exact h.held q
  · intro q d j; rw [e1, e2, hn, hl]; exact h.used q d j
  · intro q; rw [e2, hn]; exact h.usedName q
  · intro q d; rw [e4, f, hl]; exact h.fresh q d
  · intro q j; rw [e1, hl]; exact h.kids q j

/-- The end of a process. -/
theorem die (h : Inv K s L lab) (p : Pid) : Inv K (s.die p) (upd L p {}) lab := by
  have o : ∀ q, q ≠ p → (s.die p).procs q = s.procs q := fun q hq => upd_ne _ _ hq
  have d : (s.die p).procs p = {} := upd_self _ _ _
  have m : ∀ q j, q ∈ (s.die p).lockedBy j ↔ q ∈ s.lockedBy j ∧ q ≠ p := by
    intro q j; simp [Sys.die]
  have z : ∀ j, s.lockedBy j = [] → (s.die p).lockedBy j = [] := by
    intro j hj; simp [Sys.die, hj]
  have z' : ∀ j, (s.die p).lockedBy j ≠ [] → s.lockedBy j ≠ [] := fun j hj hc => hj (z j hc)
  refine ⟨?_, ?_, ?_, ?_, ?_, ?_, ?_, ?_, ?_, ?_, ?_, ?_, ?_, ?_, ?_, ?_, ?_, ?_, ?_⟩
  · intro q; by_cases hq : q = p
    · subst hq; rw [upd_self, d]; rfl
    · rw [upd_ne _ _ hq, o q hq]; exact h.ok q
  · intro q; by_cases hq : q = p
    · subst hq; rw [upd_self]; exact wf_nil
    · rw [upd_ne _ _ hq]; exact h.wf q
  · intro q; by_cases hq : q = p
    · subst hq; rw [upd_self, d]
    · rw [upd_ne _ _ hq, o q hq]; exact h.envOpen q
  · intro q; by_cases hq : q = p
    · subst hq; rw [upd_self, d]
    · rw [upd_ne _ _ hq, o q hq]; exact h.dbOpen q
  · intro q; by_cases hq : q = p
    · subst hq; rw [d]; exact fun hc => absurd rfl hc
    · rw [o q hq]; exact h.alive q
  · intro q j hq
    obtain ⟨h1, h2⟩ := (m q j).mp hq
    rw [o q h2]; exact h.lives q j h1
  · exact h.names
  · intro q l i; by_cases hq : q = p
    · subst hq; rw [d]; exact fun hc => absurd hc (by simp)
    · rw [o q hq]; exact h.fds q l i
  · exact fun j hj => z j (h.unused j hj)
  · intro q i; by_cases hq : q = p
    · subst hq; rw [d]; exact fun hc => absurd hc (by simp)
    · rw [o q hq]; exact h.envFd q i
  · intro q; by_cases hq : q = p
    · subst hq; rw [upd_self]; exact fun hc => absurd hc (by simp)
    · rw [upd_ne _ _ hq, o q hq]
      intro he
      obtain ⟨i, h1, h2, h3⟩ := h.env q he
      exact ⟨i, h1, h2, (m q i).mpr ⟨h3, hq⟩⟩
  · intro q r; by_cases hq : q = p
    · subst hq; rw [upd_self]; exact fun hc => absurd hc (by simp)
    · by_cases hr : r = p
      · subst hr; rw [upd_self]; exact fun _ hc => absurd hc (by simp)
      · rw [upd_ne _ _ hq, upd_ne _ _ hr]; exact h.one q r
  · intro q j hq
    obtain ⟨h1, h2⟩ := (m q j).mp hq
    obtain ⟨i, h3, h4⟩ := h.below q j h1
    exact ⟨i, h3, (m q i).mpr ⟨h4, h2⟩⟩
  · intro q j; by_cases hq : q = p
    · subst hq; rw [upd_self]; exact fun hc => absurd hc (by simp)
    · rw [upd_ne _ _ hq, o q hq]
      exact fun he hj => h.mine q j he ((m q j).mp hj).1
  · intro q; by_cases hq : q = p
    · subst hq; rw [upd_self]; exact fun d hd => absurd hd (by simp)
    · rw [upd_ne _ _ hq, o q hq]; exact h.held q
  · intro q d j; by_cases hq : q = p
    · subst hq; rw [upd_self]; exact fun hc => absurd hc (by simp)
    · rw [upd_ne _ _ hq]
      exact fun he hd hj => h.used q d j he hd (z' j hj)
  · intro q; by_cases hq : q = p
    · subst hq; rw [upd_self]; exact fun d hd => absurd hd (by simp)
    · rw [upd_ne _ _ hq]; exact h.usedName q
  · intro q d; by_cases hq : q = p
    · subst hq; rw [upd_self]; exact fun hc => absurd hc (by simp)
    · rw [upd_ne _ _ hq, o q hq]
      intro hd
      obtain ⟨j, h1, h2⟩ := h.fresh q d hd
      exact ⟨j, h1, z j h2⟩
  · intro q j hq
    obtain ⟨h1, h2⟩ := (m q j).mp hq
    rw [upd_ne _ _ h2]; exact h.kids q j h1

/-- Another program is started. -/
theorem fork (h : Inv K s L lab) {p c : Pid} (hc : (s.procs c).alive = false) (hk : K c) :
    Inv K { s.setProc c { alive := true } with lockedBy := fun i => if p ∈ s.lockedBy i then c :: s.lockedBy i else s.lockedBy i }
      L lab := by
  generalize hs : ({ s.setProc c { alive := true } with
    lockedBy := fun i => if p ∈ s.lockedBy i then c :: s.lockedBy i else s.lockedBy i } : Sys) = s'
  have o : ∀ q, q ≠ c → s'.procs q = s.procs q := by subst hs; exact fun q hq => upd_ne _ _ hq
  have d : s'.procs c = { alive := true } := by subst hs; exact upd_self _ _ _
  have hn : s'.names = s.names := by subst hs; rfl
  have hx : s'.next = s.next := by subst hs; rfl
  have m : ∀ q j, q ∈ s'.lockedBy j ↔ q ∈ s.lockedBy j ∨ (q = c ∧ p ∈ s.lockedBy j) := by
    intro q j
    subst hs
    by_cases hp : p ∈ s.lockedBy j
    · simp [hp, or_comm]
    · simp [hp]
  have z : ∀ j, s'.lockedBy j = [] ↔ s.lockedBy j = [] := by
    intro j
    subst hs
    by_cases hp : p ∈ s.lockedBy j
    · simp only [hp, if_true]
      constructor
      · intro h; cases h
      · intro h; rw [h] at hp; simp at hp
    · simp [hp]
  have pc : (s.procs c).prog = [] := by
    cases hp : (s.procs c).prog with
    | nil => rfl
    | cons a r =>
      have := h.alive c (by rw [hp]; simp)
      rw [hc] at this
      cases this
  have lc : L c = {} := by
    have := h.ok c
    rw [pc] at this
    exact this
  refine ⟨?_, h.wf, ?_, ?_, ?_, ?_, ?_, ?_, ?_, ?_, ?_, h.one, ?_, ?_, ?_, ?_, ?_, ?_, ?_⟩
  · intro q; by_cases hq : q = c
    · subst hq; rw [d, lc]; rfl
    · rw [o q hq]; exact h.ok q
  · intro q; by_cases hq : q = c
    · subst hq; rw [d, lc]
    · rw [o q hq]; exact h.envOpen q
  · intro q; by_cases hq : q = c
    · subst hq; rw [d, lc]
    · rw [o q hq]; exact h.dbOpen q
  · intro q; by_cases hq : q = c
    · subst hq; rw [d]; exact fun _ => rfl
    · rw [o q hq]; exact h.alive q
  · intro q j; by_cases hq : q = c
    · subst hq; rw [d]; exact fun _ => rfl
    · rw [o q hq]
      intro hj
      rcases (m q j).mp hj with hj | hj
      · exact h.lives q j hj
      · exact absurd hj.1 hq
  · rw [hn, hx]; exact h.names
  · intro q l i; by_cases hq : q = c
    · subst hq; rw [d]; exact fun hc => absurd hc (by simp)
    · rw [o q hq, hx]; exact h.fds q l i
  · rw [hx]; exact fun j hj => (z j).mpr (h.unused j hj)
  · intro q i; by_cases hq : q = c
    · subst hq; rw [d]; exact fun hc => absurd hc (by simp)
    · rw [o q hq, hn]; exact h.envFd q i
  · intro q; by_cases hq : q = c
    · subst hq; rw [lc]; exact fun hc => absurd hc (by simp)
    · rw [o q hq, hn]
      intro he
      obtain ⟨i, h1, h2, h3⟩ := h.env q he
      exact ⟨i, h1, h2, (m q i).mpr (Or.inl h3)⟩
  · intro q j hq
    rw [hn]
    rcases (m q j).mp hq with hq | ⟨hq, hp⟩
    · obtain ⟨i, h1, h2⟩ := h.below q j hq
      exact ⟨i, h1, (m q i).mpr (Or.inl h2)⟩
    · obtain ⟨i, h1, h2⟩ := h.below p j hp
      exact ⟨i, h1, (m q i).mpr (Or.inr ⟨hq, h2⟩)⟩
  · intro q j; by_cases hq : q = c
    · subst hq; rw [lc]; exact fun hc => absurd hc (by simp)
    · rw [o q hq, hn]
      intro he hj
      rcases (m q j).mp hj with hj | hj
      · exact h.mine q j he hj
      · exact absurd hj.1 hq
  · intro q; by_cases hq : q = c
    · subst hq; rw [lc]; exact fun d hd => absurd hd (by simp)
    · rw [o q hq]; exact h.held q
  · intro q d j he hd hj
    rw [hn] at hd
    exact h.used q d j he hd (fun hc => hj ((z j).mpr hc))
  · rw [hn]; exact h.usedName
  · intro q d; by_cases hq : q = c
    · subst hq; rw [lc]; exact fun hc => absurd hc (by simp)
    · rw [o q hq]
      intro hd
      obtain ⟨j, h1, h2⟩ := h.fresh q d hd
      exact ⟨j, h1, (z j).mpr h2⟩
  · intro q j hq
    rcases (m q j).mp hq with hq | ⟨rfl, _⟩
    · exact h.kids q j hq
    · exact Or.inr hk

variable {grp : Str → Grp}

/-- Facts about the lock files of databases. -/
theorem db_env (h : Inv K s L lab) {p : Pid} {d : Str} {j : Nat} (hj : (s.procs p).fds (.db d) = some j) : s.names .env ≠ some j := by
  intro hc
  have h1 := (h.names _ _ hc).1
  rw [(h.fds _ _ _ hj).1] at h1
  cases h1

/-- `dbenv.lock` is opened. -/
theorem openEnvLk (h : Inv K s L lab) {p : Pid} {rest : List Act} (hp : (s.procs p).prog = .openLk .env :: rest) :
    ∃ lab', Inv K (act grp s p (.openLk .env) rest) L lab' := by
  have hok := h.ok p
  rw [hp] at hok
  obtain ⟨hpre, hok⟩ := hok
  have hal := h.alive p (by rw [hp]; simp)
  have hwf := h.wf p
  have hne : (L p).env = false := hpre
  obtain ⟨_, _, hus, hhe, hfr⟩ := hwf.none hne
  cases hn : s.names .env with
  | some i =>
    refine ⟨lab, ?_⟩
    generalize hs : act grp s p (.openLk .env) rest = s'
    simp only [act, hn] at hs
    have o : ∀ q, q ≠ p → s'.procs q = s.procs q := by subst hs; exact fun q hq => upd_ne _ _ hq
    have d : s'.procs p = { s.procs p with prog := rest, fds := upd (s.procs p).fds .env (some i) } := by
      subst hs; exact upd_self _ _ _
    have hn' : s'.names = s.names := by subst hs; rfl
    have hx : s'.next = s.next := by subst hs; rfl
    have hl : s'.lockedBy = s.lockedBy := by subst hs; rfl
    refine ⟨?_, h.wf, ?_, ?_, ?_, ?_, ?_, ?_, ?_, ?_, ?_, h.one, ?_, ?_, ?_, ?_, ?_, ?_, ?_⟩
    · intro q; by_cases hq : q = p
      · subst hq; rw [d]; exact hok
      · rw [o q hq]; exact h.ok q
    · intro q; by_cases hq : q = p
      · subst hq; rw [d]; exact h.envOpen q
      · rw [o q hq]; exact h.envOpen q
    · intro q; by_cases hq : q = p
      · subst hq; rw [d]; exact h.dbOpen q
      · rw [o q hq]; exact h.dbOpen q
    · intro q; by_cases hq : q = p
      · subst hq; rw [d]; exact fun _ => hal
      · rw [o q hq]; exact h.alive q
    · intro q j; by_cases hq : q = p
      · subst hq; rw [d]; exact fun _ => hal
      · rw [o q hq, hl]; exact h.lives q j
    · rw [hn', hx]; exact h.names
    · intro q l k; by_cases hq : q = p
      · subst hq; rw [d, hx]
        dsimp only
        by_cases hle : l = .env
        · subst hle
          rw [upd_self, Option.some.injEq]
          rintro rfl
          exact h.names _ _ hn
        · rw [upd_ne _ _ hle]; exact h.fds q l k
      · rw [o q hq, hx]; exact h.fds q l k
    · rw [hx, hl]; exact h.unused
    · intro q k; by_cases hq : q = p
      · subst hq; rw [d, hn', hn]
        dsimp only
        rw [upd_self]; exact id
      · rw [o q hq, hn']; exact h.envFd q k
    · intro q he; by_cases hq : q = p
      · subst hq; rw [hne] at he; cases he
      · rw [o q hq, hn', hl]; exact h.env q he
    · rw [hn', hl]; exact h.below
    · intro q j he; by_cases hq : q = p
      · subst hq; rw [hne] at he; cases he
      · rw [o q hq, hn', hl]; exact h.mine q j he
    · intro q e he; by_cases hq : q = p
      · subst hq; rw [hhe] at he; cases he
      · rw [o q hq]; exact h.held q e he
    · rw [hn', hl]; exact h.used
    · rw [hn']; exact h.usedName
    · intro q e he; by_cases hq : q = p
      · subst hq; rw [hfr] at he; cases he
      · rw [o q hq, hl]; exact h.fresh q e he
    · rw [hl]; exact h.kids
  | none =>
    refine ⟨upd lab s.next .env, ?_⟩
    generalize hs : act grp s p (.openLk .env) rest = s'
    simp only [act, hn] at hs
    have o : ∀ q, q ≠ p → s'.procs q = s.procs q := by subst hs; exact fun q hq => upd_ne _ _ hq
    have d : s'.procs p = { s.procs p with prog := rest, fds := upd (s.procs p).fds .env (some s.next) } := by
      subst hs; exact upd_self _ _ _
    have hn' : s'.names = upd s.names .env (some s.next) := by subst hs; rfl
    have hx : s'.next = s.next + 1 := by subst hs; rfl
    have hl : s'.lockedBy = s.lockedBy := by subst hs; rfl
    have noE : ∀ q, (L q).env = false := by
      intro q
      cases he : (L q).env with
      | false => rfl
      | true => obtain ⟨i, h1, _⟩ := h.env q he; rw [hn] at h1; cases h1
    have noL : ∀ j q, q ∉ s.lockedBy j := by
      intro j q hq
      obtain ⟨i, h1, _⟩ := h.below q j hq; rw [hn] at h1; cases h1
    have lb : ∀ i, i < s.next → upd lab s.next .env i = lab i := fun i hi => upd_ne _ _ (Nat.ne_of_lt hi)
    refine ⟨?_, h.wf, ?_, ?_, ?_, ?_, ?_, ?_, ?_, ?_, ?_, h.one, ?_, ?_, ?_, ?_, ?_, ?_, ?_⟩
    · intro q; by_cases hq : q = p
      · subst hq; rw [d]; exact hok
      · rw [o q hq]; exact h.ok q
    · intro q; by_cases hq : q = p
      · subst hq; rw [d]; exact h.envOpen q
      · rw [o q hq]; exact h.envOpen q
    · intro q; by_cases hq : q = p
      · subst hq; rw [d]; exact h.dbOpen q
      · rw [o q hq]; exact h.dbOpen q
    · intro q; by_cases hq : q = p
      · subst hq; rw [d]; exact fun _ => hal
      · rw [o q hq]; exact h.alive q
    · intro q j; by_cases hq : q = p
      · subst hq; rw [d]; exact fun _ => hal
      · rw [o q hq, hl]; exact h.lives q j
    · intro l i hi
      rw [hn'] at hi
      rw [hx]
      by_cases hle : l = .env
      · subst hle
        rw [upd_self, Option.some.injEq] at hi
        subst hi
        exact ⟨upd_self _ _ _, Nat.lt_succ_self _⟩
      · rw [upd_ne _ _ hle] at hi
        obtain ⟨h1, h2⟩ := h.names l i hi
        rw [lb i h2]
        exact ⟨h1, Nat.lt_succ_of_lt h2⟩
    · intro q l k hk
      rw [hx]
      have old : (s.procs q).fds l = some k → upd lab s.next .env k = l ∧ k < s.next + 1 := by
        intro hk
        obtain ⟨h1, h2⟩ := h.fds q l k hk
        rw [lb k h2]
        exact ⟨h1, Nat.lt_succ_of_lt h2⟩
      by_cases hq : q = p
      · subst hq; rw [d] at hk
        dsimp only at hk
        by_cases hle : l = .env
        · subst hle
          rw [upd_self, Option.some.injEq] at hk
          subst hk
          exact ⟨upd_self _ _ _, Nat.lt_succ_self _⟩
        · rw [upd_ne _ _ hle] at hk; exact old hk
      · rw [o q hq] at hk; exact old hk
    · rw [hx, hl]; exact fun j hj => h.unused j (Nat.le_of_succ_le hj)
    · intro q k hk; by_cases hq : q = p
      · subst hq; rw [d] at hk
        dsimp only at hk
        rw [hn', upd_self]
        rw [upd_self] at hk
        exact hk
      · rw [o q hq] at hk
        have := h.envFd q k hk
        rw [hn] at this
        cases this
    · intro q he; rw [noE q] at he; cases he
    · intro q j hq; rw [hl] at hq; exact absurd hq (noL j q)
    · intro q j he; rw [noE q] at he; cases he
    · intro q e he
      rw [((h.wf q).none (noE q)).2.2.2.1] at he
      cases he
    · intro q e j he; rw [noE q] at he; cases he
    · intro q e he
      rw [((h.wf q).none (noE q)).2.2.1] at he
      cases he
    · intro q e he
      rw [((h.wf q).none (noE q)).2.2.2.2] at he
      cases he
    · rw [hl]; exact h.kids

/-- The lock file of a database is opened. -/
theorem openDbLk (h : Inv K s L lab) {p : Pid} {d₀ : Str} {rest : List Act} (hp : (s.procs p).prog = .openLk (.db d₀) :: rest) :
    ∃ lab', Inv K (act grp s p (.openLk (.db d₀)) rest) (upd L p ((L p).next (.openLk (.db d₀)))) lab' := by
  have hok := h.ok p
  rw [hp] at hok
  obtain ⟨hpre, hok⟩ := hok
  have hal := h.alive p (by rw [hp]; simp)
  have hwf := (h.wf p).next hpre
  obtain ⟨he, hnu, hfr⟩ := hpre
  have hnh : d₀ ∉ (L p).held := fun hc => hnu ((h.wf p).held _ hc)
  -- the inode
  obtain ⟨i, lab', nx, hs1, hs2, hi, hlab, hlt, hnx, hfree⟩ : ∃ (i : Nat) (lab' : Nat → Lk) (nx : Nat), (act grp s p (.openLk (.db d₀)) rest).names = upd s.names (.db d₀) (some i) ∧
      (act grp s p (.openLk (.db d₀)) rest).next = nx ∧ lab' i = .db d₀ ∧ (∀ k, k < s.next → lab' k = lab k) ∧ i < nx ∧ s.next ≤ nx ∧
      s.lockedBy i = [] ∧ (act grp s p (.openLk (.db d₀)) rest).procs =
        upd s.procs p { s.procs p with prog := rest, fds := upd (s.procs p).fds (.db d₀) (some i) } := by
    cases hn : s.names (.db d₀) with
    | some i =>
      refine ⟨i, lab, s.next, ?_, ?_, (h.names _ _ hn).1, fun _ _ => rfl, (h.names _ _ hn).2, Nat.le_refl _, ?_, ?_⟩
      · simp only [act, hn, Sys.setProc]
        funext l
        by_cases hl : l = .db d₀
        · subst hl; rw [upd_self, hn]
        · rw [upd_ne _ _ hl]
      · simp only [act, hn, Sys.setProc]
      · refine Classical.byContradiction fun hc => hnu (h.used p d₀ i he hn hc)
      · simp only [act, hn, Sys.setProc]
    | none =>
      refine ⟨s.next, upd lab s.next (.db d₀), s.next + 1, ?_, ?_, upd_self _ _ _, fun k hk => upd_ne _ _ (Nat.ne_of_lt hk),
        Nat.lt_succ_self _, Nat.le_succ _, h.unused _ (Nat.le_refl _), ?_⟩
      · simp only [act, hn, Sys.setProc]
      · simp only [act, hn, Sys.setProc]
      · simp only [act, hn, Sys.setProc]
  obtain ⟨hfree, hpr⟩ := hfree
  have hl : (act grp s p (.openLk (.db d₀)) rest).lockedBy = s.lockedBy := by
    cases hn : s.names (.db d₀) <;> simp only [act, hn, Sys.setProc]
  refine ⟨lab', ?_⟩
  generalize act grp s p (.openLk (.db d₀)) rest = s' at hs1 hs2 hpr hl
  have o : ∀ q, q ≠ p → s'.procs q = s.procs q := by intro q hq; rw [hpr]; exact upd_ne _ _ hq
  have d : s'.procs p = { s.procs p with prog := rest, fds := upd (s.procs p).fds (.db d₀) (some i) } := by
    rw [hpr]; exact upd_self _ _ _
  have oe : ∀ q, q ≠ p → (L q).env = false := by
    intro q hq
    cases hq' : (L q).env with
    | false => rfl
    | true => exact absurd (h.one q p hq' he) hq
  have ne : s'.names .env = s.names .env := by rw [hs1]; exact upd_ne _ _ (by simp)
  have fe : ∀ q, (s'.procs q).fds .env = (s.procs q).fds .env := by
    intro q
    by_cases hq : q = p
    · subst hq; rw [d]; dsimp only; rw [upd_ne _ _ (by simp)]
    · rw [o q hq]
  refine ⟨?_, ?_, ?_, ?_, ?_, ?_, ?_, ?_, ?_, ?_, ?_, ?_, ?_, ?_, ?_, ?_, ?_, ?_, ?_⟩
  · intro q; by_cases hq : q = p
    · subst hq; rw [d, upd_self]; exact hok
    · rw [o q hq, upd_ne _ _ hq]; exact h.ok q
  · intro q; by_cases hq : q = p
    · subst hq; rw [upd_self]; exact hwf
    · rw [upd_ne _ _ hq]; exact h.wf q
  · intro q; by_cases hq : q = p
    · subst hq; rw [d, upd_self]; exact h.envOpen q
    · rw [o q hq, upd_ne _ _ hq]; exact h.envOpen q
  · intro q; by_cases hq : q = p
    · subst hq; rw [d, upd_self]; exact h.dbOpen q
    · rw [o q hq, upd_ne _ _ hq]; exact h.dbOpen q
  · intro q; by_cases hq : q = p
    · subst hq; rw [d]; exact fun _ => hal
    · rw [o q hq]; exact h.alive q
  · intro q j; by_cases hq : q = p
    · subst hq; rw [d]; exact fun _ => hal
    · rw [o q hq, hl]; exact h.lives q j
  · intro l k hk
    rw [hs1] at hk
    rw [hs2]
    by_cases hle : l = .db d₀
    · subst hle
      rw [upd_self, Option.some.injEq] at hk
      subst hk
      exact ⟨hi, hlt⟩
    · rw [upd_ne _ _ hle] at hk
      obtain ⟨h1, h2⟩ := h.names l k hk
      rw [hlab k h2]
      exact ⟨h1, Nat.lt_of_lt_of_le h2 hnx⟩
  · intro q l k hk
    rw [hs2]
    have old : (s.procs q).fds l = some k → lab' k = l ∧ k < nx := by
      intro hk
      obtain ⟨h1, h2⟩ := h.fds q l k hk
      rw [hlab k h2]
      exact ⟨h1, Nat.lt_of_lt_of_le h2 hnx⟩
    by_cases hq : q = p
    · subst hq; rw [d] at hk
      dsimp only at hk
      by_cases hle : l = .db d₀
      · subst hle
        rw [upd_self, Option.some.injEq] at hk
        subst hk
        exact ⟨hi, hlt⟩
      · rw [upd_ne _ _ hle] at hk; exact old hk
    · rw [o q hq] at hk; exact old hk
  · rw [hs2, hl]; exact fun j hj => h.unused j (Nat.le_trans hnx hj)
  · intro q k; rw [fe, ne]; exact h.envFd q k
  · intro q; by_cases hq : q = p
    · subst hq; rw [upd_self, ne, fe, hl]; exact fun _ => h.env q he
    · rw [upd_ne _ _ hq, oe q hq]; exact fun hc => by cases hc
  · intro q r hq hr
    have key : ∀ q, (upd L p ((L p).next (.openLk (.db d₀))) q).env = (L q).env := by
      intro q; by_cases hq : q = p
      · subst hq; rw [upd_self]; rfl
      · rw [upd_ne _ _ hq]
    rw [key] at hq hr
    exact h.one q r hq hr
  · rw [hl, ne]; exact h.below
  · intro q j; by_cases hq : q = p
    · subst hq
      rw [upd_self, ne, hl]
      intro _ hj
      rcases h.mine q j he hj with h1 | ⟨e, h1, h2⟩
      · exact Or.inl h1
      · refine Or.inr ⟨e, h1, ?_⟩
        rw [d]
        dsimp only
        rw [upd_ne _ _ (by rintro ⟨rfl⟩; exact hnh h1)]
        exact h2
    · rw [upd_ne _ _ hq, oe q hq]; exact fun hc => by cases hc
  · intro q e; by_cases hq : q = p
    · subst hq; rw [upd_self, d]
      intro hd
      obtain ⟨j, hj⟩ := h.held q e hd
      refine ⟨j, ?_⟩
      dsimp only
      rw [upd_ne _ _ (by rintro ⟨rfl⟩; exact hnh hd)]
      exact hj
    · rw [upd_ne _ _ hq, o q hq]; exact h.held q e
  · intro q e j; by_cases hq : q = p
    · subst hq; rw [upd_self, hs1, hl]
      intro _ hj hne
      by_cases hed : e = d₀
      · subst hed; exact List.mem_cons_self
      · rw [upd_ne _ _ (by simpa using hed)] at hj
        exact List.mem_cons_of_mem _ (h.used q e j he hj hne)
    · rw [upd_ne _ _ hq, oe q hq]; exact fun hc => by cases hc
  · intro q e he'
    rw [hs1]
    by_cases hed : e = d₀
    · subst hed; exact ⟨i, upd_self _ _ _⟩
    · rw [upd_ne _ _ (by simpa using hed)]
      by_cases hq : q = p
      · subst hq; rw [upd_self] at he'
        rcases List.mem_cons.mp he' with rfl | he'
        · exact absurd rfl hed
        · exact h.usedName q e he'
      · rw [upd_ne _ _ hq] at he'; exact h.usedName q e he'
  · intro q e; by_cases hq : q = p
    · subst hq; rw [upd_self, d, hl]
      intro hd
      simp only [Loc.next, Option.some.injEq] at hd
      subst hd
      exact ⟨i, upd_self _ _ _, hfree⟩
    · rw [upd_ne _ _ hq, o q hq, hl]; exact h.fresh q e
  · intro q j; by_cases hq : q = p
    · subst hq; rw [upd_self]; exact fun _ => Or.inl he
    · rw [upd_ne _ _ hq, hl]; exact h.kids q j

/-- The environment is locked. -/
theorem flockEnv (h : Inv K s L lab) {p : Pid} {i : Nat} {rest : List Act} (hp : (s.procs p).prog = .flock .env :: rest)
    (hi : (s.procs p).fds .env = some i) (h0 : s.lockedBy i = []) :
    Inv K (act grp s p (.flock .env) rest) (upd L p ((L p).next (.flock .env))) lab := by
  have hok := h.ok p
  rw [hp] at hok
  obtain ⟨hpre, hok⟩ := hok
  have hal := h.alive p (by rw [hp]; simp)
  have hwf := (h.wf p).next hpre
  have hn := h.envFd p i hi
  have fr := h.free hn h0
  have noE := h.noEnv hn h0
  have em : ∀ q, (L q).used = [] ∧ (L q).held = [] ∧ (L q).fresh = none := fun q => ((h.wf q).none (noE q)).2.2
  have em' : ∀ q, (upd L p ((L p).next (.flock .env)) q).used = [] ∧ (upd L p ((L p).next (.flock .env)) q).held = [] ∧
      (upd L p ((L p).next (.flock .env)) q).fresh = none := by
    intro q; by_cases hq : q = p
    · subst hq; rw [upd_self]; exact em q
    · rw [upd_ne _ _ hq]; exact em q
  have me : ∀ q, (upd L p ((L p).next (.flock .env)) q).env = true → q = p := by
    intro q; by_cases hq : q = p
    · exact fun _ => hq
    · rw [upd_ne _ _ hq, noE q]; exact fun hc => by cases hc
  generalize hs : act grp s p (.flock .env) rest = s'
  simp only [act, hi, h0, if_true] at hs
  have o : ∀ q, q ≠ p → s'.procs q = s.procs q := by subst hs; exact fun q hq => upd_ne _ _ hq
  have d : s'.procs p = { s.procs p with prog := rest } := by subst hs; exact upd_self _ _ _
  have hn' : s'.names = s.names := by subst hs; rfl
  have hx : s'.next = s.next := by subst hs; rfl
  have hl : s'.lockedBy = upd s.lockedBy i [p] := by subst hs; rfl
  have m : ∀ q j, q ∈ s'.lockedBy j → q = p ∧ j = i := by
    intro q j hq
    rw [hl] at hq
    by_cases hj : j = i
    · subst hj; rw [upd_self] at hq; exact ⟨List.mem_singleton.mp hq, rfl⟩
    · rw [upd_ne _ _ hj, fr j] at hq; cases hq
  have mp : p ∈ s'.lockedBy i := by rw [hl, upd_self]; exact List.mem_singleton.mpr rfl
  have ff : ∀ q, (s'.procs q).fds = (s.procs q).fds := by
    intro q; by_cases hq : q = p
    · subst hq; rw [d]
    · rw [o q hq]
  refine ⟨?_, ?_, ?_, ?_, ?_, ?_, ?_, ?_, ?_, ?_, ?_, ?_, ?_, ?_, ?_, ?_, ?_, ?_, ?_⟩
  · intro q; by_cases hq : q = p
    · subst hq; rw [d, upd_self]; exact hok
    · rw [o q hq, upd_ne _ _ hq]; exact h.ok q
  · intro q; by_cases hq : q = p
    · subst hq; rw [upd_self]; exact hwf
    · rw [upd_ne _ _ hq]; exact h.wf q
  · intro q; by_cases hq : q = p
    · subst hq; rw [d, upd_self]; exact h.envOpen q
    · rw [o q hq, upd_ne _ _ hq]; exact h.envOpen q
  · intro q; by_cases hq : q = p
    · subst hq; rw [d, upd_self]; exact h.dbOpen q
    · rw [o q hq, upd_ne _ _ hq]; exact h.dbOpen q
  · intro q; by_cases hq : q = p
    · subst hq; rw [d]; exact fun _ => hal
    · rw [o q hq]; exact h.alive q
  · intro q j hq
    rw [(m q j hq).1, d]
    exact hal
  · rw [hn', hx]; exact h.names
  · intro q; rw [ff, hx]; exact h.fds q
  · intro j hj
    rw [hx] at hj
    have := (h.names _ _ hn).2
    rw [hl, upd_ne _ _ (by omega)]
    exact fr j
  · intro q; rw [ff, hn']; exact h.envFd q
  · intro q he
    rw [me q he, ff, hn']
    exact ⟨i, hn, hi, mp⟩
  · intro q r hq hr; rw [me q hq, me r hr]
  · intro q j hq
    rw [(m q j hq).1, hn']
    exact ⟨i, hn, mp⟩
  · intro q j he hq
    rw [(m q j hq).2, hn']
    exact Or.inl hn
  · intro q e he; rw [(em' q).2.1] at he; cases he
  · intro q e j he hd hne
    have hj : j = i := by
      refine Classical.byContradiction fun hc => hne ?_
      rw [hl, upd_ne _ _ hc]; exact fr j
    rw [hn'] at hd
    subst hj
    have h1 := (h.names _ _ hd).1
    rw [(h.names _ _ hn).1] at h1
    cases h1
  · intro q e he; rw [(em' q).1] at he; cases he
  · intro q e he; rw [(em' q).2.2] at he; cases he
  · intro q j hq
    rw [(m q j hq).1, upd_self]
    exact Or.inl rfl

/-- A database is locked: it never fails. -/
theorem flockDb (h : Inv K s L lab) {p : Pid} {d₀ : Str} {rest : List Act} (hp : (s.procs p).prog = .flock (.db d₀) :: rest) :
    ∃ i, (s.procs p).fds (.db d₀) = some i ∧ s.lockedBy i = [] ∧
      Inv K (act grp s p (.flock (.db d₀)) rest) (upd L p ((L p).next (.flock (.db d₀)))) lab := by
  have hok := h.ok p
  rw [hp] at hok
  obtain ⟨hpre, hok⟩ := hok
  have hal := h.alive p (by rw [hp]; simp)
  have hwf := (h.wf p).next hpre
  obtain ⟨he, hfr⟩ := hpre
  obtain ⟨i, hi, h0⟩ := h.fresh p d₀ hfr
  refine ⟨i, hi, h0, ?_⟩
  obtain ⟨i₀, hn0, hf0, hl0⟩ := h.env p he
  have hne : i ≠ i₀ := fun hc => h.db_env hi (by rw [hn0, hc])
  have oe : ∀ q, q ≠ p → (L q).env = false := by
    intro q hq
    cases hq' : (L q).env with
    | false => rfl
    | true => exact absurd (h.one q p hq' he) hq
  generalize hs : act grp s p (.flock (.db d₀)) rest = s'
  simp only [act, hi, h0, if_true] at hs
  have o : ∀ q, q ≠ p → s'.procs q = s.procs q := by subst hs; exact fun q hq => upd_ne _ _ hq
  have d : s'.procs p = { s.procs p with prog := rest } := by subst hs; exact upd_self _ _ _
  have hn' : s'.names = s.names := by subst hs; rfl
  have hx : s'.next = s.next := by subst hs; rfl
  have hl : s'.lockedBy = upd s.lockedBy i [p] := by subst hs; rfl
  have m : ∀ q j, q ∈ s'.lockedBy j → (q = p ∧ j = i) ∨ q ∈ s.lockedBy j := by
    intro q j hq
    rw [hl] at hq
    by_cases hj : j = i
    · subst hj; rw [upd_self] at hq; exact Or.inl ⟨List.mem_singleton.mp hq, rfl⟩
    · rw [upd_ne _ _ hj] at hq; exact Or.inr hq
  have m0 : s'.lockedBy i₀ = s.lockedBy i₀ := by rw [hl, upd_ne _ _ (Ne.symm hne)]
  have ff : ∀ q, (s'.procs q).fds = (s.procs q).fds := by
    intro q; by_cases hq : q = p
    · subst hq; rw [d]
    · rw [o q hq]
  refine ⟨?_, ?_, ?_, ?_, ?_, ?_, ?_, ?_, ?_, ?_, ?_, ?_, ?_, ?_, ?_, ?_, ?_, ?_, ?_⟩
  · intro q; by_cases hq : q = p
    · subst hq; rw [d, upd_self]; exact hok
    · rw [o q hq, upd_ne _ _ hq]; exact h.ok q
  · intro q; by_cases hq : q = p
    · subst hq; rw [upd_self]; exact hwf
    · rw [upd_ne _ _ hq]; exact h.wf q
  · intro q; by_cases hq : q = p
    · subst hq; rw [d, upd_self]; exact h.envOpen q
    · rw [o q hq, upd_ne _ _ hq]; exact h.envOpen q
  · intro q; by_cases hq : q = p
    · subst hq; rw [d, upd_self]; exact h.dbOpen q
    · rw [o q hq, upd_ne _ _ hq]; exact h.dbOpen q
  · intro q; by_cases hq : q = p
    · subst hq; rw [d]; exact fun _ => hal
    · rw [o q hq]; exact h.alive q
  · intro q j hq
    rcases m q j hq with ⟨hq, _⟩ | hq
    · rw [hq, d]; exact hal
    · by_cases hqp : q = p
      · rw [hqp, d]; exact hal
      · rw [o q hqp]; exact h.lives q j hq
  · rw [hn', hx]; exact h.names
  · intro q; rw [ff, hx]; exact h.fds q
  · intro j hj
    rw [hx] at hj
    have := (h.fds _ _ _ hi).2
    rw [hl, upd_ne _ _ (by omega)]
    exact h.unused j hj
  · intro q; rw [ff, hn']; exact h.envFd q
  · intro q; by_cases hq : q = p
    · subst hq; rw [ff, hn']; exact fun _ => ⟨i₀, hn0, hf0, by rw [m0]; exact hl0⟩
    · rw [upd_ne _ _ hq, oe q hq]; exact fun hc => by cases hc
  · intro q r hq hr
    have key : ∀ q, (upd L p ((L p).next (.flock (.db d₀))) q).env = (L q).env := by
      intro q; by_cases hq : q = p
      · subst hq; rw [upd_self]; rfl
      · rw [upd_ne _ _ hq]
    rw [key] at hq hr
    exact h.one q r hq hr
  · intro q j hq
    rw [hn']
    refine ⟨i₀, hn0, ?_⟩
    rw [m0]
    rcases m q j hq with ⟨hq, _⟩ | hq
    · rw [hq]; exact hl0
    · obtain ⟨k, hk, h2⟩ := h.below q j hq
      rw [hn0, Option.some.injEq] at hk
      rw [hk]; exact h2
  · intro q j; by_cases hq : q = p
    · subst hq
      rw [upd_self, ff, hn']
      intro _ hj
      rcases m q j hj with ⟨_, hj⟩ | hj
      · subst hj; exact Or.inr ⟨d₀, List.mem_cons_self, hi⟩
      · rcases h.mine q j he hj with h1 | ⟨e, h1, h2⟩
        · exact Or.inl h1
        · exact Or.inr ⟨e, List.mem_cons_of_mem _ h1, h2⟩
    · rw [upd_ne _ _ hq, oe q hq]; exact fun hc => by cases hc
  · intro q e; rw [ff]; by_cases hq : q = p
    · subst hq; rw [upd_self]
      intro hd
      rcases List.mem_cons.mp hd with rfl | hd
      · exact ⟨i, hi⟩
      · exact h.held q e hd
    · rw [upd_ne _ _ hq]; exact h.held q e
  · intro q e j; by_cases hq : q = p
    · subst hq; rw [upd_self, hn', hl]
      intro _ hj hne
      by_cases hji : j = i
      · subst hji
        have h1 := (h.names _ _ hj).1
        rw [(h.fds _ _ _ hi).1] at h1
        cases h1
        exact ((h.wf q).fresh _ hfr).1
      · rw [upd_ne _ _ hji] at hne
        exact h.used q e j he hj hne
    · rw [upd_ne _ _ hq, oe q hq]; exact fun hc => by cases hc
  · intro q e; rw [hn']; by_cases hq : q = p
    · subst hq; rw [upd_self]; exact h.usedName q e
    · rw [upd_ne _ _ hq]; exact h.usedName q e
  · intro q e; by_cases hq : q = p
    · subst hq; rw [upd_self]; exact fun hc => by cases hc
    · rw [upd_ne _ _ hq]
      intro hd
      rw [((h.wf q).none (oe q hq)).2.2.2.2] at hd
      cases hd
  · intro q j hq; by_cases hqp : q = p
    · subst hqp; rw [upd_self]; exact Or.inl he
    · rw [upd_ne _ _ hqp]
      exact h.kids q j ((m q j hq).resolve_left fun h1 => hqp h1.1)

/-- The lock of the environment is given back. -/
theorem closeEnvLk (h : Inv K s L lab) {p : Pid} {rest : List Act} (hp : (s.procs p).prog = .closeLk .env :: rest) :
    (∃ i, (s.procs p).fds .env = some i) ∧ Inv K (act grp s p (.closeLk .env) rest) (upd L p ((L p).next (.closeLk .env))) lab := by
  have hok := h.ok p
  rw [hp] at hok
  obtain ⟨hpre, hok⟩ := hok
  have hal := h.alive p (by rw [hp]; simp)
  have hwf := (h.wf p).next hpre
  obtain ⟨he, he1, he2, he3, he4, he5⟩ := hpre
  obtain ⟨i, hn, hi, hpl⟩ := h.env p he
  refine ⟨⟨i, hi⟩, ?_⟩
  have oe : ∀ q, q ≠ p → (L q).env = false := by
    intro q hq
    cases hq' : (L q).env with
    | false => rfl
    | true => exact absurd (h.one q p hq' he) hq
  have noE : ∀ q, (upd L p ((L p).next (.closeLk .env)) q).env = false := by
    intro q; by_cases hq : q = p
    · subst hq; rw [upd_self]; rfl
    · rw [upd_ne _ _ hq]; exact oe q hq
  have hwf' : ∀ q, (upd L p ((L p).next (.closeLk .env)) q).Wf := by
    intro q; by_cases hq : q = p
    · subst hq; rw [upd_self]; exact hwf
    · rw [upd_ne _ _ hq]; exact h.wf q
  have em' := fun q => ((hwf' q).none (noE q)).2.2
  have only : ∀ j, p ∈ s.lockedBy j → j = i := by
    intro j hj
    rcases h.mine p j he hj with h1 | ⟨e, h1, _⟩
    · rw [hn, Option.some.injEq] at h1; exact h1.symm
    · rw [he4] at h1; cases h1
  generalize hs : act grp s p (.closeLk .env) rest = s'
  simp only [act, hi] at hs
  have o : ∀ q, q ≠ p → s'.procs q = s.procs q := by subst hs; exact fun q hq => upd_ne _ _ hq
  have d : s'.procs p = { s.procs p with prog := rest, fds := upd (s.procs p).fds .env none } := by subst hs; exact upd_self _ _ _
  have hn' : s'.names = s.names := by subst hs; rfl
  have hx : s'.next = s.next := by subst hs; rfl
  have hl : s'.lockedBy = upd s.lockedBy i ((s.lockedBy i).filter (· ≠ p)) := by subst hs; rfl
  have m : ∀ q j, q ∈ s'.lockedBy j ↔ q ∈ s.lockedBy j ∧ q ≠ p := by
    intro q j
    rw [hl]
    by_cases hj : j = i
    · subst hj; rw [upd_self]; simp
    · rw [upd_ne _ _ hj]
      constructor
      · intro hq
        refine ⟨hq, ?_⟩
        rintro rfl
        exact hj (only j hq)
      · exact And.left
  refine ⟨?_, hwf', ?_, ?_, ?_, ?_, ?_, ?_, ?_, ?_, ?_, ?_, ?_, ?_, ?_, ?_, ?_, ?_, ?_⟩
  · intro q; by_cases hq : q = p
    · subst hq; rw [d, upd_self]; exact hok
    · rw [o q hq, upd_ne _ _ hq]; exact h.ok q
  · intro q; by_cases hq : q = p
    · subst hq; rw [d, upd_self]; exact h.envOpen q
    · rw [o q hq, upd_ne _ _ hq]; exact h.envOpen q
  · intro q; by_cases hq : q = p
    · subst hq; rw [d, upd_self]; exact h.dbOpen q
    · rw [o q hq, upd_ne _ _ hq]; exact h.dbOpen q
  · intro q; by_cases hq : q = p
    · subst hq; rw [d]; exact fun _ => hal
    · rw [o q hq]; exact h.alive q
  · intro q j hq
    obtain ⟨h1, h2⟩ := (m q j).mp hq
    rw [o q h2]; exact h.lives q j h1
  · rw [hn', hx]; exact h.names
  · intro q l k; rw [hx]; by_cases hq : q = p
    · subst hq; rw [d]
      dsimp only
      by_cases hle : l = .env
      · subst hle; rw [upd_self]; exact fun hc => by cases hc
      · rw [upd_ne _ _ hle]; exact h.fds q l k
    · rw [o q hq]; exact h.fds q l k
  · intro j hj
    rw [hx] at hj
    refine List.eq_nil_iff_forall_not_mem.mpr fun q hq => ?_
    rw [m, h.unused j hj] at hq
    exact absurd hq.1 (by simp)
  · intro q k; rw [hn']; by_cases hq : q = p
    · subst hq; rw [d]
      dsimp only
      rw [upd_self]; exact fun hc => by cases hc
    · rw [o q hq]; exact h.envFd q k
  · intro q hq; rw [noE] at hq; cases hq
  · intro q r hq; rw [noE] at hq; cases hq
  · intro q j hq
    obtain ⟨h1, h2⟩ := (m q j).mp hq
    obtain ⟨k, h3, h4⟩ := h.below q j h1
    rw [hn']
    exact ⟨k, h3, (m q k).mpr ⟨h4, h2⟩⟩
  · intro q j hq; rw [noE] at hq; cases hq
  · intro q e hq; rw [(em' q).2.1] at hq; cases hq
  · intro q e j hq; rw [noE] at hq; cases hq
  · intro q e hq; rw [(em' q).1] at hq; cases hq
  · intro q e hq; rw [(em' q).2.2] at hq; cases hq
  · intro q j hq
    obtain ⟨h1, h2⟩ := (m q j).mp hq
    rw [upd_ne _ _ h2]
    exact h.kids q j h1

/-- The lock of a database is given back. -/
theorem closeDbLk (h : Inv K s L lab) {p : Pid} {d₀ : Str} {rest : List Act} (hp : (s.procs p).prog = .closeLk (.db d₀) :: rest) :
    (∃ i, (s.procs p).fds (.db d₀) = some i) ∧
      Inv K (act grp s p (.closeLk (.db d₀)) rest) (upd L p ((L p).next (.closeLk (.db d₀)))) lab := by
  have hok := h.ok p
  rw [hp] at hok
  obtain ⟨hpre, hok⟩ := hok
  have hal := h.alive p (by rw [hp]; simp)
  have hwf := (h.wf p).next hpre
  obtain ⟨he, hhe, hfr⟩ := hpre
  obtain ⟨i, hi⟩ := h.held p d₀ hhe
  refine ⟨⟨i, hi⟩, ?_⟩
  obtain ⟨i₀, hn0, hf0, hl0⟩ := h.env p he
  have hne : i ≠ i₀ := fun hc => h.db_env hi (by rw [hn0, hc])
  have oe : ∀ q, q ≠ p → (L q).env = false := by
    intro q hq
    cases hq' : (L q).env with
    | false => rfl
    | true => exact absurd (h.one q p hq' he) hq
  generalize hs : act grp s p (.closeLk (.db d₀)) rest = s'
  simp only [act, hi] at hs
  have o : ∀ q, q ≠ p → s'.procs q = s.procs q := by subst hs; exact fun q hq => upd_ne _ _ hq
  have d : s'.procs p = { s.procs p with prog := rest, fds := upd (s.procs p).fds (.db d₀) none } := by
    subst hs; exact upd_self _ _ _
  have hn' : s'.names = s.names := by subst hs; rfl
  have hx : s'.next = s.next := by subst hs; rfl
  have hl : s'.lockedBy = upd s.lockedBy i ((s.lockedBy i).filter (· ≠ p)) := by subst hs; rfl
  have m : ∀ q j, q ∈ s'.lockedBy j → q ∈ s.lockedBy j ∧ (j = i → q ≠ p) := by
    intro q j
    rw [hl]
    by_cases hj : j = i
    · subst hj; rw [upd_self]; simp
    · rw [upd_ne _ _ hj]
      exact fun hq => ⟨hq, fun hc => absurd hc hj⟩
  have z : ∀ j, s.lockedBy j = [] → s'.lockedBy j = [] := by
    intro j hj
    refine List.eq_nil_iff_forall_not_mem.mpr fun q hq => ?_
    have := (m q j hq).1
    rw [hj] at this
    cases this
  have m0 : s'.lockedBy i₀ = s.lockedBy i₀ := by rw [hl, upd_ne _ _ (Ne.symm hne)]
  have fe : ∀ q, (s'.procs q).fds .env = (s.procs q).fds .env := by
    intro q
    by_cases hq : q = p
    · subst hq; rw [d]; dsimp only; rw [upd_ne _ _ (by simp)]
    · rw [o q hq]
  refine ⟨?_, ?_, ?_, ?_, ?_, ?_, ?_, ?_, ?_, ?_, ?_, ?_, ?_, ?_, ?_, ?_, ?_, ?_, ?_⟩
  · intro q; by_cases hq : q = p
    · subst hq; rw [d, upd_self]; exact hok
    · rw [o q hq, upd_ne _ _ hq]; exact h.ok q
  · intro q; by_cases hq : q = p
    · subst hq; rw [upd_self]; exact hwf
    · rw [upd_ne _ _ hq]; exact h.wf q
  · intro q; by_cases hq : q = p
    · subst hq; rw [d, upd_self]; exact h.envOpen q
    · rw [o q hq, upd_ne _ _ hq]; exact h.envOpen q
  · intro q; by_cases hq : q = p
    · subst hq; rw [d, upd_self]; exact h.dbOpen q
    · rw [o q hq, upd_ne _ _ hq]; exact h.dbOpen q
  · intro q; by_cases hq : q = p
    · subst hq; rw [d]; exact fun _ => hal
    · rw [o q hq]; exact h.alive q
  · intro q j hq
    by_cases hqp : q = p
    · rw [hqp, d]; exact hal
    · rw [o q hqp]; exact h.lives q j (m q j hq).1
  · rw [hn', hx]; exact h.names
  · intro q l k; rw [hx]; by_cases hq : q = p
    · subst hq; rw [d]
      dsimp only
      by_cases hle : l = .db d₀
      · subst hle; rw [upd_self]; exact fun hc => by cases hc
      · rw [upd_ne _ _ hle]; exact h.fds q l k
    · rw [o q hq]; exact h.fds q l k
  · rw [hx]; exact fun j hj => z j (h.unused j hj)
  · intro q k; rw [fe, hn']; exact h.envFd q k
  · intro q; by_cases hq : q = p
    · subst hq; rw [fe, hn']; exact fun _ => ⟨i₀, hn0, hf0, by rw [m0]; exact hl0⟩
    · rw [upd_ne _ _ hq, oe q hq]; exact fun hc => by cases hc
  · intro q r hq hr
    have key : ∀ q, (upd L p ((L p).next (.closeLk (.db d₀))) q).env = (L q).env := by
      intro q; by_cases hq : q = p
      · subst hq; rw [upd_self]; rfl
      · rw [upd_ne _ _ hq]
    rw [key] at hq hr
    exact h.one q r hq hr
  · intro q j hq
    rw [hn']
    refine ⟨i₀, hn0, ?_⟩
    rw [m0]
    obtain ⟨k, hk, h2⟩ := h.below q j (m q j hq).1
    rw [hn0, Option.some.injEq] at hk
    rw [hk]; exact h2
  · intro q j; by_cases hq : q = p
    · subst hq
      rw [upd_self, hn']
      intro _ hj
      obtain ⟨h1, h2⟩ := m q j hj
      rcases h.mine q j he h1 with h3 | ⟨e, h3, h4⟩
      · exact Or.inl h3
      · have hed : e ≠ d₀ := by
          rintro rfl
          rw [hi, Option.some.injEq] at h4
          exact h2 h4.symm rfl
        refine Or.inr ⟨e, ?_, ?_⟩
        · simp only [Loc.next, List.mem_filter]
          exact ⟨h3, by simpa using hed⟩
        · rw [d]
          dsimp only
          rw [upd_ne _ _ (by simpa using hed)]
          exact h4
    · rw [upd_ne _ _ hq, oe q hq]; exact fun hc => by cases hc
  · intro q e; by_cases hq : q = p
    · subst hq; rw [upd_self]
      intro hd
      simp only [Loc.next, List.mem_filter] at hd
      obtain ⟨h1, h2⟩ := hd
      have hed : e ≠ d₀ := by simpa using h2
      rw [d]
      dsimp only
      rw [upd_ne _ _ (by simpa using hed)]
      exact h.held q e h1
    · rw [upd_ne _ _ hq, o q hq]; exact h.held q e
  · intro q e j; by_cases hq : q = p
    · subst hq; rw [upd_self, hn']
      intro _ hj hne
      exact h.used q e j he hj (fun hc => hne (z j hc))
    · rw [upd_ne _ _ hq, oe q hq]; exact fun hc => by cases hc
  · intro q e; rw [hn']; by_cases hq : q = p
    · subst hq; rw [upd_self]; exact h.usedName q e
    · rw [upd_ne _ _ hq]; exact h.usedName q e
  · intro q e; by_cases hq : q = p
    · subst hq; rw [upd_self]
      intro hd
      simp only [Loc.next, hfr] at hd
      cases hd
    · rw [upd_ne _ _ hq]
      intro hd
      rw [((h.wf q).none (oe q hq)).2.2.2.2] at hd
      cases hd
  · intro q j hq; by_cases hqp : q = p
    · subst hqp; rw [upd_self]; exact Or.inl he
    · rw [upd_ne _ _ hqp]
      exact h.kids q j (m q j hq).1

/-- The lock file of a database is removed. -/
theorem unlinkDb (h : Inv K s L lab) {p : Pid} {d₀ : Str} {rest : List Act} (hp : (s.procs p).prog = .unlinkLk (.db d₀) :: rest) :
    (∃ i, s.names (.db d₀) = some i) ∧
      Inv K (act grp s p (.unlinkLk (.db d₀)) rest) (upd L p ((L p).next (.unlinkLk (.db d₀)))) lab := by
  have hok := h.ok p
  rw [hp] at hok
  obtain ⟨hpre, hok⟩ := hok
  have hal := h.alive p (by rw [hp]; simp)
  have hwf := (h.wf p).next hpre
  obtain ⟨he, hus, hhe, hfr⟩ := hpre
  obtain ⟨i, hi⟩ := h.usedName p d₀ hus
  refine ⟨⟨i, hi⟩, ?_⟩
  have oe : ∀ q, q ≠ p → (L q).env = false := by
    intro q hq
    cases hq' : (L q).env with
    | false => rfl
    | true => exact absurd (h.one q p hq' he) hq
  generalize hs : act grp s p (.unlinkLk (.db d₀)) rest = s'
  simp only [act, hi] at hs
  have o : ∀ q, q ≠ p → s'.procs q = s.procs q := by subst hs; exact fun q hq => upd_ne _ _ hq
  have d : s'.procs p = { s.procs p with prog := rest } := by subst hs; exact upd_self _ _ _
  have hn' : s'.names = upd s.names (.db d₀) none := by subst hs; rfl
  have hx : s'.next = s.next := by subst hs; rfl
  have hl : s'.lockedBy = s.lockedBy := by subst hs; rfl
  have ne : s'.names .env = s.names .env := by rw [hn']; exact upd_ne _ _ (by simp)
  have ff : ∀ q, (s'.procs q).fds = (s.procs q).fds := by
    intro q; by_cases hq : q = p
    · subst hq; rw [d]
    · rw [o q hq]
  have e1 : ∀ q, (upd L p ((L p).next (.unlinkLk (.db d₀))) q).env = (L q).env := by
    intro q; by_cases hq : q = p
    · subst hq; rw [upd_self]; rfl
    · rw [upd_ne _ _ hq]
  have e3 : ∀ q, (upd L p ((L p).next (.unlinkLk (.db d₀))) q).held = (L q).held := by
    intro q; by_cases hq : q = p
    · subst hq; rw [upd_self]; rfl
    · rw [upd_ne _ _ hq]
  have e4 : ∀ q, (upd L p ((L p).next (.unlinkLk (.db d₀))) q).fresh = (L q).fresh := by
    intro q; by_cases hq : q = p
    · subst hq; rw [upd_self]; rfl
    · rw [upd_ne _ _ hq]
  refine ⟨?_, ?_, ?_, ?_, ?_, ?_, ?_, ?_, ?_, ?_, ?_, ?_, ?_, ?_, ?_, ?_, ?_, ?_, ?_⟩
  · intro q; by_cases hq : q = p
    · subst hq; rw [d, upd_self]; exact hok
    · rw [o q hq, upd_ne _ _ hq]; exact h.ok q
  · intro q; by_cases hq : q = p
    · subst hq; rw [upd_self]; exact hwf
    · rw [upd_ne _ _ hq]; exact h.wf q
  · intro q; by_cases hq : q = p
    · subst hq; rw [d, upd_self]; exact h.envOpen q
    · rw [o q hq, upd_ne _ _ hq]; exact h.envOpen q
  · intro q; by_cases hq : q = p
    · subst hq; rw [d, upd_self]; exact h.dbOpen q
    · rw [o q hq, upd_ne _ _ hq]; exact h.dbOpen q
  · intro q; by_cases hq : q = p
    · subst hq; rw [d]; exact fun _ => hal
    · rw [o q hq]; exact h.alive q
  · intro q j hq
    by_cases hqp : q = p
    · rw [hqp, d]; exact hal
    · rw [o q hqp]; rw [hl] at hq; exact h.lives q j hq
  · intro l k hk
    rw [hx]
    rw [hn'] at hk
    by_cases hle : l = .db d₀
    · subst hle; rw [upd_self] at hk; cases hk
    · rw [upd_ne _ _ hle] at hk; exact h.names l k hk
  · intro q; rw [ff, hx]; exact h.fds q
  · rw [hx, hl]; exact h.unused
  · intro q k; rw [ff, ne]; exact h.envFd q k
  · intro q; rw [e1, ff, ne, hl]; exact h.env q
  · intro q r; rw [e1, e1]; exact h.one q r
  · rw [ne, hl]; exact h.below
  · intro q j; rw [e1, e3, ff, ne, hl]; exact h.mine q j
  · intro q; rw [e3, ff]; exact h.held q
  · intro q e j; rw [e1]; by_cases hq : q = p
    · subst hq; rw [upd_self, hn', hl]
      intro _ hj hne
      by_cases hed : e = d₀
      · subst hed; rw [upd_self] at hj; cases hj
      · rw [upd_ne _ _ (by simpa using hed)] at hj
        simp only [Loc.next, List.mem_filter]
        exact ⟨h.used q e j he hj hne, by simpa using hed⟩
    · rw [oe q hq]; exact fun hc => by cases hc
  · intro q e; by_cases hq : q = p
    · subst hq; rw [upd_self, hn']
      intro hd
      simp only [Loc.next, List.mem_filter] at hd
      obtain ⟨h1, h2⟩ := hd
      have hed : e ≠ d₀ := by simpa using h2
      rw [upd_ne _ _ (by simpa using hed)]
      exact h.usedName q e h1
    · rw [upd_ne _ _ hq]
      intro hd
      rw [((h.wf q).none (oe q hq)).2.2.1] at hd
      cases hd
  · intro q e; rw [e4, ff, hl]; exact h.fresh q e
  · intro q j; rw [e1, hl]; exact h.kids q j

/-- Any action of a process. -/
theorem act_run (h : Inv K s L lab) {p : Pid} {a : Act} {rest : List Act} (hp : (s.procs p).prog = a :: rest) :
    ∃ L' lab', Inv K (act grp s p a rest) L' lab' ∧
      ((L p).env = true → L' p = (L p).next a ∧ ((act grp s p a rest).procs p).prog = rest ∧
        ((act grp s p a rest).procs p).alive = true) := by
  have hok := h.ok p
  rw [hp] at hok
  obtain ⟨hpre, hok⟩ := hok
  have hal := h.alive p (by rw [hp]; simp)
  have hwf := (h.wf p).next hpre
  have no : (L p).env = false → (L p).env = true → ∀ {P : Prop}, P := fun h1 h2 => by rw [h1] at h2; cases h2
  have hself : ∀ (q : Proc), (s.setProc p q).procs p = q := fun q => upd_self _ _ _
  have hoth : ∀ (q : Proc) (r : Pid), r ≠ p → (s.setProc p q).procs r = s.procs r := fun q r hr => upd_ne _ _ hr
  cases a with
  | probe =>
    refine ⟨_, lab, h.own (p := p) (M := (L p).next .probe) rfl rfl rfl (fun q hq => hoth _ q hq) ?_ ?_ hwf ?_ ?_ ?_ ⟨rfl, rfl, rfl, rfl⟩, ?_⟩ <;>
      simp only [act, hself]
    · exact hok
    · exact h.envOpen p
    · exact h.dbOpen p
    · exact hal
    · exact fun he => no hpre he
  | check g w u =>
    cases hc : checkVersion (s.verFile g) ((s.procs p).ver g) w u with
    | none => exact ⟨_, lab, by simpa only [act, hc] using h.die p, fun he => no hpre he⟩
    | some b =>
      cases b with
      | false =>
        have e : act grp s p (.check g w u) rest = s.setProc p { s.procs p with prog := rest } := by simp only [act, hc]
        rw [e]
        refine ⟨_, lab, h.own (p := p) (M := (L p).next (.check g w u)) rfl rfl rfl (fun q hq => hoth _ q hq) ?_ ?_ hwf ?_ ?_ ?_ ⟨rfl, rfl, rfl, rfl⟩, ?_⟩ <;>
          simp only [hself]
        · exact hok
        · exact h.envOpen p
        · exact h.dbOpen p
        · exact hal
        · exact fun he => no hpre he
      | true =>
        have e : act grp s p (.check g w u) rest = s.setProc p { s.procs p with prog := .trunc g :: .writeVer g :: rest } := by
          simp only [act, hc]
        rw [e]
        refine ⟨_, lab, h.own (p := p) (M := L p) rfl rfl rfl (fun q hq => hoth _ q hq) ?_ ?_ (h.wf p) ?_ ?_ ?_ ⟨rfl, rfl, rfl, rfl⟩, ?_⟩ <;>
          simp only [hself]
        · exact ⟨hpre, hpre, hok⟩
        · exact h.envOpen p
        · exact h.dbOpen p
        · exact hal
        · exact fun he => no hpre he
  | trunc g =>
    refine ⟨_, lab, h.own (p := p) (M := (L p).next (.trunc g)) rfl rfl rfl (fun q hq => hoth _ q hq) ?_ ?_ hwf ?_ ?_ ?_ ⟨rfl, rfl, rfl, rfl⟩, ?_⟩ <;>
      simp only [act, hself]
    · exact hok
    · exact h.envOpen p
    · exact h.dbOpen p
    · exact hal
    · exact fun he => no hpre he
  | writeVer g =>
    refine ⟨_, lab, h.own (p := p) (M := (L p).next (.writeVer g)) rfl rfl rfl (fun q hq => hoth _ q hq) ?_ ?_ hwf ?_ ?_ ?_ ⟨rfl, rfl, rfl, rfl⟩, ?_⟩ <;>
      simp only [act, hself]
    · exact hok
    · exact h.envOpen p
    · exact h.dbOpen p
    · exact hal
    · exact fun he => no hpre he
  | openLk l =>
    cases l with
    | env => obtain ⟨lab', h'⟩ := h.openEnvLk (grp := grp) hp; exact ⟨_, lab', h', fun he => no hpre he⟩
    | db d => obtain ⟨lab', h'⟩ := h.openDbLk (grp := grp) hp; exact ⟨_, lab', h', fun _ => ⟨upd_self _ _ _, by cases hn : s.names (.db d) <;> simp [act, hn, hal, Sys.setProc]⟩⟩
  | flock l =>
    cases l with
    | env =>
      cases hf : (s.procs p).fds .env with
      | none => exact ⟨_, lab, by simpa only [act, hf] using h.die p, fun he => no hpre he⟩
      | some i =>
        by_cases h0 : s.lockedBy i = []
        · exact ⟨_, lab, h.flockEnv hp hf h0, fun he => no hpre he⟩
        · exact ⟨_, lab, by simpa only [act, hf, if_neg h0] using h.die p, fun he => no hpre he⟩
    | db d => obtain ⟨i, h1, h2, h'⟩ := h.flockDb (grp := grp) hp; exact ⟨_, lab, h', fun _ => ⟨upd_self _ _ _, by simp [act, h1, h2, hal, Sys.setProc]⟩⟩
  | closeLk l =>
    cases l with
    | env => obtain ⟨⟨i, h1⟩, h'⟩ := h.closeEnvLk (grp := grp) hp; exact ⟨_, lab, h', fun _ => ⟨upd_self _ _ _, by simp [act, h1, hal, Sys.setProc]⟩⟩
    | db d => obtain ⟨⟨i, h1⟩, h'⟩ := h.closeDbLk (grp := grp) hp; exact ⟨_, lab, h', fun _ => ⟨upd_self _ _ _, by simp [act, h1, hal, Sys.setProc]⟩⟩
  | unlinkLk l =>
    cases l with
    | env => exact hpre.elim
    | db d => obtain ⟨⟨i, h1⟩, h'⟩ := h.unlinkDb (grp := grp) hp; exact ⟨_, lab, h', fun _ => ⟨upd_self _ _ _, by simp [act, h1, hal, Sys.setProc]⟩⟩
  | openEnv =>
    refine ⟨_, lab, h.own (p := p) (M := (L p).next .openEnv) rfl rfl rfl (fun q hq => hoth _ q hq) ?_ ?_ hwf ?_ ?_ ?_ ⟨rfl, rfl, rfl, rfl⟩, ?_⟩ <;>
      simp only [act, hself]
    · exact hok
    · rfl
    · exact h.dbOpen p
    · exact hal
    · exact fun _ => ⟨upd_self _ _ _, trivial, hal⟩
  | closeEnv =>
    refine ⟨_, lab, h.own (p := p) (M := (L p).next .closeEnv) rfl rfl rfl (fun q hq => hoth _ q hq) ?_ ?_ hwf ?_ ?_ ?_ ⟨rfl, rfl, rfl, rfl⟩, ?_⟩ <;>
      simp only [act, hself]
    · exact hok
    · rfl
    · exact h.dbOpen p
    · exact hal
    · exact fun _ => ⟨upd_self _ _ _, trivial, hal⟩
  | openDb d ro =>
    cases ro with
    | true =>
      cases hf : s.fmt d with
      | none => exact ⟨_, lab, by simpa only [act, hf] using h.die p, fun he => no hpre he⟩
      | some f =>
        have e : act grp s p (.openDb d true) rest =
            { s.setProc p { s.procs p with prog := rest } with log := s.log ++ [((s.procs p).ver (grp d), f)] } := by simp only [act, hf]
        rw [e]
        refine ⟨_, lab, h.own (p := p) (M := (L p).next (.openDb d true)) rfl rfl rfl (fun q hq => hoth _ q hq) ?_ ?_ hwf ?_ ?_ ?_ ⟨rfl, rfl, rfl, rfl⟩, ?_⟩ <;>
          simp only [hself]
        · exact hok
        · exact h.envOpen p
        · exact h.dbOpen p
        · exact hal
        · exact fun he => no hpre he
    | false =>
      refine ⟨_, lab, h.own (p := p) (M := (L p).next (.openDb d false)) rfl rfl rfl (fun q hq => hoth _ q hq) ?_ ?_ hwf ?_ ?_ ?_ ⟨rfl, rfl, rfl, rfl⟩, ?_⟩ <;>
        simp only [act, hself]
      · exact hok
      · exact h.envOpen p
      · rw [h.dbOpen p]; rfl
      · exact hal
      · exact fun _ => ⟨upd_self _ _ _, trivial, hal⟩
  | closeDb d =>
    refine ⟨_, lab, h.own (p := p) (M := (L p).next (.closeDb d)) rfl rfl rfl (fun q hq => hoth _ q hq) ?_ ?_ hwf ?_ ?_ ?_ ⟨rfl, rfl, rfl, rfl⟩, ?_⟩ <;>
      simp only [act, hself]
    · exact hok
    · exact h.envOpen p
    · rw [h.dbOpen p]; rfl
    · exact hal
    · exact fun _ => ⟨upd_self _ _ _, trivial, hal⟩
  | destroy d =>
    by_cases hc : grp d = .files ∧ (s.procs p).files = false
    · have e : act grp s p (.destroy d) rest = s.setProc p { s.procs p with prog := rest } := by simp only [act, if_pos hc]
      rw [e]
      refine ⟨_, lab, h.own (p := p) (M := (L p).next (.destroy d)) rfl rfl rfl (fun q hq => hoth _ q hq) ?_ ?_ hwf ?_ ?_ ?_ ⟨rfl, rfl, rfl, rfl⟩, ?_⟩ <;>
        simp only [hself]
      · exact hok
      · exact h.envOpen p
      · exact h.dbOpen p
      · exact hal
      · exact fun _ => ⟨upd_self _ _ _, trivial, hal⟩
    · have e : act grp s p (.destroy d) rest = { s.setProc p { s.procs p with prog := rest } with fmt := upd s.fmt d none } := by
        simp only [act, if_neg hc]
      rw [e]
      refine ⟨_, lab, h.own (p := p) (M := (L p).next (.destroy d)) rfl rfl rfl (fun q hq => hoth _ q hq) ?_ ?_ hwf ?_ ?_ ?_ ⟨rfl, rfl, rfl, rfl⟩, ?_⟩ <;>
        simp only [hself]
      · exact hok
      · exact h.envOpen p
      · exact h.dbOpen p
      · exact hal
      · exact fun _ => ⟨upd_self _ _ _, trivial, hal⟩
  | work =>
    refine ⟨_, lab, h.own (p := p) (M := (L p).next .work) rfl rfl rfl (fun q hq => hoth _ q hq) ?_ ?_ hwf ?_ ?_ ?_ ⟨rfl, rfl, rfl, rfl⟩, ?_⟩ <;>
      simp only [act, hself]
    · exact hok
    · exact h.envOpen p
    · exact h.dbOpen p
    · exact hal
    · exact fun _ => ⟨upd_self _ _ _, trivial, hal⟩

/-- Any event but `pisi clean`. -/
theorem step {dbs : List Str} (hd : dbs.Nodup) (h : Inv K s L lab) {e : Ev} (he : e ≠ .clean) (hk : ∀ p c, e = .fork p c → K c) :
    ∃ L' lab', Inv K (step grp dbs s e) L' lab' := by
  cases e with
  | start p k ver =>
    by_cases hp : (s.procs p).prog = []
    · have e : DbEnv.step grp dbs s (.start p k ver) =
          s.setProc p { s.procs p with alive := true, prog := k.prog dbs, ver := ver, files := k.files } := by
        simp only [DbEnv.step, if_pos hp]
      rw [e]
      have hL : L p = {} := by have := h.ok p; rw [hp] at this; exact this
      refine ⟨_, lab, h.own (p := p) (M := {}) rfl rfl rfl (fun q hq => upd_ne _ _ hq) ?_ ?_ wf_nil ?_ ?_ ?_ ?_⟩ <;>
        simp only [Sys.setProc, upd_self]
      · exact ok_prog hd k
      · rw [h.envOpen p, hL]
      · rw [h.dbOpen p, hL]
      · rw [hL]; exact ⟨rfl, rfl, rfl, rfl⟩
    · refine ⟨L, lab, ?_⟩
      simp only [DbEnv.step, if_neg hp]
      exact h
  | run p =>
    cases hp : (s.procs p).prog with
    | nil => refine ⟨L, lab, ?_⟩; simp only [DbEnv.step, hp]; exact h
    | cons a rest => simp only [DbEnv.step, hp]; obtain ⟨L', lab', h', _⟩ := h.act_run (grp := grp) hp; exact ⟨L', lab', h'⟩
  | exit p => exact ⟨_, lab, h.die p⟩
  | fork p c =>
    by_cases hc : (s.procs p).alive = true ∧ (s.procs c).alive = false
    · refine ⟨L, lab, ?_⟩; simp only [DbEnv.step, if_pos hc]; exact h.fork hc.2 (hk p c rfl)
    · refine ⟨L, lab, ?_⟩; simp only [DbEnv.step, if_neg hc]; exact h
  | clean => exact absurd rfl he

theorem exec {dbs : List Str} (hd : dbs.Nodup) (es : List Ev) : ∀ {s : Sys} {L : Pid → Loc} {lab : Nat → Lk}, Inv K s L lab →
    (∀ e ∈ es, e ≠ .clean) → (∀ p c, .fork p c ∈ es → K c) → ∃ L' lab', Inv K (exec grp dbs s es) L' lab' := by
  induction es with
  | nil => intro s L lab h _ _; exact ⟨L, lab, h⟩
  | cons e es ih =>
    intro s L lab h he hk
    obtain ⟨L', lab', h'⟩ := h.step (grp := grp) hd (he e List.mem_cons_self) (fun p c hc => hk p c (hc ▸ List.mem_cons_self))
    exact ih h' (fun x hx => he x (List.mem_cons_of_mem _ hx)) (fun p c hc => hk p c (List.mem_cons_of_mem _ hc))

/-- The beginning: nothing runs and there are no lock files. -/
theorem init (v : Grp → Option (Option Nat)) (f : Str → Option Nat) : Inv K { verFile := v, fmt := f } (fun _ => {}) (fun _ => .env) := by
  refine ⟨fun _ => rfl, fun _ => wf_nil, fun _ => rfl, fun _ => rfl, fun _ h => absurd rfl h, ?_, ?_, ?_, fun _ _ => rfl, ?_, ?_, ?_, ?_, ?_, ?_, ?_, ?_, ?_, ?_⟩
  all_goals (intros; first | contradiction | simp_all)

end Inv

end Pisi.DbEnv
