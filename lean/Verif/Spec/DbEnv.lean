import Verif.Model.DbEnv

/-!
# What is expected of several processes at the databases

Only the observable state of the machine is used: which process has what open, the version files and the databases.
-/
namespace Pisi.DbEnv

/-- The machine after booting: no process, no lock file; `v` are the version files and `f` the databases. -/
def boot (v : Grp → Option (Option Nat)) (f : Str → Option Nat) : Sys := { verFile := v, fmt := f }

/-- The process may change the databases: it has the environment or a database open for writing. -/
def Writing (s : Sys) (p : Pid) : Prop := (s.procs p).envOpen = true ∨ (s.procs p).dbOpen ≠ []

/-- At most one process may change the databases. -/
def OneWriter (s : Sys) : Prop := ∀ p q, Writing s p → Writing s q → p = q

/-- No process is busy with PiSi. -/
def Idle (s : Sys) : Prop := ∀ p, (s.procs p).prog = []

/-- The process has been started by another one. -/
def Forked (es : List Ev) (c : Pid) : Prop := ∃ p, Ev.fork p c ∈ es

/-- The version files are those of a program of the given versions, or missing. -/
def Current (v : Grp → Option (Option Nat)) (ver : Grp → Nat) : Prop := ∀ g, v g = none ∨ v g = some (some (ver g))

/-- The next `n` actions of `p`. -/
def runs (p : Pid) (n : Nat) : List Ev := List.replicate n (.run p)

/-- A started process reaches its work with all databases open for writing, and then its end. -/
def Works (grp : Str → Grp) (dbs : List Str) (s : Sys) (p : Pid) : Prop :=
  (∃ n, let t := exec grp dbs s (runs p n)
    (t.procs p).prog.head? = some .work ∧ ∀ d ∈ dbs, d ∈ (t.procs p).dbOpen) ∧
  ∃ n, let t := exec grp dbs s (runs p n)
    (t.procs p).prog = [] ∧ (t.procs p).alive = true

/-- The version files tell the truth about the databases. -/
def Truthful (grp : Str → Grp) (dbs : List Str) (s : Sys) : Prop := ∀ d ∈ dbs, ∀ x, s.fmt d = some x → s.verFile (grp d) = some (some x)

/-- Every database was only opened by programs of its version. -/
def Matched (s : Sys) : Prop := ∀ e ∈ s.log, e.1 = e.2

/-- A command of the `m`-th release of PiSi. -/
structure Cmd where
  p : Pid
  k : Kind
  m : Nat

/-- `vs` are the versions of the successive releases of PiSi; they never get smaller. -/
def Releases (vs : Nat → Grp → Nat) : Prop := ∀ m n, m ≤ n → ∀ g, vs m g ≤ vs n g

/-- Commands executed one after the other, each until it has ended. -/
inductive Sequence (grp : Str → Grp) (dbs : List Str) (vs : Nat → Grp → Nat) : Sys → Sys → Prop where
  | nil (s : Sys) : Sequence grp dbs vs s s
  | snoc {s t : Sys} (c : Cmd) (n : Nat) : Sequence grp dbs vs s t →
    ((exec grp dbs t (.start c.p c.k (vs c.m) :: runs c.p n)).procs c.p).prog = [] →
    Sequence grp dbs vs s (exec grp dbs t (.start c.p c.k (vs c.m) :: runs c.p n))

/-- A new system, or one whose databases are those of some release. -/
def FromRelease (vs : Nat → Grp → Nat) (s : Sys) : Prop :=
  (∀ g, s.verFile g = none) ∨ ∃ m, ∀ g, s.verFile g = some (some (vs m g))

/-- Whether an event is the doing of a process among `R`. -/
def Ev.of (R : Pid → Bool) : Ev → Bool
  | .start p _ _ => R p
  | .run p => R p
  | .exit p => R p
  | .fork p _ => R p
  | .clean => false

/-- The processes among `R` only read; programs they start are among `R`, those started by others are not. -/
def OnlyRead (R : Pid → Bool) (es : List Ev) : Prop :=
  (∀ p k ver, Ev.start p k ver ∈ es → R p = true → k = .read) ∧ ∀ p c, Ev.fork p c ∈ es → R c = R p

/-- No process is killed between emptying a version file and writing it. -/
def NotKilledWriting (grp : Str → Grp) (dbs : List Str) (s : Sys) (es : List Ev) : Prop :=
  ∀ pre post p g, es = pre ++ Ev.exit p :: post → ((exec grp dbs s pre).procs p).prog.head? ≠ some (.writeVer g)

end Pisi.DbEnv
