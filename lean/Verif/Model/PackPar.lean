import Verif.Model.PackRun

/-!
# Model of builds that write package files at the same time

`pisi build --no-install` opens the databases for reading only (pisi/cli/build.py:90-91) and so takes no lock
(pisi/db/lockeddbshelve.py:86-102): any number of builds can run at once. They share the package files and, when the
directories of their builds are the same (pisi/op/build.py:159-164), `install.tar` and `install.tar.lzma`.
A process that opens `install.tar` empties it for all; that others then write on at their own places, and what they still hold
in memory, is not modelled, so nothing is claimed of the contents when a directory is shared, except in the refutation, where
one could also find other remains of the two archives.
-/
namespace Pisi.PackRun

/-- What a process is at: the steps before it, stopped by an exception or killed, or ended with `finalize`. -/
inductive Phase where
  | run (r : List Step)
  | stopped
  | over (ok : Bool)

/-- The files and the processes. -/
structure Sys where
  out : Str → Option (List Member × Bool)
  tar : Str → Option (List Str)
  lz : Str → Option (List Str)
  left : Nat → Bool
  ph : Nat → Phase

/-- Changes one value of a function. -/
def upd {α β : Type} [DecidableEq α] (f : α → β) (a : α) (b : β) : α → β := fun x => if x = a then b else f x

/-- What the process `q` finds; `d q` is the directory of its build, pisi/op/build.py:159-164. -/
def Sys.view (d : Nat → Str) (g : Sys) (q : Nat) : State := ⟨g.out, g.tar (d q), g.lz (d q), g.left q⟩

/-- What it makes of it. -/
def Sys.set (d : Nat → Str) (g : Sys) (q : Nat) (s : State) (p : Phase) : Sys :=
  ⟨s.out, upd g.tar (d q) s.tar, upd g.lz (d q) s.lz, upd g.left q s.left, upd g.ph q p⟩

/-- One event: a step of a process, pisi/op/build.py:797-837; its being stopped by an exception or a signal; its being stopped
while `lzma` writes; `finalize` after an exception or at the end, pisi/api.py:131-132. -/
inductive Ev (d : Nat → Str) : Sys → Sys → Prop
  | step {g q st r s'} : g.ph q = .run (st :: r) → st.run (g.view d q) = some s' → Ev d g (g.set d q s' (.run r))
  | stop {g q r} : g.ph q = .run r → Ev d g (g.set d q (g.view d q) .stopped)
  | lzma {g q b r} (x : Option (List Str)) : g.ph q = .run (.tarClose b :: r) → g.lz (d q) = none →
      Ev d g (g.set d q { g.view d q with lz := x } .stopped)
  | fail {g q} : g.ph q = .stopped → Ev d g (g.set d q (finalize (g.view d q)) (.over false))
  | done {g q} : g.ph q = .run [] → Ev d g (g.set d q (finalize (g.view d q)) (.over true))

/-- Any number of events. -/
inductive Evs (d : Nat → Str) : Sys → Sys → Prop
  | nil (g) : Evs d g g
  | snoc {g g1 g2} : Evs d g g1 → Ev d g1 g2 → Evs d g g2

/-- The builds begin: the process `q` is to write the packages `ps q`. -/
def Start (old : Nat → Bool) (ps : Nat → List Pkg) (g : Sys) : Prop :=
  ∀ q, g.ph q = .run (progs (old q) (ps q)) ∧ g.left q = false

end Pisi.PackRun
