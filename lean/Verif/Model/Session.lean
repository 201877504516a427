import Verif.Model.Installed
import Verif.Model.RemovePlan
import Verif.Model.InstallPlan

/-!
# Installing and removing on the databases

The planners of `Verif/Model/RemovePlan.lean` and the dependency check of an installation read the databases of
`Verif/Model/Installed.lean`, and what they decide changes them.  An installation, an upgrade or a reinstallation of several packages,
from files or repositories, is a sequence of installations of single packages in whatever order was planned; one that fails ends the
sequence.  Names are given after the expansion of components.  Files and COMAR are left out.
-/
namespace Pisi.DB
open Pisi.Plan
variable {α ρ : Type} [DecidableEq α]

/-- What the planners read: the package of the first repository that has it (pisi/db/itembyrepo.py:136-155), the packages in an
installed state (pisi/db/install.py:105-113), the tracking copies and the recorded reverse dependencies. -/
def Both.world (b : Both α ρ) : World α where
  repo := b.sys.stores.pkg.filterMap (fun e =>
    (ItemDB.firstOf e.2 (ItemDB.order (b.sys.repos.order.getD []) .repos)).map (fun x => (e.1, x.1.info)))
  inst := b.inst.d.filterMap (fun e =>
    if InstallDB.counts e.2 then some (e.1, ⟨e.2.ver.1, e.2.ver.2.1, e.2.ver.2.2⟩) else none)
  track := b.sys.stores.pkg.filterMap (fun e => (e.2.get .installed).map (fun m => (e.1, m.info)))
  revRepo := b.sys.stores.rev.filterMap (fun e =>
    (ItemDB.firstOf e.2 (ItemDB.order (b.sys.repos.order.getD []) .repos)).map (fun x => (e.1, x.1)))
  revInst := b.sys.stores.rev.filterMap (fun e => (e.2.get .installed).map (fun l => (e.1, l)))

/-- `Install.install`, pisi/op/install.py:90-118: the dependencies are checked (lines 135-140) unless they are to be ignored, and in the
end the databases are updated. -/
def Both.installSingle (b : Both α ρ) (m : Meta α) (later ignoreDep : Bool) : Both α ρ :=
  match m.info.runtimeDeps with
  | .error _ => b
  | .ok ds =>
    match (if ignoreDep then .ok true else installOne.satDeps b.world ds) with
    | .ok true => (b.updateDatabases m later).getD b
    | _ => b

/-- `for x in order: if is_installed(x): remove_single(x)`, pisi/op/remove.py:203-208. -/
def Both.removeLoop (b : Both α ρ) : List α → Both α ρ
  | [] => b
  | p :: ps =>
    if b.inst.isInstalled p then
      match b.removeDb p with
      | some b' => b'.removeLoop ps
      | none => b
    else b.removeLoop ps

/-- `remove(A)`, pisi/op/remove.py:154-208. -/
def Both.removeNames (b : Both α ρ) (σ : Sched α) (o : RemoveOpts) (base : Option (List α)) (A : List α) : Both α ρ :=
  match removeCmd b.world σ o base A with
  | .ok l => b.removeLoop l
  | .error _ => b

/-- What users do. -/
inductive Cmd (α ρ : Type) where
  /-- a package is installed or replaced -/
  | install (m : Meta α) (later ignoreDep : Bool)
  | remove (σ : Sched α) (o : RemoveOpts) (base : Option (List α)) (A : List α)
  /-- a package in conflict with one to be installed is removed, pisi/op/conflict.py:80-87 -/
  | conflict (p : α)
  /-- everything else -/
  | other (op : BothOp α ρ)

/-- One of them. -/
def Cmd.step (b : Both α ρ) : Cmd α ρ → Both α ρ
  | .install m later ig => b.installSingle m later ig
  | .remove σ o base A => b.removeNames σ o base A
  | .conflict p => b.removeLoop [p]
  | .other op => op.step b

/-- The databases after them. -/
def Cmd.run (cs : List (Cmd α ρ)) : Both α ρ := cs.foldl Cmd.step {}

end Pisi.DB
