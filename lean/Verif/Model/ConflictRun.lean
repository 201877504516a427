import Verif.Model.Session
import Verif.Model.Conflict

/-!
# Installing on the databases, with the check of conflicts

pisi/op/install.py:366-582, pisi/op/upgrade.py:76-241: before the packages of an order are installed one after the other, the conflicts of all
of them are checked, with the metadata of the packages (from the repositories, or from the package files), and the packages in conflict
with them are removed.  With `--ignore-dependency` nothing is planned, and no conflicts are checked.  An installation that fails, or an
interruption, ends the sequence.  `check_relations` (pisi/op/install.py:129-133) looks whether the text that describes the package to be
installed is the name of an installed package, where it should look for the packages it conflicts with: a description has line breaks,
so this never finds anything.
-/
namespace Pisi.DB
open Pisi.Plan
variable {α ρ : Type} [DecidableEq α]

/-- A request: the packages in the order planned, the answers and the options. -/
structure Batch (α : Type) where
  order : List (Meta α)
  later : Bool := false
  ignoreDep : Bool := false
  /-- `--ignore-file-conflicts` -/
  ignoreConf : Bool := false
  σ : Sched α
  o : RemoveOpts := {}
  /-- `"system.base"` -/
  sysbase : α
  /-- the answer to "Remove the following conflicting packages?" -/
  agree : Bool := true
  /-- how many packages are reached before a failure or an interruption -/
  reached : Nat

/-- What `check_conflicts(order, packagedb)` reads: the installed packages, and the metadata of the packages of the order. -/
def Both.worldFor (b : Both α ρ) (ms : List (Meta α)) : World α := { b.world with repo := ms.map fun m => (m.name, m.info) }

/-- `check_conflicts`, pisi/op/install.py:481-482, 579-580 and pisi/op/upgrade.py:238-239; the result has the packages to remove. -/
def Both.checkBatch (b : Both α ρ) (t : Batch α) : Except (CErr α) (List α) :=
  if t.ignoreConf || t.ignoreDep then .ok []
  else checkConflicts (b.worldFor t.order) t.σ t.o b.sys.stores.comp (b.sys.repos.order.getD []) t.sysbase t.agree (t.order.map (·.name))

/-- The installations, one after the other. -/
def Both.installAll (b : Both α ρ) (later ignoreDep : Bool) (ms : List (Meta α)) : Both α ρ :=
  ms.foldl (fun b m => b.installSingle m later ignoreDep) b

/-- All of it. -/
def Both.batch (b : Both α ρ) (t : Batch α) : Both α ρ :=
  match b.checkBatch t with
  | .error _ => b
  | .ok l => if t.o.dryRun then b else (b.removeLoop l).installAll t.later t.ignoreDep (t.order.take t.reached)

/-- What users do: requests for packages, and everything else. -/
inductive HCmd (α ρ : Type) where
  | batch (t : Batch α)
  | cmd (c : Cmd α ρ)

def HCmd.step (b : Both α ρ) : HCmd α ρ → Both α ρ
  | .batch t => b.batch t
  | .cmd c => c.step b

/-- The databases after them. -/
def HCmd.run (cs : List (HCmd α ρ)) : Both α ρ := cs.foldl HCmd.step {}

end Pisi.DB
