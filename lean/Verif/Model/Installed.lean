import Verif.Model.InstallDB
import Verif.Model.PackageDB

/-!
# The installed packages in both databases, and the command list-installed

The database of installations and the tracking copies in the package database are changed together by `update_databases`
(pisi/op/install.py:332-350) and `remove_db` (pisi/op/remove.py:144-147), each in one transaction, which a failure leaves without
effect.  The database of files is left out (`Verif/Model/FilesDB.lean`).
-/
namespace Pisi.DB

/-- `(version, release, build)`, pisi/db/install.py:139. -/
abbrev Ver := Str × Str × Option Int

/-- The databases. -/
structure Both (α ρ : Type) where
  inst : InstallDB α Ver := {}
  sys : System α ρ := {}

variable {α ρ : Type} [DecidableEq α]

/-- What `installdb.install` is given, pisi/op/install.py:338-344. -/
def Meta.ver (m : Meta α) : Ver := (m.info.version, m.info.release, m.info.build)

/-- `remove_db`, pisi/op/remove.py:144-147. -/
def Both.removeDb (b : Both α ρ) (p : α) : Option (Both α ρ) :=
  match b.inst.remove p with
  | .error _ => none
  | .ok i => match removeTracking b.sys.stores p with
    | .error _ => none
    | .ok s => some ⟨i, { b.sys with stores := s }⟩

/-- `update_databases`, pisi/op/install.py:332-350; `self.reinstall` says whether the package is installed
(pisi/op/install.py:172-174). -/
def Both.updateDatabases (b : Both α ρ) (m : Meta α) (later : Bool) : Option (Both α ρ) :=
  match (if b.inst.isInstalled m.name then b.removeDb m.name else some b) with
  | none => none
  | some b => match b.inst.install m.name m.ver later with
    | .error _ => none
    | .ok i => match addPackage .installed b.sys.stores m with
      | .error _ => none
      | .ok s => some ⟨i, { b.sys with stores := s }⟩

/-- What happens to the databases. -/
inductive BothOp (α ρ : Type) where
  /-- the end of an installation -/
  | install (m : Meta α) (later : Bool)
  /-- `Remove.run`, pisi/op/remove.py:58-83 -/
  | remove (p : α)
  /-- `clear_pending`, pisi/op/configurepending.py:80 -/
  | configured (p : α)
  /-- `packagedb.add_package(info, thirdparty)`, pisi/op/install.py:145 -/
  | thirdparty (m : Meta α)
  | addRepo (n : Str) (x : ρ) (pos : Option Int)
  | removeRepo (n : Str)
  | updateRepo (n : Str) (ix : Index α)

/-- One operation; a failure has no effect. -/
def BothOp.step (b : Both α ρ) : BothOp α ρ → Both α ρ
  | .install m later => (b.updateDatabases m later).getD b
  | .remove p => if b.inst.isInstalled p then (b.removeDb p).getD b else b
  | .configured p => { b with inst := (InstOp.clear p).step b.inst }
  | .thirdparty m => { b with sys := (SysOp.track .thirdparty m).step b.sys }
  | .addRepo n x pos => { b with sys := (SysOp.addRepo n x pos).step b.sys }
  | .removeRepo n => { b with sys := (SysOp.removeRepo n).step b.sys }
  | .updateRepo n ix => { b with sys := (SysOp.updateRepo n ix).step b.sys }

/-- The databases after a history. -/
def BothOp.run (ops : List (BothOp α ρ)) : Both α ρ := ops.foldl BothOp.step {}

/-- `ctx.packagedb.get_package(pkg, pisi.db.itembyrepo.installed)`, pisi/db/package.py:64-68. -/
def Both.getInstalled (b : Both α ρ) (p : α) : Option (Meta α) :=
  match b.sys.stores.pkg.getItem [] p (.one .installed) with
  | .ok m => some m
  | .error _ => none

/-- The loop of list-installed, pisi/cli/listcmd.py:54-63: the package and the record of its installation. -/
def Both.listLoop (b : Both α ρ) : List α → Option (List (Meta α × InstInfo Ver))
  | [] => some []
  | p :: ps => match b.getInstalled p with
    | none => none
    | some m => match b.inst.getInfo p with
      | .error _ => none
      | .ok i => (b.listLoop ps).map ((m, i) :: ·)

/-- `ListInstalled.run`, pisi/cli/listcmd.py:47-64; `none` if it raises.  Which of the two is shown depends on the options. -/
def Both.listInstalled (sort : List α → List α) (b : Both α ρ) : Option (List (Meta α × InstInfo Ver)) :=
  b.listLoop (sort b.inst.listInstalled)

end Pisi.DB
