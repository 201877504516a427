import Verif.Model.Dict
import Verif.Model.Dependency

/-!
# The databases as the planners see them

What `ctx.packagedb`, `ctx.installdb` and their tracking copies answer.  The databases themselves are modelled in
`Verif/Model/ItemByRepo.lean` and `Verif/Model/InstallDB.lean`.
-/
namespace Pisi

/-- `Update`, pisi/data/specfile.py:132-146 (release and type only). -/
structure Upd where
  release : Str
  security : Bool
  deriving DecidableEq

/-- The fields of `metadata.Package`, pisi/data/metadata.py:37-63, that planning reads. -/
structure PkgInfo (α : Type) where
  version : Str
  release : Str
  /-- `build`: `None` or 0 is falsy. -/
  build : Option Int := none
  /-- `packageDependencies` -/
  deps : List (Dep α) := []
  /-- `componentDependencies` -/
  compDeps : List α := []
  /-- `conflicts` -/
  conflicts : List α := []
  history : List Upd := []
  deriving DecidableEq

/-- `InstallInfo`, pisi/db/install.py:38-50, without distribution and time; only states that
`is_installed` accepts ('i', 'ip') occur here. -/
structure InstRec where
  version : Str
  release : Str
  build : Option Int := none
  deriving DecidableEq

/-- Snapshot of the databases. -/
structure World (α : Type) where
  /-- `packagedb.get_package(name)` over the repositories, highest priority first. -/
  repo : Dict α (PkgInfo α)
  /-- `installdb`: records in an installed state. -/
  inst : Dict α InstRec
  /-- `packagedb.get_package(name, itembyrepo.installed)`: the tracking copy. -/
  track : Dict α (PkgInfo α)
  /-- `packagedb.get_rev_deps(name)` -/
  revRepo : Dict α (List (α × Dep α)) := []
  /-- `packagedb.get_rev_deps(name, itembyrepo.installed)` -/
  revInst : Dict α (List (α × Dep α)) := []

/-- Errors observable while planning. -/
inductive PErr (α : Type) where
  /-- `Error('Package %s not found')`, pisi/db/package.py:67-71 -/
  | notFound (x : α)
  /-- `ValueError` from parsing a version, pisi/version.py -/
  | value
  /-- `TypeError` of `runtimeDependencies`, pisi/data/specfile.py:188-191: `get_component[x]` subscripts a method. -/
  | typeErr
  /-- `CycleException`, pisi/data/graph.py:14 -/
  | cycle (path : List α)
  /-- `Error("Upgrade is not possible.")` and `Error('Reverse dependency ...')`, pisi/op/upgrade.py:206,228 -/
  | unsat (x : α) (d : Dep α)
  /-- `AssertionError` -/
  | assertion
  /-- other `KeyError`s -/
  | key (x : α)
  /-- exhausted budget of the model (proved impossible) -/
  | fuel
  deriving DecidableEq

variable {α : Type} [DecidableEq α]

/-- `specfile.Package.runtimeDependencies`, pisi/data/specfile.py:188-191.  The `deps += ...` also extends the stored
list in place, but only with the result of an expression that raises unless it is empty. -/
def PkgInfo.runtimeDeps (p : PkgInfo α) : Except (PErr α) (List (Dep α)) :=
  if p.compDeps = [] then .ok p.deps else .error .typeErr

/-- `installdb.is_installed`, pisi/db/install.py:105-113. -/
def World.isInstalled (w : World α) (x : α) : Bool := w.inst.has x

/-- `packagedb.get_package(x)`, pisi/db/package.py:67-71. -/
def World.getRepo (w : World α) (x : α) : Except (PErr α) (PkgInfo α) :=
  match w.repo.get x with
  | some p => .ok p
  | none => .error (.notFound x)

/-- `packagedb.get_package(x, itembyrepo.installed)`. -/
def World.getTrack (w : World α) (x : α) : Except (PErr α) (PkgInfo α) :=
  match w.track.get x with
  | some p => .ok p
  | none => .error (.notFound x)

/-- `packagedb.get_rev_deps(x)`, pisi/db/package.py:79-83. -/
def World.revDepsRepo (w : World α) (x : α) : List (α × Dep α) := (w.revRepo.get x).getD []

/-- `packagedb.get_rev_deps(x, itembyrepo.installed)`, pisi/db/package.py:79-83. -/
def World.revDepsInst (w : World α) (x : α) : List (α × Dep α) := (w.revInst.get x).getD []

/-- `depinfo.satisfies(...)` with `ValueError` as an error. -/
def testDep (d : Dep α) (p : PkgInfo α) : Except (PErr α) Bool :=
  match d.satisfies p.version p.release with
  | some b => .ok b
  | none => .error .value

/-- `installed_satisfies_dep`, pisi/data/dependency.py:78-87. -/
def World.installedSatisfies (w : World α) (d : Dep α) : Except (PErr α) Bool :=
  if w.isInstalled d.package then
    match w.getTrack d.package with
    | .ok p => testDep d p
    | .error e => .error e
  else .ok false

/-- `repo_satisfies_dep`, pisi/data/dependency.py:89-98. -/
def World.repoSatisfies (w : World α) (d : Dep α) : Except (PErr α) Bool :=
  match w.repo.get d.package with
  | none => .ok false
  | some p => testDep d p

end Pisi
