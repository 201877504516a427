import Verif.Model.InstallPlan
import Mathlib.Data.List.Dedup

/-!
# Installing package files, pisi/op/install.py:389-492
-/
namespace Pisi.Plan
open Pisi.Graph
variable {α : Type} [DecidableEq α]

/-- `d_t` after reading the package files, pisi/op/install.py:407-414: of several files of one package the last one
counts. -/
def readFiles (l : List (α × PkgInfo α)) : Dict α (PkgInfo α) := l.foldl (fun d x => d.put x.1 x.2) []

/-- `dict_satisfies_dep(d_t, dep)`, pisi/data/dependency.py:68-76. -/
def dictSat (dt : Dict α (PkgInfo α)) (d : Dep α) : Except (PErr α) Bool := match dt.get d.package with
  | none => .ok false
  | some p => testDep d p

/-- `satisfiesDep`, pisi/op/install.py:416-420. -/
def fileSat (w : World α) (dt : Dict α (PkgInfo α)) (d : Dep α) : Except (PErr α) Bool :=
  match w.installedSatisfies d with
  | .error e => .error e
  | .ok true => .ok true
  | .ok false => dictSat dt d

/-- The dependencies of a package that are not satisfied, pisi/op/install.py:427-431. -/
def unsatOf (w : World α) (dt : Dict α (PkgInfo α)) : List (Dep α) → Except (PErr α) (List (Dep α))
  | [] => .ok []
  | d :: ds => match fileSat w dt d with
    | .error e => .error e
    | .ok b => match unsatOf w dt ds with
      | .error e => .error e
      | .ok r => .ok (if b then r else d :: r)

/-- `dep_unsatis`, pisi/op/install.py:425-431. -/
def unsatAll (w : World α) (dt : Dict α (PkgInfo α)) : List (α × PkgInfo α) → Except (PErr α) (List (Dep α))
  | [] => .ok []
  | (_, p) :: l => match p.runtimeDeps with
    | .error e => .error e
    | .ok ds => match unsatOf w dt ds with
      | .error e => .error e
      | .ok r => match unsatAll w dt l with
        | .error e => .error e
        | .ok r' => .ok (r ++ r')

/-- The loop body of the planning, pisi/op/install.py:468-477. -/
def filesLoop (dt : Dict α (PkgInfo α)) : Loop α (Dep α) (PErr α) where
  deps x := match dt.get x with
    | some p => p.runtimeDeps
    | none => .error (.key x)
  keep _ d := dictSat dt d
  tgt d := d.package
  fetch y := match dt.get y with
    | some _ => .ok ()
    | none => .error (.key y)
  dir := .fwd

/-- `PackageDB.get_package` of the local class, pisi/op/install.py:446-448. -/
def dtGet (dt : Dict α (PkgInfo α)) (x : α) : Except (PErr α) (PkgInfo α) := match dt.get x with
  | some p => .ok p
  | none => .error (.key x)

/-- Planning, pisi/op/install.py:452-483, without the conflict check of line 482.  `A` is `d_t.keys()`. -/
def planFiles (dt : Dict α (PkgInfo α)) (σ : Sched α) (A : List α) : Except (PErr α) (List α) :=
  match addPackages (dtGet dt) (σ.front A) Digraph.empty with
  | .error e => .error e
  | .ok g =>
    match (filesLoop dt).closure .fuel σ.front (dt.keys.length + 1) A g with
    | .error e => .error e
    | .ok g =>
      match liftErr (topologicalSort (σ.graph g)) with
      | .error e => .error e
      | .ok l => .ok l.reverse

/-- `install_single_file(dfn[x])`, pisi/op/install.py:365-367, reduced like `installOne` to the dependency check and the
databases. -/
def installFile (dt : Dict α (PkgInfo α)) (w : World α) (x : α) : Except (XErr α) (World α) :=
  match dtGet dt x with
  | .error e => .error (.plan e)
  | .ok p => match p.runtimeDeps with
    | .error e => .error (.plan e)
    | .ok ds =>
      match installOne.satDeps w ds with
      | .error e => .error (.plan e)
      | .ok false => .error (.notInstallable x)
      | .ok true => .ok (World.install w x p)

/-- `for x in order: install_single_file(dfn[x])`, pisi/op/install.py:491-492. -/
def execFiles (dt : Dict α (PkgInfo α)) : World α → List α → Except (XErr α) (World α)
  | w, [] => .ok w
  | w, x :: xs => match installFile dt w x with
    | .error e => .error e
    | .ok w' => execFiles dt w' xs

/-- `install_pkg_names(A)`, pisi/op/install.py:495-546, without reinstallation: packages that are installed are left out.
The expansion of components, the additions from system.base and the questions are left out. -/
def installNames (w : World α) (σ : Sched α) (A : List α) : Except (XErr α) (World α) :=
  match A.dedup.filter (fun x => !w.isInstalled x) with
  | [] => .ok w
  | a :: l => match planInstall w σ (a :: l) with
    | .error e => .error (.plan e)
    | .ok order => execInstall w order

/-- `install_pkg_files(package_URIs)`, pisi/op/install.py:389-492, from the metadata of the files (`d_t`) on; the questions
are answered with yes. -/
def installPkgFiles (dt : Dict α (PkgInfo α)) (σ : Sched α) (w : World α) : Except (XErr α) (World α) :=
  match unsatAll w dt dt with
  | .error e => .error (.plan e)
  | .ok us =>
    match (if us = [] then .ok w else installNames w σ (us.map Dep.package)) with
    | .error e => .error e
    | .ok w1 =>
      match planFiles dt σ dt.keys with
      | .error e => .error (.plan e)
      | .ok order => execFiles dt w1 order

end Pisi.Plan
