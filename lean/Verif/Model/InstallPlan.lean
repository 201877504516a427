import Verif.Model.Plan

/-!
# Install planning, pisi/op/install.py
-/
namespace Pisi.Plan
open Pisi.Graph
variable {α : Type} [DecidableEq α]

/-- The loop body of `plan_install_pkg_names`, pisi/op/install.py:564-573: follow dependencies that the
installed system does not satisfy. -/
def installLoop (w : World α) : Loop α (Dep α) (PErr α) where
  deps x := match w.getRepo x with
    | .ok p => p.runtimeDeps
    | .error e => .error e
  keep _ d := match w.installedSatisfies d with
    | .ok b => .ok (!b)
    | .error e => .error e
  tgt d := d.package
  fetch y := match w.getRepo y with
    | .ok _ => .ok ()
    | .error e => .error e
  dir := .fwd

/-- `plan_install_pkg_names(A)`, pisi/op/install.py:551-578, without the debug output and without the
file/package conflict check of lines 579-580 (modelled separately, `Verif/Model/Conflict.lean`).
`σ` resolves the iteration order of Python sets. -/
def planInstall (w : World α) (σ : Sched α) (A : List α) : Except (PErr α) (List α) :=
  match addPackages w.getRepo (σ.front A) Digraph.empty with
  | .error e => .error e
  | .ok g =>
    match (installLoop w).closure .fuel σ.front (w.repo.keys.length + 1) A g with
    | .error e => .error e
    | .ok g =>
      match liftErr (topologicalSort (σ.graph g)) with
      | .error e => .error e
      | .ok l => .ok l.reverse

/-- Outcome of executing a plan. -/
inductive XErr (α : Type) where
  | plan (e : PErr α)
  /-- `Error("Package not installable")`, pisi/op/install.py:140 -/
  | notInstallable (x : α)

/-- Record that package `x` is now installed as described by `p`: `update_databases`,
pisi/op/install.py:332-350, restricted to the install database and the tracking copy. -/
def World.install (w : World α) (x : α) (p : PkgInfo α) : World α :=
  { w with inst := w.inst.put x ⟨p.version, p.release, p.build⟩, track := w.track.put x p }

/-- `install_single_name(x)`, pisi/op/install.py:377-380, reduced to its dependency check
(`check_relations`, lines 135-140, and `installable`, pisi/data/specfile.py:200-203) and its database effect.
The package file is assumed to carry the metadata announced by the repository.  Conflicts, file
conflicts, downloads and file extraction are not part of this function. -/
def installOne (w : World α) (x : α) : Except (XErr α) (World α) :=
  match w.getRepo x with
  | .error e => .error (.plan e)
  | .ok p => match p.runtimeDeps with
    | .error e => .error (.plan e)
    | .ok ds =>
      match satDeps w ds with
      | .error e => .error (.plan e)
      | .ok false => .error (.notInstallable x)
      | .ok true => .ok (World.install w x p)
where
  /-- `satisfies_dependencies`, pisi/data/dependency.py:100-106 -/
  satDeps (w : World α) : List (Dep α) → Except (PErr α) Bool
  | [] => .ok true
  | d :: ds => match w.installedSatisfies d with
    | .error e => .error e
    | .ok false => .ok false
    | .ok true => satDeps w ds

/-- `for x in order: install_single_name(x, True)`, pisi/op/install.py:542-543. -/
def execInstall (w : World α) : List α → Except (XErr α) (World α)
  | [] => .ok w
  | x :: xs => match installOne w x with
    | .error e => .error e
    | .ok w' => execInstall w' xs

end Pisi.Plan
