import Verif.Model.RemovePlan
import Verif.Model.Component
import Mathlib.Data.List.Dedup

/-!
# Model of pisi/op/conflict.py

Python sets are duplicate-free lists.  Messages are left out.
-/
namespace Pisi.Plan
open Pisi.DB
variable {α : Type} [DecidableEq α]

/-- `check_conflict(pkg)`, pisi/op/conflict.py:34-41. -/
def checkConflict (w : World α) (p : PkgInfo α) : List α := p.conflicts.filter w.isInstalled

/-- The result `(C, D, pkg_conflicts)` of `calculate_conflicts`. -/
structure Conflicts (α : Type) where
  /-- `C` -/
  system : List α := []
  /-- `D` -/
  inner : List α := []
  /-- `pkg_conflicts` -/
  byPkg : Dict α (List α) := []

/-- One iteration of the loop of `calculate_conflicts`, pisi/op/conflict.py:48-60.  `get_package(x).name` is `x`, as
packages are stored under their name (pisi/db/package.py:100-104). -/
def conflictStep (w : World α) (order : List α) (x : α) (p : PkgInfo α) (r : Conflicts α) : Conflicts α :=
  let bp := (checkConflict w p).dedup
  let r1 := if bp = [] then r else { r with system := (r.system ++ bp).dedup, byPkg := r.byPkg.put x bp }
  let bi := order.dedup.filter (· ∈ p.conflicts)
  if bi = [] then r1 else { r1 with inner := (r1.inner ++ bi ++ [x]).dedup }

/-- The loop of `calculate_conflicts`, pisi/op/conflict.py:48-60. -/
def conflictLoop (w : World α) (order : List α) : List α → Conflicts α → Except (PErr α) (Conflicts α)
  | [], r => .ok r
  | x :: xs, r =>
    match w.getRepo x with
    | .error e => .error e
    | .ok p => conflictLoop w order xs (conflictStep w order x p r)

/-- `calculate_conflicts(order, packagedb)`, pisi/op/conflict.py:43-62.  `C = D = set()` makes both names refer to one
set, but each `union` creates a new one, so the sharing has no effect. -/
def calculateConflicts (w : World α) (order : List α) : Except (PErr α) (Conflicts α) :=
  conflictLoop w order order {}

/-- Errors of `check_conflicts`. -/
inductive CErr (α : Type) where
  /-- a package or version error -/
  | plan (e : PErr α)
  /-- an error of the component database -/
  | comp (e : IErr)
  /-- "Selected packages [..] are in conflict with each other." -/
  | inner (l : List α)
  /-- "Conflicts remain" -/
  | remain

/-- `set(componentdb.get_union_comp('system.base').packages)`, if that component exists, pisi/op/remove.py:163-164. -/
def systemBase (c : ItemDB α (Comp α)) (repos : List Str) (sysbase : α) : Except IErr (Option (List α)) :=
  if c.hasKey sysbase .repos then
    match getUnionComp c repos sysbase with
    | .ok u => .ok (some u.packages)
    | .error e => .error e
  else .ok none

/-- `check_conflicts(order, packagedb)`, pisi/op/conflict.py:64-87, with the call `remove.remove(list(C), True)`
(pisi/op/remove.py:154-208) inlined; the result is the list of packages removed.
`agree` is the answer to "Remove the following conflicting packages?".  `remove` returns `False` when no package is left
to remove; it never asks, because without dependencies the order is not longer than the request. -/
def checkConflicts (w : World α) (σ : Sched α) (o : RemoveOpts) (c : ItemDB α (Comp α)) (repos : List Str)
    (sysbase : α) (agree : Bool) (order : List α) : Except (CErr α) (List α) :=
  match calculateConflicts w order with
  | .error e => .error (.plan e)
  | .ok r =>
    if r.inner ≠ [] then .error (.inner r.inner)
    else if r.byPkg = [] then .ok []
    else if agree = false then .error .remain
    else
      match expandWith Comp.packages c repos r.system with
      | .error e => .error (.comp e)
      | .ok A0 =>
        match (if o.bypassSafety then .ok none else systemBase c repos sysbase) with
        | .error e => .error (.comp e)
        | .ok base =>
          if removeRequest w o base A0.dedup = [] then .error .remain
          else match removeCmd w σ { o with ignoreDep := true } base A0.dedup with
            | .error e => .error (.plan e)
            | .ok removed => .ok removed

/-- The installed packages after removing `l`. -/
def _root_.Pisi.World.without (w : World α) (l : List α) : World α :=
  { w with inst := l.foldl (fun d x => d.del x) w.inst, track := l.foldl (fun d x => d.del x) w.track }

end Pisi.Plan
