import Verif.Model.Plan

/-!
# Remove planning, pisi/op/remove.py
-/
namespace Pisi.Plan
open Pisi.Graph
variable {α : Type} [DecidableEq α]

/-- The loop body of `plan_remove`, pisi/op/remove.py:222-236: follow recorded reverse dependencies that are
installed and whose dependency is currently satisfied. -/
def removeLoop (w : World α) : Loop α (α × Dep α) (PErr α) where
  deps x := match w.getTrack x with
    | .ok _ => .ok (w.revDepsInst x)
    | .error e => .error e
  keep _ rd := if w.track.has rd.1 then w.installedSatisfies rd.2 else .ok false
  tgt rd := rd.1
  fetch y := match w.getTrack y with
    | .ok _ => .ok ()
    | .error e => .error e
  dir := .rev

/-- `plan_remove(A)`, pisi/op/remove.py:210-240. -/
def planRemove (w : World α) (σ : Sched α) (A : List α) : Except (PErr α) (List α) :=
  match addPackages w.getTrack (σ.front A) Digraph.empty with
  | .error e => .error e
  | .ok g =>
    match (removeLoop w).closure .fuel σ.front (w.track.keys.length + 1) A g with
    | .error e => .error e
    | .ok g => liftErr (topologicalSort (σ.graph g))

/-- Options and answers that `remove` consults, pisi/op/remove.py:154-208. -/
structure RemoveOpts where
  bypassSafety : Bool := false
  /-- `ignore_dependency` option or the `ignore_dep` argument -/
  ignoreDep : Bool := false
  dryRun : Bool := false
  /-- the answer to "Do you want to continue?" -/
  confirm : Bool := true

/-- The safety switch and the filter on installed packages, pisi/op/remove.py:162-179. -/
def removeRequest (w : World α) (o : RemoveOpts) (base : Option (List α)) (A : List α) : List α :=
  let A1 := if o.bypassSafety then A else match base with
    | some b => A.filter (fun x => x ∉ b)
    | none => A
  A1.filter w.isInstalled

/-- `remove(A)`, pisi/op/remove.py:154-208, after `expand_components`: the sequence of packages on which
`remove_single` is called.  `base` is the package set of system.base, if that component exists.
Each `remove_single` is assumed to succeed and not to change whether later packages are installed. -/
def removeCmd (w : World α) (σ : Sched α) (o : RemoveOpts) (base : Option (List α)) (A : List α) :
    Except (PErr α) (List α) :=
  let A2 := removeRequest w o base A
  if A2 = [] then .ok []
  else
    match (if o.ignoreDep then .ok (σ.front A2) else planRemove w σ A2) with
    | .error e => .error e
    | .ok order =>
      if order.length > A.length ∧ o.confirm = false then .ok []
      else if o.dryRun then .ok []
      else .ok (order.filter w.isInstalled)

end Pisi.Plan
