import Verif.Model.Plan
import Verif.Model.InstallDB

/-!
# Model of pisi/op/configurepending.py
-/
namespace Pisi.Plan
open Pisi.Graph Pisi.DB
variable {α ν : Type} [DecidableEq α]

/-- The loop body, pisi/op/configurepending.py:45-51: follow dependencies on packages in the graph, which are exactly
the pending ones (`pend`). -/
def pendingLoop (w : World α) (pend : List α) : Loop α (Dep α) (PErr α) where
  deps x := match w.getTrack x with
    | .ok p => p.runtimeDeps
    | .error e => .error e
  keep _ d := .ok (decide (d.package ∈ pend))
  tgt d := d.package
  fetch y := match w.getTrack y with
    | .ok _ => .ok ()
    | .error e => .error e
  dir := .fwd

/-- The configuration order, pisi/op/configurepending.py:39-56.  `pend` is `A.keys()`. -/
def planPending (w : World α) (σ : Sched α) (pend : List α) : Except (PErr α) (List α) :=
  match addPackages w.getTrack (σ.front pend) Digraph.empty with
  | .error e => .error e
  | .ok g =>
    match (pendingLoop w pend).closure .fuel σ.front (w.track.keys.length + 1) pend g with
    | .error e => .error e
    | .ok g =>
      match liftErr (topologicalSort (σ.graph g)) with
      | .error e => .error e
      | .ok l => .ok l.reverse

/-- Why the execution part stopped. -/
inductive CfgErr where
  /-- reading the metadata or `post_install` raised, or COMAR is missing (pisi/op/configurepending.py:59-82) -/
  | hook
  /-- `clear_pending` raised -/
  | clear (e : InstErr)
  deriving DecidableEq

/-- Outcome of the execution part. -/
structure CfgRun (α ν : Type) where
  /-- the install database afterwards -/
  db : InstallDB α ν
  /-- packages whose configuration script was run, in order -/
  configured : List α
  err : Option CfgErr

/-- `for x in order: ...`, pisi/op/configurepending.py:57-80.  `hook x` tells whether configuring `x` succeeds. -/
def configureAll (hook : α → Bool) : List α → InstallDB α ν → CfgRun α ν
  | [], s => ⟨s, [], none⟩
  | x :: xs, s =>
    if s.isInstalled x then
      if hook x then
        match s.clearPending x with
        | .ok s' => let r := configureAll hook xs s'; { r with configured := x :: r.configured }
        | .error e => ⟨s, [x], some (.clear e)⟩
      else ⟨s, [], some .hook⟩
    else match s.clearPending x with
      | .ok s' => configureAll hook xs s'
      | .error e => ⟨s, [], some (.clear e)⟩

end Pisi.Plan
