import Verif.Model.InstallPlan
import Verif.Model.Version

/-!
# Upgrade planning, pisi/op/upgrade.py
-/
namespace Pisi.Plan
open Pisi.Graph Pisi.Version
variable {α : Type} [DecidableEq α]

/-- Python's `not build` for `None` or an integer. -/
def noBuild : Option Int → Bool
  | none => true
  | some n => n = 0

/-- `Version(a) < Version(b)` with `ValueError` as an error. -/
def verLess (a b : Str) : Except (PErr α) Bool :=
  match parse a with
  | none => .error .value
  | some va => match parse b with
    | none => .error .value
    | some vb => .ok (vlt va vb)

/-- The comparison shared by `is_upgradable` (pisi/op/upgrade.py:50-53) and `upgrade_pkg_names`
(pisi/op/upgrade.py:113-120). -/
def newerInRepo (ignoreBuild : Bool) (i : InstRec) (p : PkgInfo α) : Except (PErr α) Bool :=
  match i.build, p.build with
  | some a, some b =>
    if ignoreBuild || a = 0 || b = 0 then verLess i.release p.release else .ok (a < b)
  | _, _ => verLess i.release p.release

/-- `is_upgradable(name, ignore_build)`, pisi/op/upgrade.py:42-53.  The bare `except:` only surrounds
`get_package`. -/
def isUpgradable (w : World α) (ignoreBuild : Bool) (x : α) : Except (PErr α) Bool :=
  match w.inst.get x with
  | none => .ok false
  | some i => match w.repo.get x with
    | none => .ok false
    | some p => newerInRepo ignoreBuild i p

/-- The forward loop of `plan_upgrade`, pisi/op/upgrade.py:187-207. -/
def upFwdLoop (w : World α) (eager : Bool) : Loop α (Dep α) (PErr α) where
  deps x := match w.getRepo x with
    | .ok p => p.runtimeDeps
    | .error e => .error e
  keep x d := match w.repoSatisfies d with
    | .error e => .error e
    | .ok false => .error (.unsat x d)
    | .ok true =>
      if w.isInstalled d.package then
        if eager then isUpgradable w false d.package
        else match w.installedSatisfies d with
          | .ok b => .ok (!b)
          | .error e => .error e
      else .ok true
  tgt d := d.package
  fetch y := match w.getRepo y with
    | .ok _ => .ok ()
    | .error e => .error e
  dir := .fwd

/-- The reverse loop of `plan_upgrade`, pisi/op/upgrade.py:210-232. -/
def upRevLoop (w : World α) (eager : Bool) : Loop α (α × Dep α) (PErr α) where
  deps x := match w.getRepo x with
    | .ok _ => .ok (w.revDepsRepo x)
    | .error e => .error e
  keep _ rd :=
    if eager then isUpgradable w false rd.1
    else if w.isInstalled rd.1 then
      match w.installedSatisfies rd.2 with
      | .error e => .error e
      | .ok true => .ok false
      | .ok false => match w.repoSatisfies rd.2 with
        | .error e => .error e
        | .ok false => .error (.unsat rd.1 rd.2)
        | .ok true => .ok true
    else .ok false
  tgt rd := rd.1
  fetch y := match w.getRepo y with
    | .ok _ => .ok ()
    | .error e => .error e
  dir := .rev

/-- `plan_upgrade(A)`, pisi/op/upgrade.py:171-240, without debug output and the conflict check of lines
238-239 (`Verif/Model/Conflict.lean`).  The argument `ignore_build` is not used by the code. -/
def planUpgrade (w : World α) (σ : Sched α) (eager : Bool) (A : List α) : Except (PErr α) (List α) :=
  match addPackages w.getRepo (σ.front A) Digraph.empty with
  | .error e => .error e
  | .ok g =>
    match (upFwdLoop w eager).closure .fuel σ.front (w.repo.keys.length + 1) A g with
    | .error e => .error e
    | .ok g =>
      match (upRevLoop w eager).closure .fuel σ.front (w.repo.keys.length + 1) A g with
      | .error e => .error e
      | .ok g =>
        match liftErr (topologicalSort (σ.graph g)) with
        | .error e => .error e
        | .ok l => .ok l.reverse

/-- `[x for x in pkg.history if Version(x.release) > Version(release)]`, pisi/op/upgrade.py:109. -/
def newerUpdates (release : Str) : List Upd → Except (PErr α) (List Upd)
  | [] => .ok []
  | u :: us => match parse u.release with
    | none => .error .value
    | some vu => match parse release with
      | none => .error .value
      | some vr => match newerUpdates release us with
        | .error e => .error e
        | .ok l => .ok (if vgt vu vr then u :: l else l)

/-- One iteration of the selection loop of `upgrade_pkg_names`, pisi/op/upgrade.py:94-124: what, if anything, is
appended to `Ap`.  In Python 2 the list comprehension of line 109 rebinds the loop variable `x`, so
after it `x` is the last element of `pkg.history` (when there is one). -/
def selectOne (w : World α) (security ignoreBuild : Bool) (x : α) : Except (PErr α) (Option (α ⊕ Upd)) :=
  match w.inst.get x with
  | none => .ok none
  | some i => match w.repo.get x with
    | none => .ok none
    | some p =>
      let finish (entry : α ⊕ Upd) : Except (PErr α) (Option (α ⊕ Upd)) :=
        match newerInRepo ignoreBuild i p with
        | .error e => .error e
        | .ok b => .ok (if b then some entry else none)
      if security then
        match newerUpdates i.release p.history with
        | .error e => .error e
        | .ok us =>
          if us.any (fun u => u.security) then
            finish (match p.history.getLast? with
              | some u => .inr u
              | none => .inl x)
          else .ok none
      else finish (.inl x)

/-- The selection loop of `upgrade_pkg_names`, pisi/op/upgrade.py:93-124. -/
def selectUpgrades (w : World α) (security ignoreBuild : Bool) : List α → Except (PErr α) (List (α ⊕ Upd))
  | [] => .ok []
  | x :: xs => match selectOne w security ignoreBuild x with
    | .error e => .error e
    | .ok o => match selectUpgrades w security ignoreBuild xs with
      | .error e => .error e
      | .ok l => .ok (match o with | some e => e :: l | none => l)

/-- `filter(lambda x: is_upgradable(x, ignore_build), l)`. -/
def filterUpgradable (w : World α) (ignoreBuild : Bool) : List α → Except (PErr α) (List α)
  | [] => .ok []
  | x :: xs => match isUpgradable w ignoreBuild x with
    | .error e => .error e
    | .ok b => match filterUpgradable w ignoreBuild xs with
      | .error e => .error e
      | .ok l => .ok (if b then x :: l else l)

/-- `upgrade_base(A)`, pisi/op/upgrade.py:55-75. -/
def upgradeBase (w : World α) (σ : Sched α) (eager bypassSafety ignoreBuild : Bool) (base : Option (List α))
    (A : List α) : Except (PErr α) (List α) :=
  if bypassSafety then .ok [] else
  match base with
  | none => .ok []
  | some b =>
    let extraInstalls := (σ.front (b.filter (fun x => x ∉ A))).filter (fun x => !w.isInstalled x)
    match planInstall w σ extraInstalls with
    | .error e => .error e
    | .ok installOrder =>
      match filterUpgradable w ignoreBuild (σ.front (b.filter (fun x => x ∉ installOrder))) with
      | .error e => .error e
      | .ok [] => .ok installOrder
      | .ok (u :: us) => match planUpgrade w σ eager (u :: us) with
        | .error e => .error e
        | .ok upgradeOrder => .ok (installOrder ++ upgradeOrder)

end Pisi.Plan
