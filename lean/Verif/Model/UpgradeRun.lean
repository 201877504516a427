import Verif.Model.UpgradePlan
import Mathlib.Data.List.Dedup

/-!
# Running `pisi upgrade`, pisi/op/upgrade.py
-/
namespace Pisi.Plan
variable {α : Type} [DecidableEq α]

/-- The options read by `upgrade_pkg_names` and its helpers, and the answer given at the prompt of
pisi/op/upgrade.py:149-151. -/
structure UpOpts where
  eager : Bool := false
  bypassSafety : Bool := false
  ignoreBuild : Bool := false
  dryRun : Bool := false
  confirm : Bool := true

/-- The names among the entries of `Ap`, pisi/op/upgrade.py:93-124. -/
def chosenNames : List (α ⊕ Upd) → List α
  | [] => []
  | .inl x :: l => x :: chosenNames l
  | .inr _ :: l => chosenNames l

/-- `A |= upgrade_base(A)`, pisi/op/upgrade.py:132, sets being lists without duplicates. -/
def unionInto (A B : List α) : List α := A ++ B.dedup.filter (fun x => x ∉ A)

/-- `upgrade_pkg_names(A)`, pisi/op/upgrade.py:80-169, on the databases.  `A` is the set of line 91, after
components were replaced by their packages.  Modelled without the options `security` (see C18:
nothing can be upgraded with it) and `ignore_dependency`; output, the sum of the package sizes, downloads and
the special treatment of the package `pisi` after the upgrade (lines 168-169) are left out. -/
def upgradeRun (w : World α) (σ : Sched α) (o : UpOpts) (base : Option (List α)) (A : List α) :
    Except (XErr α) (World α) :=
  match selectUpgrades w false o.ignoreBuild (σ.front A) with
  | .error e => .error (.plan e)
  | .ok l =>
    match chosenNames l with
    | [] => .ok w
    | x :: xs =>
      match upgradeBase w σ o.eager o.bypassSafety o.ignoreBuild base (x :: xs) with
      | .error e => .error (.plan e)
      | .ok extra =>
        match planUpgrade w σ o.eager (unionInto (x :: xs) extra) with
        | .error e => .error (.plan e)
        | .ok order =>
          if o.dryRun then .ok w
          else if order.length > A.length && !o.confirm then .ok w
          else execInstall w order

end Pisi.Plan
