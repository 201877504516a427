import Verif.Model.Session
import Verif.Model.UpgradePlan

/-!
# list-upgrades, check and the texts of dependencies

The commands read the databases of `Verif/Model/Session.lean`.  Texts are those without translation.
-/
namespace Pisi.DB
open Pisi.Plan
variable {α ρ : Type} [DecidableEq α]

/-- `ListUpgrades.run`, pisi/cli/listcmd.py:224-246, with `list_upgradable`, pisi/op/listops.py:35-38; `none` if it raises.  The
option `--ignore-build-no` is read into a variable that is not used: `filter` calls `is_upgradable` with the name alone.  With `--long`
`info` is given the package itself and adds a string to it (pisi/cli/__init__.py:67-72), which raises. -/
def Both.listUpgrades (sort : List α → List α) (b : Both α ρ) (long _ignoreBuildNo : Bool) : Option (List (Meta α × InstInfo Ver)) :=
  match filterUpgradable b.world false b.inst.listInstalled with
  | .error _ => none
  | .ok l => if long && !(sort l).isEmpty then none else b.listLoop (sort l)

/-- What check says of a package. -/
inductive CheckLine (α : Type) where
  | corrupt (p : α)
  | notInstalled (p : α)
  deriving DecidableEq

/-- The loop of `Check.run`, pisi/cli/check.py:54-61: the lines and whether it ended without an exception.  There is no `check` in
pisi.api (pisi/api.py:146-159): the import of `pisi.op` brings the names of that package, in which at most the module `check` is. -/
def Both.checkLoop (b : Both α ρ) : List α → List (CheckLine α) × Bool
  | [] => ([], true)
  | p :: ps => if b.inst.isInstalled p then ([], false) else (.notInstalled p :: (b.checkLoop ps).1, (b.checkLoop ps).2)

/-- `Check.run`, pisi/cli/check.py:47-62. -/
def Both.check (b : Both α ρ) (args : List α) : List (CheckLine α) × Bool :=
  b.checkLoop (if args = [] then b.inst.listInstalled else args)

end Pisi.DB

namespace Pisi

/-- `if self.b: s += word + self.b`, pisi/data/dependency.py:39-46. -/
def bound (word : Str) : Option Str → Str
  | none => []
  | some [] => []
  | some b => word ++ b

/-- `Dependency.__str__`, pisi/data/dependency.py:37-47. -/
def Dep.text (d : Dep Str) : Str :=
  d.package ++ (bound " version >= ".toList d.versionFrom ++ (bound " version <= ".toList d.versionTo ++
    (bound " release >= ".toList d.releaseFrom ++ bound " release <= ".toList d.releaseTo)))

end Pisi
