import Verif.Model.Version

/-!
# Model of pisi/data/dependency.py
-/
namespace Pisi
open Pisi.Version

/-- `Dependency`, pisi/data/dependency.py:25-35.  The bounds are optional XML attributes; a missing
attribute is `None`.  `α` is the type of package names. -/
structure Dep (α : Type) where
  package : α
  version : Option Str := none
  versionFrom : Option Str := none
  versionTo : Option Str := none
  release : Option Str := none
  releaseFrom : Option Str := none
  releaseTo : Option Str := none
  deriving DecidableEq

/-- One clause `if self.b: ret &= v <rel> Version(self.b)`, pisi/data/dependency.py:53-65.  A missing
or empty bound is falsy.  `none` is the `ValueError` of `Version`.  Using the same `v` for several
comparisons although comparing pads its item list in place is justified by `compare_history_independent`. -/
def clause (rel : List Item → List Item → Bool) (v : List Item) : Option Str → Option Bool
  | none => some true
  | some [] => some true
  | some (c :: s) => (parse (c :: s)).map (rel v)

/-- `Dependency.satisfies(pkg_name, version, release)`, pisi/data/dependency.py:49-66.
`pkg_name` is never used by the code.  All clauses are evaluated. -/
def Dep.satisfies {α : Type} (d : Dep α) (version release : Str) : Option Bool := do
  let v ← parse version
  let a ← clause veq v d.version
  let b ← clause vge v d.versionFrom
  let c ← clause vle v d.versionTo
  let r ← parse release
  let x ← clause veq r d.release
  let y ← clause vge r d.releaseFrom
  let z ← clause vle r d.releaseTo
  return a && b && c && x && y && z

/-- `dict_satisfies_dep`, pisi/data/dependency.py:68-76; the dictionary maps a name to (version, release). -/
def dictSatisfiesDep {α : Type} (dict : α → Option (Str × Str)) (d : Dep α) : Option Bool :=
  match dict d.package with
  | none => some false
  | some (v, r) => d.satisfies v r

/-- `satisfies_dependencies`, pisi/data/dependency.py:100-106, for a given satisfaction test. -/
def satisfiesDependencies {α : Type} (sat : Dep α → Option Bool) : List (Dep α) → Option Bool
  | [] => some true
  | d :: ds => match sat d with
    | none => none
    | some false => some false
    | some true => satisfiesDependencies sat ds

end Pisi
