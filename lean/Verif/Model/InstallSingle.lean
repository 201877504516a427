import Verif.Model.InstallFiles
import Verif.Model.UpgradePlan

/-!
# Installing one package: file conflicts and reinstallation, pisi/op/install.py
-/
namespace Pisi.FS
open Pisi.Path
variable {α ι : Type} [DecidableEq α]

/-- The loop of `check_relations` over the files of the package, pisi/op/install.py:147-154. -/
def fileConflicts (dest : Str) (db : DB.FilesDB Str α ι) (pkg : α) (fs : FS) (new : List FileInfo) : List (α × Str) :=
  new.filterMap fun f => match db.getFile f.path with
    | some (o, p, _) => if o ≠ pkg ∧ isDir fs (joinPath dest [f.path]) = false then some (o, p) else none
    | none => none

/-- The file part of `Install.install`: `check_relations`, pisi/op/install.py:147-163, and `extract_install`.  `ignore` is
`ignore_file_conflicts`, which upgrades set (pisi/op/upgrade.py:165). -/
def installFiles (sha : Str → Str) (dest : Str) (ignore : Bool) (db : DB.FilesDB Str α ι) (pkg : α)
    (old : Option (List FileInfo)) (new : List FileInfo) (es : List Entry) (fs : FS) : Tr FS :=
  if fileConflicts dest db pkg fs new ≠ [] ∧ ignore = false then ([], .error .pisi)
  else extractInstall sha dest old new es fs

end Pisi.FS

namespace Pisi.Plan
open Pisi.Version
variable {α : Type} [DecidableEq α]

/-- The questions of `check_reinstall`. -/
inductive Question where
  /-- 'Re-install same version package?' -/
  | same
  /-- 'Downgrade to old distribution release?' -/
  | release
  /-- 'Downgrade to old distribution build?' -/
  | build
  deriving DecidableEq

inductive RErr where
  /-- `ValueError` of `Version` -/
  | value
  /-- `Error('Package re-install declined')`, `Error('Package downgrade declined')` -/
  | declined
  deriving DecidableEq

/-- `Version(a) <rel> Version(b)` -/
def verCmp (rel : List Item → List Item → Bool) (a b : Str) : Except RErr Bool :=
  match parse a with
  | none => .error .value
  | some va => match parse b with
    | none => .error .value
    | some vb => .ok (rel va vb)

/-- `same_ver`, pisi/op/install.py:181-190; `mismatch` is that the distributions differ. -/
def sameVer (mismatch ignoreBuild : Bool) (i : InstRec) (p : PkgInfo α) : Except RErr Bool :=
  if mismatch || noBuild i.build || noBuild p.build || ignoreBuild then verCmp veq p.release i.release
  else .ok (p.build = i.build)

/-- Python's `a > b` for the builds, both true. -/
def buildGt (a b : Option Int) : Bool := match a, b with
  | some x, some y => x > y
  | _, _ => false

/-- `upgrade`, pisi/op/install.py:197-211. -/
def isUpgrade (ignoreBuild : Bool) (i : InstRec) (p : PkgInfo α) : Except RErr Bool :=
  match verCmp vgt p.version i.version with
  | .error e => .error e
  | .ok true => .ok true
  | .ok false => match verCmp vgt p.release i.release with
    | .error e => .error e
    | .ok true => .ok true
    | .ok false => .ok (!ignoreBuild && !noBuild i.build && !noBuild p.build && buildGt p.build i.build)

/-- The question about a downgrade, pisi/op/install.py:215-221. -/
def downgradeQuestion (i : InstRec) (p : PkgInfo α) : Except RErr (Option Question) :=
  match verCmp vlt p.version i.version with
  | .error e => .error e
  | .ok true => .ok none
  | .ok false => match verCmp vlt p.release i.release with
    | .error e => .error e
    | .ok true => .ok (some .release)
    | .ok false => .ok (some .build)

/-- `check_reinstall` for an installed package, pisi/op/install.py:165-223; the result is `self.upgrade`.  `confirm` is the
user. -/
def checkReinstall (mismatch ignoreBuild ask : Bool) (confirm : Question → Bool) (i : InstRec) (p : PkgInfo α) :
    Except RErr Bool :=
  match sameVer mismatch ignoreBuild i p with
  | .error e => .error e
  | .ok true => if ask && !confirm .same then .error .declined else .ok false
  | .ok false => match isUpgrade ignoreBuild i p with
    | .error e => .error e
    | .ok true => .ok true
    | .ok false =>
      if ask then match downgradeQuestion i p with
        | .error e => .error e
        | .ok none => .ok false
        | .ok (some q) => if confirm q then .ok false else .error .declined
      else .ok false

end Pisi.Plan
