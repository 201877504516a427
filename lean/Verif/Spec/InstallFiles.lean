import Verif.Model.InstallFiles

/-!
# What users may rely on when files are installed and removed
-/
namespace Pisi.FS
open Pisi.Path

/-- The configuration file at `p` was changed by the user: it has content `c`, the new package has it as configuration file,
and `c` does not have the hash recorded by the package it came from (the installed one; for a first installation, the one
being installed). -/
def UserModified (sha : Str → Str) (dest : Str) (old : Option (List FileInfo)) (new : List FileInfo) (fs : FS)
    (p c : Str) : Prop :=
  fs.get p = some (.file c) ∧
  ∃ f ∈ new, f.conf = true ∧ p = joinPath dest [f.path] ∧
    match old with
    | none => some (sha c) ≠ f.hash
    | some l => ∃ o ∈ l, o.path = f.path ∧ o.conf = true ∧ some (sha c) ≠ o.hash

/-- The configuration file at `p` is as some package left it, or absent. -/
def Pristine (sha : Str → Str) (dest : Str) (old : Option (List FileInfo)) (new : List FileInfo) (fs : FS)
    (p : Str) : Prop :=
  ∃ f ∈ new, f.conf = true ∧ p = joinPath dest [f.path] ∧
    (fs.get p = none ∨ ∃ c, fs.get p = some (.file c) ∧
      match old with
      | none => some (sha c) = f.hash
      | some l => ∃ o ∈ l, o.path = f.path ∧ some (sha c) = o.hash)

end Pisi.FS
