import Verif.Spec.FileHistory
import Verif.Spec.Interrupted
import Verif.Model.RemoveSteps

/-!
# Histories with interruptions

What a user expects: whatever was installed, removed and changed, and however often pisi was killed or the power failed meanwhile, packages
that were not being worked on are intact, everything can be done, and what is done to its end is done.
-/
namespace Pisi.FS
open Pisi.Path

/-- The file system, the packages that the database records as installed, and those with which something was interrupted that was not done
to its end since. -/
structure Shaky where
  fs : FS
  inst : List Pack
  cut : List Pack

/-- What can happen with the packages `ps`: a package is installed, for the first time or again, pisi/op/install.py:247-309; it is removed,
pisi/op/remove.py:70-71, whatever the database says of its files; either is interrupted after any of its steps, when the database is not
changed yet, pisi/op/install.py:100-112, pisi/op/remove.py:70-79; the user writes a text into a configuration file. -/
inductive Turn (sha : Str → Str) (dest : Str) (ps : List Pack) (y : Shaky) : Shaky → Prop
  | install {p : Pack} {t : FS} : p ∈ ps →
      (extractInstall sha dest (if p ∈ y.inst then some p.l else none) p.l (p.is.map Item.entry) y.fs).2 = .ok t →
      Turn sha dest ps y ⟨t, p :: y.inst, y.cut.filter (· ≠ p)⟩
  | cutInstall {p : Pack} {c : FS} : p ∈ ps →
      c ∈ (extractInstall sha dest (if p ∈ y.inst then some p.l else none) p.l (p.is.map Item.entry) y.fs).1 →
      Turn sha dest ps y ⟨c, y.inst, p :: y.cut⟩
  | remove {p : Pack} {t : FS} (db : DB.FilesDB Str Nat Unit) (pkg : Nat) : p ∈ y.inst → removeFiles sha dest db pkg p.l y.fs = .ok t →
      Turn sha dest ps y ⟨t, y.inst.filter (· ≠ p), y.cut.filter (· ≠ p)⟩
  | cutRemove {p : Pack} {c : FS} (db : DB.FilesDB Str Nat Unit) (pkg : Nat) : p ∈ y.inst → c ∈ (removeFilesTr sha dest db pkg p.l y.fs).1 →
      Turn sha dest ps y ⟨c, y.inst, p :: y.cut⟩
  | edit {p : Pack} {f : FileInfo} {old text : Str} : p ∈ ps → f ∈ p.l → f.conf = true → y.fs.get (joinPath dest [f.path]) = some (.file old) →
      Turn sha dest ps y { y with fs := y.fs.put (joinPath dest [f.path]) (.file text) }

/-- One after the other. -/
inductive Turns (sha : Str → Str) (dest : Str) (ps : List Pack) (y : Shaky) : Shaky → Prop
  | none : Turns sha dest ps y y
  | more {z w : Shaky} : Turns sha dest ps y z → Turn sha dest ps z w → Turns sha dest ps y w

end Pisi.FS
