import Verif.Spec.CrashHistory
import Verif.Spec.UpgradeHistory

/-!
# Histories with upgrades and interruptions

What a user expects: whatever version of which package was installed, upgraded, downgraded, removed and changed, and however often pisi was
killed or failed meanwhile, packages that were not being worked on are intact, everything can be done, and what is done to its end is done.
-/
namespace Pisi.FS
open Pisi.Path

/-- What can happen with versions `ps` of packages, `nm` telling the name of the package a version is of: a version is installed, which is
an upgrade or a downgrade if another one is there, pisi/op/install.py:247-309; a version is removed, pisi/op/remove.py:70-71, whatever the
database says of its files; either stops after any number of its steps, because it fails or is interrupted, when the database is not changed
yet, pisi/op/install.py:100-112, pisi/op/remove.py:70-79; the user writes a text into a configuration file of what is installed.  The last
part of a state are the names of packages with which something stopped that was not done to its end since. -/
inductive UTurn (sha : Str → Str) (dest : Str) (nm : Pack → Str) (ps : List Pack) (y : USys) : USys → Prop
  | install {p : Pack} {t : FS} : p ∈ ps →
      (extractInstall sha dest ((y.inst.find? fun a => nm a = nm p).map Pack.l) p.l (p.is.map Item.entry) y.fs).2 = .ok t →
      UTurn sha dest nm ps y ⟨t, p :: y.inst.filter (fun a => nm a ≠ nm p), y.failed.filter (· ≠ nm p)⟩
  | cutInstall {p : Pack} {c : FS} : p ∈ ps →
      c ∈ y.fs :: (extractInstall sha dest ((y.inst.find? fun a => nm a = nm p).map Pack.l) p.l (p.is.map Item.entry) y.fs).1 →
      UTurn sha dest nm ps y ⟨c, y.inst, nm p :: y.failed⟩
  | remove {p : Pack} {t : FS} (db : DB.FilesDB Str Nat Unit) (pkg : Nat) : p ∈ y.inst → removeFiles sha dest db pkg p.l y.fs = .ok t →
      UTurn sha dest nm ps y ⟨t, y.inst.filter (· ≠ p), y.failed.filter (· ≠ nm p)⟩
  | cutRemove {p : Pack} {c : FS} (db : DB.FilesDB Str Nat Unit) (pkg : Nat) : p ∈ y.inst →
      c ∈ y.fs :: (removeFilesTr sha dest db pkg p.l y.fs).1 → UTurn sha dest nm ps y ⟨c, y.inst, nm p :: y.failed⟩
  | edit {p : Pack} {f : FileInfo} {old text : Str} : p ∈ y.inst → f ∈ p.l → f.conf = true →
      y.fs.get (joinPath dest [f.path]) = some (.file old) →
      UTurn sha dest nm ps y { y with fs := y.fs.put (joinPath dest [f.path]) (.file text) }

/-- One after the other. -/
inductive UTurns (sha : Str → Str) (dest : Str) (nm : Pack → Str) (ps : List Pack) (y : USys) : USys → Prop
  | none : UTurns sha dest nm ps y y
  | more {z w : USys} : UTurns sha dest nm ps y z → UTurn sha dest nm ps z w → UTurns sha dest nm ps y w

end Pisi.FS
