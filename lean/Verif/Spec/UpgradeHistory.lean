import Verif.Spec.FileHistory

/-!
# Histories with upgrades

What a user expects: whatever version of which package is installed, upgraded, downgraded or removed, what is installed is intact, and what
they have written into configuration files stays.
-/
namespace Pisi.FS
open Pisi.Path

/-- The file system, the versions that are installed, and the names of the packages whose last installation has failed. -/
structure USys where
  fs : FS
  inst : List Pack
  failed : List Str

/-- What a deed does, `nm` telling the name of the package a version is of: the files of an installation, which is an upgrade or a
downgrade if another version is there, pisi/op/install.py:247-309 (all questions answered yes), and of a removal, pisi/op/remove.py:70-71.
If an installation fails the databases stay, pisi/op/install.py:100-112, and the files are left as they are then.  What is not installed
is not removed nor edited. -/
def udeed (sha : Str → Str) (dest : Str) (nm : Pack → Str) (y : USys) : Deed → USys
  | .install p =>
    let x := extractInstall sha dest ((y.inst.find? fun a => nm a = nm p).map Pack.l) p.l (p.is.map Item.entry) y.fs
    match x.2 with
    | .ok t => ⟨t, p :: y.inst.filter (fun a => nm a ≠ nm p), y.failed.filter (· ≠ nm p)⟩
    | .error _ => ⟨Tr.final y.fs x, y.inst, nm p :: y.failed⟩
  | .remove p db pkg => if p ∈ y.inst then match removeFiles sha dest db pkg p.l y.fs with
      | .ok t => ⟨t, y.inst.filter (· ≠ p), y.failed.filter (· ≠ nm p)⟩
      | .error _ => { y with failed := nm p :: y.failed }
    else y
  | .edit p f text => if p ∈ y.inst then match y.fs.get (joinPath dest [f.path]) with
      | some (.file _) => { y with fs := y.fs.put (joinPath dest [f.path]) (.file text) }
      | _ => y
    else y

/-- One after the other, whether they fail or not. -/
def udeeds (sha : Str → Str) (dest : Str) (nm : Pack → Str) (y : USys) (ds : List Deed) : USys := ds.foldl (udeed sha dest nm) y

/-- What two versions of a package may have in common: what is a directory in one is none but a directory in the other, what is a
configuration file in one is a file in the other, and the names for keeping it are free there. -/
structure Version (dest : Str) (a b : Pack) : Prop where
  way : ∀ i ∈ a.is, ∀ j ∈ b.is, i.comps <+: j.comps → i.comps ≠ j.comps → i.node = .dir
  kind : ∀ i ∈ a.is, ∀ j ∈ b.is, i.comps = j.comps → i.node = .dir → j.node = .dir
  conf : ∀ f ∈ a.l, f.conf = true → ∀ j ∈ b.is, joinPath dest [f.path] = pathOf j.comps → ∃ c, j.node = .file c
  names : ∀ f ∈ a.l, f.conf = true → ∀ j ∈ b.is, ∀ q, q <+: j.comps →
    joinPath dest [f.path] ++ ".old".toList ≠ pathOf q ∧ joinPath dest [f.path] ++ ".newconfig".toList ≠ pathOf q

/-- Packages in several versions. -/
structure Family (sha : Str → Str) (dest : Str) (nm : Pack → Str) (ps : List Pack) : Prop where
  proper : ∀ p ∈ ps, Proper sha dest p
  once : ∀ p ∈ ps, (p.l.map FileInfo.path).Nodup
  beside : ∀ a ∈ ps, ∀ b ∈ ps, nm a ≠ nm b → Beside dest a b
  versions : ∀ a ∈ ps, ∀ b ∈ ps, nm a = nm b → a ≠ b → Version dest a b

/-- Installing `b` would drop a file of the version that is installed. -/
def Drops (nm : Pack → Str) (y : USys) (b : Pack) : Prop := ∃ a ∈ y.inst, nm a = nm b ∧ ∃ o ∈ a.l, ∀ n ∈ b.l, n.path ≠ o.path

end Pisi.FS
