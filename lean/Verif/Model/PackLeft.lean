import Verif.Model.PackRun

/-!
# Model of the installation of a package file that a build has left: pisi/data/package.py:119-156, pisi/op/install.py:76-111

What matters here are the members that are in the file. Not modelled: config files that were changed by the user, the other
checks of an installation (C65, C71, C116 and others), and the members below config/.
-/
namespace Pisi.PackRun

/-- The two control files in the temporary directory: the package whose they are. -/
structure Tmp where
  metadata : Option Pkg
  files : Option Pkg

/-- `extract_PISI_files`, pisi/data/package.py:133-137: the members that are in the file `ms` of the package `p` are unpacked over
those that are there. -/
def Tmp.unpack (t : Tmp) (p : Pkg) (ms : List Member) : Tmp :=
  ⟨if Member.metadata ∈ ms then some p else t.metadata, if Member.filesXml ∈ ms then some p else t.files⟩

/-- `Package.read`, pisi/data/package.py:139-156: what is in the directory then; `none`: one of the files is not there. -/
def Tmp.read (t : Tmp) : Option (Pkg × Pkg) := match t.metadata, t.files with
  | some m, some f => some (m, f)
  | _, _ => none

/-- The paths in `install.tar.lzma`. -/
def Member.payload? : Member → Option (List Str)
  | .payload l => some l
  | _ => none

/-- The path of a member below install/. -/
def Member.file? : Member → Option Str
  | .file x => some x
  | _ => none

/-- `Package.extract_install`, pisi/data/package.py:119-125: the paths that are unpacked: those of `install.tar.lzma` if it is in
the file, and otherwise those below install/. -/
def unpacked (ms : List Member) : List Str :=
  match ms.findSome? Member.payload? with
  | some l => l
  | none => ms.filterMap Member.file?

/-- What an installation has done: the package that is recorded, the paths that are recorded for it and those that were
unpacked. -/
structure Done where
  pkg : Pkg
  listed : List Str
  got : List Str

/-- `Install(fname).install()`, pisi/op/install.py:76-111: it gives the directory as it is left, and what was done; `none`: an
exception. `legible`: whether `ZipFile` accepts the file, which it does if it was closed, be it by python after an exception. -/
def install (legible : Bool) (p : Pkg) (ms : List Member) (t : Tmp) : Tmp × Option Done :=
  if legible then
    let t' := t.unpack p ms
    (t', t'.read.map fun r => ⟨r.1, r.2.files, unpacked ms⟩)
  else (t, none)

/-- Several installations, one after the other. -/
def installs (t : Tmp) : List (Bool × Pkg × List Member) → Tmp
  | [] => t
  | x :: l => installs (install x.1 x.2.1 x.2.2 t).1 l

end Pisi.PackRun
