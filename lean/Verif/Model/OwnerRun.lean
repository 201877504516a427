import Verif.Model.FilesDB

/-!
# The file records over whole installs, upgrades and removals, pisi/op/install.py and pisi/op/remove.py
-/
namespace Pisi.DB
variable {π α ι : Type} [DecidableEq π] [DecidableEq α]

/-- What the operations keep about files. -/
structure Owners (π α ι : Type) where
  /-- The installed packages with their file lists, `installdb.files`, pisi/db/install.py:88-93.  Packages whose
  name-version-release coincide would share a stored list; that is left out here. -/
  lists : Dict α (List (π × ι))
  /-- `ctx.filesdb` -/
  db : FilesDB π α ι

/-- A request as it reaches the operation on one package. -/
inductive OwnCmd (π α ι : Type) where
  /-- `Install(…).install`.  `ignore` is `self.ignore_file_conflicts`: the option of the user, and always set for the packages
  of an upgrade, pisi/op/upgrade.py:165.  `isdir` answers `os.path.isdir` for the path below the destination at that time. -/
  | install (pkg : α) (files : List (π × ι)) (ignore : Bool) (isdir : π → Bool)
  /-- `Remove(…).run`.  `lost` is that the stored list cannot be read, pisi/op/remove.py:38-42. -/
  | remove (pkg : α) (lost : Bool)

/-- The loop of `check_relations` over the files, pisi/op/install.py:147-154. -/
def Owners.conflicts (s : Owners π α ι) (pkg : α) (files : List (π × ι)) (isdir : π → Bool) : List (α × π) :=
  files.filterMap fun f => match s.db.getFile f.1 with
    | some (o, p, _) => if o ≠ pkg ∧ isdir f.1 = false then some (o, p) else none
    | none => none

/-- `leftover` of `extract_install`, pisi/op/install.py:305-309. -/
def leftover (old new : List (π × ι)) : List π := (old.map (·.1)).filter fun x => x ∉ new.map (·.1)

/-- `update_databases` of an install, pisi/op/install.py:332-347, with the stored list; for an installed package first
`remove_db`, pisi/op/remove.py:144-147. -/
def Owners.record (s : Owners π α ι) (pkg : α) (files : List (π × ι)) : Owners π α ι :=
  match s.lists.get pkg with
  | some old => ⟨s.lists.put pkg files, (s.db.removeFiles (old.map (·.1))).addFiles pkg files⟩
  | none => ⟨s.lists.put pkg files, s.db.addFiles pkg files⟩

/-- One request.  A file conflict is refused, pisi/op/install.py:155-163.  The first left over file ends the operation with a
`TypeError` before the records change (`remove.Remove.remove_file` is not a static method, pisi/op/install.py:314 and
pisi/op/remove.py:90-91).  Removing what is not installed fails (pisi/op/remove.py:49-51).  An operation that fails elsewhere before
`update_databases` or `remove_db` does nothing here. -/
def Owners.step (s : Owners π α ι) : OwnCmd π α ι → Owners π α ι
  | .install pkg files ignore isdir =>
    if s.conflicts pkg files isdir ≠ [] ∧ ignore = false then s
    else if leftover ((s.lists.get pkg).getD []) files ≠ [] then s
    else s.record pkg files
  | .remove pkg lost => match s.lists.get pkg with
    | none => s
    | some fs => ⟨s.lists.del pkg, s.db.removeFiles (if lost then [] else fs.map (·.1))⟩

/-- A history, from an empty system. -/
def Owners.run (cs : List (OwnCmd π α ι)) : Owners π α ι := cs.foldl Owners.step ⟨[], []⟩

end Pisi.DB
