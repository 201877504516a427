/-
Installing, removing and configuring one package from beginning to end:
`Install.install` and `Remove.run`, with every point at which they can fail.

The state of the system is what the operations read and write of a package:
the record in the install database, the directory with the stored file list,
its files on the disk, and the scripts that COMAR has registered.
Simplifications: a version is version and release, and the directory of stored
files is known by package and version (pisi/db/install.py:92-94); the files of
different packages are different (C34, C83), and none is a configuration file
or permanent (C31-C33); the database part is all or nothing (C35); whether an
operation fails at some point is given from outside.  The entry of the
thirdparty store that `check_relations` makes is left out.
-/
import Verif.Model.Str

namespace Pisi.InstallOp

/-- What packages consist of. -/
structure Pkgs (α ν φ : Type) where
  /-- The files of a version of a package. -/
  files : α → ν → List φ
  /-- Whether it provides COMAR scripts. -/
  scripts : α → ν → Bool

/-- The state of the system. -/
structure Sys (α ν φ : Type) where
  /-- The install database: the version, and whether it is pending. -/
  db : α → Option (ν × Bool)
  /-- The directory with `files.xml` and `metadata.xml` of a version exists. -/
  info : α → ν → Bool
  /-- A file of the package is on the disk. -/
  disk : α → φ → Bool
  /-- The version whose scripts COMAR has registered. -/
  reg : α → Option ν

/-- What happens during an operation. -/
structure Luck (φ : Type) where
  /-- COMAR is used: `ctx.comar`. -/
  comar : Bool
  /-- Requirements, dependencies and file conflicts are passed and the user
  agrees (pisi/op/install.py:120-163, 165-223). -/
  checks : Bool
  /-- The script of the package and the handlers before a removal succeed. -/
  preCalls : Bool
  /-- Unregistering its scripts succeeds. -/
  unregister : Bool
  /-- `none` if unpacking succeeds, or the files unpacked before it failed. -/
  extract : Option (List φ)
  /-- Storing `files.xml` and the rest succeeds. -/
  store : Bool
  /-- Registering its scripts succeeds. -/
  register : Bool
  /-- The handlers and its script after an installation succeed. -/
  postCalls : Bool
  /-- The database transaction is committed. -/
  commit : Bool

/-- Where an operation failed. -/
inductive Stage where
  | checks
  | fileList
  | preCalls
  | unregister
  | extract
  | leftover
  | store
  | register
  | postCalls
  | commit
  | notInstalled
  deriving DecidableEq

variable {α ν φ : Type} [DecidableEq α] [DecidableEq ν] [DecidableEq φ]

/-- Updating a function at one point. -/
def upd {β : Type} (f : α → β) (p : α) (b : β) : α → β := fun q => if q = p then b else f q

/-- `run_preremove` (pisi/op/remove.py:132-139, pisi/comariface.py:120-134). -/
def preRemove (l : Luck φ) (s : Sys α ν φ) (p : α) : Sys α ν φ × Option Stage :=
  if l.comar then
    if l.preCalls then
      if l.unregister then ({ s with reg := upd s.reg p none }, none)
      else (s, some .unregister)
    else (s, some .preCalls)
  else (s, none)

/-- The second half of `check_reinstall` (pisi/op/install.py:174-178,
225-230): the file list of the installed version is read, an error if it is
not there, and its removal is prepared. -/
def checkReinstall (l : Luck φ) (s : Sys α ν φ) (p : α) : Sys α ν φ × Option Stage :=
  match s.db p with
  | none => (s, none)
  | some (v0, _) =>
    if s.info p v0 then preRemove l s p else (s, some .fileList)

/-- Files that were in the old version only, `leftover`
(pisi/op/install.py:298-303). -/
def leftover (P : Pkgs α ν φ) (p : α) (v0 v : ν) : List φ :=
  (P.files p v0).filter (fun x => decide (x ∉ P.files p v))

/-- `extract_install` (pisi/op/install.py:247-309).  The call
`remove.Remove.remove_file(old_fileinfo[path])` on line 309 is a `TypeError`,
as the method is not static. -/
def extractInstall (P : Pkgs α ν φ) (l : Luck φ) (s : Sys α ν φ) (p : α) (v : ν) :
    Sys α ν φ × Option Stage :=
  match l.extract with
  | some got =>
    ({ s with disk := upd s.disk p (fun x => s.disk p x || decide (x ∈ got ∧ x ∈ P.files p v)) },
      some .extract)
  | none =>
    let s' := { s with disk := upd s.disk p (fun x => s.disk p x || decide (x ∈ P.files p v)) }
    match s.db p with
    | none => (s', none)
    | some (v0, _) => if leftover P p v0 v = [] then (s', none) else (s', some .leftover)

/-- `store_pisi_files` (pisi/op/install.py:312-330): the directory of the old
version is deleted first. -/
def storeFiles (l : Luck φ) (s : Sys α ν φ) (p : α) (v : ν) : Sys α ν φ × Option Stage :=
  let i := match s.db p with
    | none => s.info p
    | some (v0, _) => upd (s.info p) v0 false
  if l.store then ({ s with info := upd s.info p (upd i v true) }, none)
  else ({ s with info := upd s.info p i }, some .store)

/-- `postinstall` (pisi/op/install.py:232-245, pisi/comariface.py:97-118). -/
def postInstall (P : Pkgs α ν φ) (l : Luck φ) (s : Sys α ν φ) (p : α) (v : ν) :
    Sys α ν φ × Option Stage :=
  if l.comar then
    if l.register then
      let s' := { s with reg := upd s.reg p (if P.scripts p v then some v else s.reg p) }
      if l.postCalls then (s', none) else (s', some .postCalls)
    else (s, some .register)
  else (s, none)

/-- The database part of `Install.install` (pisi/op/install.py:104-111,
332-350): `config_later` is that COMAR was not used. -/
def record (l : Luck φ) (s : Sys α ν φ) (p : α) (v : ν) : Sys α ν φ × Option Stage :=
  if l.commit then ({ s with db := upd s.db p (some (v, !l.comar)) }, none)
  else (s, some .commit)

/-- Going on to the next step unless the one before raised an exception. -/
def andThen (r : Sys α ν φ × Option Stage) (f : Sys α ν φ → Sys α ν φ × Option Stage) :
    Sys α ν φ × Option Stage :=
  match r with
  | (s, none) => f s
  | (s, some e) => (s, some e)

/-- `Install.install` (pisi/op/install.py:88-118). -/
def install (P : Pkgs α ν φ) (l : Luck φ) (s : Sys α ν φ) (p : α) (v : ν) :
    Sys α ν φ × Option Stage :=
  if l.checks then
    andThen (checkReinstall l s p) fun s =>
    andThen (extractInstall P l s p v) fun s =>
    andThen (storeFiles l s p v) fun s =>
    andThen (postInstall P l s p v) fun s =>
    record l s p v
  else (s, some .checks)

/-- `Remove.run` (pisi/op/remove.py:46-83, 132-148): when the file list cannot
be read, no file is removed. -/
def remove (P : Pkgs α ν φ) (l : Luck φ) (s : Sys α ν φ) (p : α) : Sys α ν φ × Option Stage :=
  match s.db p with
  | none => (s, some .notInstalled)
  | some (v0, _) =>
    andThen (preRemove l s p) fun s =>
    let s := if s.info p v0 then
        { s with disk := upd s.disk p (fun x => s.disk p x && !decide (x ∈ P.files p v0)) }
      else s
    if l.commit then
      ({ s with db := upd s.db p none, info := upd s.info p (upd (s.info p) v0 false) }, none)
    else (s, some .commit)

/-- The operations on a package. -/
inductive Op (α ν : Type) where
  | install (p : α) (v : ν)
  | remove (p : α)

/-- The package of an operation. -/
def Op.pkg : Op α ν → α
  | .install p _ => p
  | .remove p => p

/-- One operation. -/
def step (P : Pkgs α ν φ) (l : Luck φ) (s : Sys α ν φ) : Op α ν → Sys α ν φ × Option Stage
  | .install p v => install P l s p v
  | .remove p => remove P l s p

/-- Operations one after the other, each with what happens to it; one that
fails does not keep the user from going on with the next. -/
def run (P : Pkgs α ν φ) (s : Sys α ν φ) (h : List (Op α ν × Luck φ)) : Sys α ν φ :=
  h.foldl (fun s o => (step P o.2 s o.1).1) s

/-- A system without packages. -/
def empty : Sys α ν φ :=
  ⟨fun _ => none, fun _ _ => false, fun _ _ => false, fun _ => none⟩

end Pisi.InstallOp
