import Verif.Model.FetchPar

/-!
# Reading packages into the shared temporary directory, pisi/data/package.py

`Package.read` unpacks metadata.xml and files.xml into `tmp_dir()` and reads them there.  The directory is the same for all commands of a
system (or of a user who cannot write to it, pisi/config.py:102-112), and it is not emptied before.  A "process" is here one call of
`read`; the file system has inodes as in `Model/FetchPar.lean`.  `isfile` and `remove` are one step: what may happen between the two
amounts to a later step or to `OSError`, which is `kill`.  Not modelled: the members below config/, which have other names; modes; what is
made of the texts that were read (C185, C184); `extract_install`, which uses one further file of the directory in the same way.
-/
namespace Pisi.ReadPar

open FetchPar (Blob upd)

/-- metadata.xml, pisi/constants.py:69 -/
def metaName : Str := "metadata.xml".toList

/-- files.xml, pisi/constants.py:68 -/
def filesName : Str := "files.xml".toList

/-- A package file: the names of its members in their order, and what `zip_obj.read` gives for a name, in the blocks in which the file
object writes it. -/
structure Pkg where
  names : List Str
  blocks : Str → List Str

/-- The members that are unpacked, pisi/data/package.py:136, pisi/archive.py:233-234, 287-288. -/
def Pkg.members (p : Pkg) : List Str := p.names.filter fun n => n == metaName || n == filesName

/-- How far a call of `read` has got. -/
inductive Phase where
  | idle
  /-- members that are still to be unpacked -/
  | next (ns : List Str)
  /-- the old file was removed -/
  | opening (n : Str) (ns : List Str)
  /-- inode `i` is open; `off` characters are written and `bs` are still to be -/
  | writing (n : Str) (i off : Nat) (bs : List Str) (ns : List Str)
  /-- pisi/data/package.py:147 is next -/
  | reading
  /-- pisi/data/package.py:154 is next; `m` was read from metadata.xml -/
  | reading2 (m : Blob)
  /-- returned -/
  | done (m f : Blob)
  /-- killed or failed -/
  | dead

/-- The directories, the inodes and the processes. -/
structure State where
  names : Nat → Str → Option Nat
  ino : Nat → Blob
  /-- inodes from here on are unused -/
  next : Nat
  ph : Nat → Phase

/-- Process `q` gets to phase `x`. -/
def State.go (s : State) (q : Nat) (x : Phase) : State := { s with ph := upd s.ph q x }

/-- Name `n` of directory `d` is `v` from now on. -/
def State.link (s : State) (d : Nat) (n : Str) (v : Option Nat) : State :=
  { s with names := fun d' n' => if d' = d ∧ n' = n then v else s.names d' n' }

/-- `open(ofile, 'wb')`, pisi/archive.py:281, by process `q` in directory `d`. -/
def State.openW (s : State) (q d : Nat) (n : Str) (bs ns : List Str) : State := match s.names d n with
  | some i => { s with ino := upd s.ino i .empty }.go q (.writing n i 0 bs ns)
  | none => ({ s with ino := upd s.ino s.next .empty, next := s.next + 1 }.link d n (some s.next)).go q (.writing n s.next 0 bs ns)

/-- One step of process `q`, which reads package `pkg q` with `tmp_dir()` being directory `dir q`. -/
inductive Step (dir : Nat → Nat) (pkg : Nat → Pkg) (q : Nat) : State → State → Prop
  /-- pisi/data/package.py:139-144 -/
  | begin (s) : s.ph q = .idle → Step dir pkg q s (s.go q (.next (pkg q).members))
  /-- pisi/archive.py:266-269 -/
  | remove (s n ns) : s.ph q = .next (n :: ns) → Step dir pkg q s ((s.link (dir q) n none).go q (.opening n ns))
  /-- pisi/archive.py:281 -/
  | openW (s n ns) : s.ph q = .opening n ns → Step dir pkg q s (s.openW q (dir q) n ((pkg q).blocks n) ns)
  /-- pisi/archive.py:282-283, a block -/
  | write (s n i off b bs ns) : s.ph q = .writing n i off (b :: bs) ns →
      Step dir pkg q s ({ s with ino := upd s.ino i ((s.ino i).write off b) }.go q (.writing n i (off + b.length) bs ns))
  /-- pisi/archive.py:284-285 -/
  | close (s n i off ns) : s.ph q = .writing n i off [] ns → Step dir pkg q s (s.go q (.next ns))
  /-- pisi/data/package.py:144 returns -/
  | unpacked (s) : s.ph q = .next [] → Step dir pkg q s (s.go q .reading)
  /-- pisi/data/package.py:147; without the file an error -/
  | readMeta (s i) : s.ph q = .reading → s.names (dir q) metaName = some i → Step dir pkg q s (s.go q (.reading2 (s.ino i)))
  /-- pisi/data/package.py:154; without the file an error -/
  | readFiles (s m i) : s.ph q = .reading2 m → s.names (dir q) filesName = some i → Step dir pkg q s (s.go q (.done m (s.ino i)))
  /-- killed, or an error, at any time -/
  | kill (s) : Step dir pkg q s (s.go q .dead)

/-- `pisi delete-cache`, which takes no lock (pisi/cli/deletecache.py:43, pisi/api.py:138-141), removes a file. -/
inductive Clean : State → State → Prop
  | remove (s d n) : Clean s (s.link d n none)

end Pisi.ReadPar
