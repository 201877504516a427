import Verif.Model.InstallFiles

/-!
# Installing a package and removing it again

What a user expects: the file system is as it was before.
-/
namespace Pisi.FS
open Pisi.Path

/-- The path with the given components; none is the root. -/
def pathOf (cs : List Str) : Str := if cs = [] then ['/'] else cs.flatMap ('/' :: ·)

/-- A component of a path. -/
def CompName (c : Str) : Prop := c ≠ [] ∧ '/' ∉ c

/-- A member of a package: where, and what. -/
structure Item where
  comps : List Str
  node : Node
  deriving DecidableEq

/-- The member of the archive. -/
def Item.entry (i : Item) : Entry := match i.node with
  | .file c => .file (pathOf i.comps) c
  | .link t => .link (pathOf i.comps) t
  | .dir => .dir (pathOf i.comps)

/-- The members of a package are at different places with proper names, and what is in something is in a directory. -/
structure Sound (is : List Item) : Prop where
  ne : ∀ i ∈ is, i.comps ≠ []
  names : ∀ i ∈ is, ∀ c ∈ i.comps, CompName c
  apart : (is.map Item.comps).Nodup
  inDirs : ∀ i ∈ is, ∀ j ∈ is, i.comps <+: j.comps → i.comps ≠ j.comps → i.node = .dir

/-- The list of files of the package: each is a member, and every member is listed or a directory with another member in it. -/
structure Lists (dest : Str) (l : List FileInfo) (is : List Item) : Prop where
  sub : ∀ f ∈ l, ∃ i ∈ is, joinPath dest [f.path] = pathOf i.comps
  all : ∀ i ∈ is, (∃ f ∈ l, joinPath dest [f.path] = pathOf i.comps) ∨
    (i.node = .dir ∧ ∃ j ∈ is, i.comps <+: j.comps ∧ i.comps ≠ j.comps)

/-- Two file systems are the same. -/
def Same (a b : FS) : Prop := ∀ k, a.get k = b.get k

/-- Full statement: whatever a package has installed, removing it gives the file system there was before. -/
def RoundTripFull : Prop := ∀ (sha : Str → Str) (dest : Str) (l : List FileInfo) (is : List Item) (fs fs1 fs2 : FS),
  Sound is → Lists dest l is → (extractInstall sha dest none l (is.map Item.entry) fs).2 = .ok fs1 →
  removeFiles sha dest ([] : DB.FilesDB Str Nat Unit) 1 l fs1 = .ok fs2 → Same fs2 fs

/-- The members are new: nothing is at their places, and the way to them leads through directories, if through anything. -/
structure Fresh (is : List Item) (fs : FS) : Prop where
  none : ∀ i ∈ is, fs.get (pathOf i.comps) = none
  way : ∀ i ∈ is, ∀ q, q <+: i.comps → q ≠ i.comps → fs.get (pathOf q) = .none ∨ fs.get (pathOf q) = some .dir

/-- The directories on the way to the members that were there before have something else in them. -/
def Inhabited (is : List Item) (fs : FS) : Prop :=
  ∀ i ∈ is, ∀ q, q <+: i.comps → q ≠ i.comps → q ≠ [] → fs.get (pathOf q) = some .dir →
    ∃ k, fs.get k ≠ none ∧ k ≠ pathOf q ∧ dirname k = pathOf q

end Pisi.FS
