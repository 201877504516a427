import Verif.Spec.InstallMany

/-!
# Histories of installations, removals and changes of configuration files

What a user expects: every operation succeeds, whatever is installed is intact, and what they have written into configuration files stays.
-/
namespace Pisi.FS
open Pisi.Path

/-- What is done: a package is installed, for the first time or again; it is removed, whatever the database says of its files; the user
writes a text into a configuration file. -/
inductive Deed where
  | install (p : Pack)
  | remove (p : Pack) (db : DB.FilesDB Str Nat Unit) (pkg : Nat)
  | edit (p : Pack) (f : FileInfo) (text : Str)

/-- The file system and the packages that are installed. -/
structure Sys where
  fs : FS
  inst : List Pack

instance : DecidableEq Pack := fun a b =>
  if h : a.l = b.l ∧ a.is = b.is ∧ a.again = b.again then .isTrue (by cases a; cases b; simp_all)
  else .isFalse (by rintro rfl; exact h ⟨rfl, rfl, rfl⟩)

/-- One of them: the files of an installation, pisi/op/install.py:247-309, and of a removal, pisi/op/remove.py:70-71; what is not installed
is not removed, and what is not there is not edited. -/
def deed (sha : Str → Str) (dest : Str) (y : Sys) : Deed → Except FErr Sys
  | .install p => match (extractInstall sha dest (if p ∈ y.inst then some p.l else none) p.l (p.is.map Item.entry) y.fs).2 with
    | .ok t => .ok ⟨t, p :: y.inst⟩
    | .error e => .error e
  | .remove p db pkg => if p ∈ y.inst then match removeFiles sha dest db pkg p.l y.fs with
      | .ok t => .ok ⟨t, y.inst.filter (· ≠ p)⟩
      | .error e => .error e
    else .ok y
  | .edit _ f text => match y.fs.get (joinPath dest [f.path]) with
    | some (.file _) => .ok { y with fs := y.fs.put (joinPath dest [f.path]) (.file text) }
    | _ => .ok y

/-- One after the other. -/
def deeds (sha : Str → Str) (dest : Str) : Sys → List Deed → Except FErr Sys
  | y, [] => .ok y
  | y, d :: ds => match deed sha dest y d with
    | .ok y => deeds sha dest y ds
    | .error e => .error e

/-- The deed is about the packages `ps`; edited are configuration files of theirs. -/
def Deed.About (ps : List Pack) : Deed → Prop
  | .install p => p ∈ ps
  | .remove p _ _ => p ∈ ps
  | .edit p f _ => p ∈ ps ∧ f ∈ p.l ∧ f.conf = true

/-- A proper package: no file is recorded twice, and its configuration files are files with their hash, not called like the names under which
such files are kept. -/
structure Proper (sha : Str → Str) (dest : Str) (p : Pack) : Prop where
  sound : Sound p.is
  lists : Lists dest p.l p.is
  once : ∀ f ∈ p.l, ∀ g ∈ p.l, joinPath dest [f.path] = joinPath dest [g.path] → f = g
  conf : ∀ f ∈ p.l, f.conf = true → ∀ i ∈ p.is, joinPath dest [f.path] = pathOf i.comps → ∃ c, i.node = .file c ∧ f.hash = some (sha c)
  names : ∀ f ∈ p.l, f.conf = true → ∀ j ∈ p.is, ∀ q, q <+: j.comps →
    joinPath dest [f.path] ++ ".old".toList ≠ pathOf q ∧ joinPath dest [f.path] ++ ".newconfig".toList ≠ pathOf q

/-- The file system has room for the package: files and directories are not in each other's places, and the names for keeping
configuration files are free. -/
structure Room (dest : Str) (s : FS) (p : Pack) : Prop where
  isOpen : Open p.is s
  plain : ∀ f ∈ p.l, f.conf = true → s.get (joinPath dest [f.path]) = none ∨ ∃ c, s.get (joinPath dest [f.path]) = some (.file c)
  oldFree : ∀ f ∈ p.l, f.conf = true → s.get (joinPath dest [f.path] ++ ".old".toList) = none
  newFree : ∀ f ∈ p.l, f.conf = true → s.get (joinPath dest [f.path] ++ ".newconfig".toList) ≠ some .dir

/-- The members, other than configuration files and directories, are in place. -/
def Whole (dest : Str) (s : FS) (p : Pack) : Prop :=
  ∀ f ∈ p.l, f.conf = false → ∀ i ∈ p.is, joinPath dest [f.path] = pathOf i.comps → i.node ≠ .dir → s.get (pathOf i.comps) = some i.node

/-- **C214, full statement.**  With packages that have no file in common, everything can be done, and what is installed is whole. -/
def HistoryFull : Prop := ∀ (sha : Str → Str) (dest : Str) (ps : List Pack) (s : FS), (∀ p ∈ ps, Proper sha dest p ∧ Room dest s p) →
  ps.Pairwise (fun a b => ∀ f ∈ a.l, ∀ g ∈ b.l, f.path ≠ g.path) → ∀ ds : List Deed, (∀ d ∈ ds, d.About ps) →
  ∃ y, deeds sha dest ⟨s, []⟩ ds = .ok y ∧ ∀ p ∈ y.inst, Whole dest y.fs p

end Pisi.FS
