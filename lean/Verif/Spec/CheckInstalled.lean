import Verif.Spec.RoundTrip

/-!
# Checking what was installed

What a user expects: a package that was just installed is intact, and later the check names exactly the files that were changed since.
-/
namespace Pisi.FS
open Pisi.Path

/-- The records say what the members are: the hash of a file is that of its text, a directory has none, the paths are relative. -/
structure Honest (sha : Str → Str) (dest : Str) (l : List FileInfo) (is : List Item) : Prop where
  rel : ∀ f ∈ l, f.path.head? ≠ some '/'
  file : ∀ f ∈ l, ∀ i ∈ is, joinPath dest [f.path] = pathOf i.comps → ∀ c, i.node = .file c → f.hash = some (sha c)
  dir : ∀ f ∈ l, ∀ i ∈ is, joinPath dest [f.path] = pathOf i.comps → i.node = .dir → f.hash = none ∨ f.hash = some []

/-- Full statement: wherever a package is installed, the check finds it intact afterwards. -/
def IntactFull : Prop := ∀ (sha : Str → Str) (dest : Str) (l : List FileInfo) (is : List Item) (s t : FS),
  Sound is → Lists dest l is → Honest sha dest l is → (extractInstall sha dest none l (is.map Item.entry) s).2 = .ok t →
  checkFiles sha t l = .ok []

/-- The text of the file recorded as `f` is not the one it was. -/
def TextChanged (sha : Str → Str) (s t : FS) (f : FileInfo) : Prop :=
  ∃ c c', s.get ('/' :: f.path) = some (.file c) ∧ t.get ('/' :: f.path) = some (.file c') ∧ sha c ≠ sha c'

/-- Since `s` only texts of files among the recorded ones have changed. -/
def OnlyTexts (l : List FileInfo) (s t : FS) : Prop := ∀ f ∈ l, t.get ('/' :: f.path) = s.get ('/' :: f.path) ∨
  ∃ c c', s.get ('/' :: f.path) = some (.file c) ∧ t.get ('/' :: f.path) = some (.file c')

end Pisi.FS
