import Verif.Model.Index
import Verif.Spec.Path

/-!
# What is expected of an index
-/
namespace Pisi.IndexSpec
open Pisi.DB Pisi.Indexing
variable {α : Type}

/-- A name in a directory. -/
def Name (s : Str) : Prop := s ≠ [] ∧ '/' ∉ s

/-- The names are names. -/
def Proper (w : Walk α) : Prop := ∀ d fs, (d, fs) ∈ w → (∀ x ∈ d, Name x) ∧ ∀ f ∈ fs, Name f.1

/-- There is a file with this content to which these names lead. -/
def FileAt (w : Walk α) (rel : List Str) (c : Content α) : Prop :=
  ∃ d fs fn, (d, fs) ∈ w ∧ (fn, c) ∈ fs ∧ rel = d ++ [fn]

/-- The file is called so. -/
def Called (rel : List Str) (fn : Str) : Prop := rel.getLast? = some fn

/-- The file is called `….pisi`. -/
def CalledPkg (rel : List Str) : Prop := ∃ b, rel.getLast? = some (b ++ ['.', 'p', 'i', 's', 'i'])

/-- There is a package with this metadata. -/
def Package (w : Walk α) (rel : List Str) (m : Meta α) : Prop :=
  ∃ c, FileAt w rel c ∧ CalledPkg rel ∧ c.pkg = .good m

/-- Every file that is looked at can be read (metadata may have errors). -/
def Readable (skip : Bool) (w : Walk α) : Prop := ∀ rel c, FileAt w rel c →
  (CalledPkg rel → c.pkg ≠ .broken) ∧ (Called rel ['c', 'o', 'm', 'p', 'o', 'n', 'e', 'n', 't', '.', 'x', 'm', 'l'] → c.comp.isSome) ∧
  (skip = false → Called rel ['p', 's', 'p', 'e', 'c', '.', 'x', 'm', 'l'] → c.spec.isSome) ∧
  (Called rel ['d', 'i', 's', 't', 'r', 'i', 'b', 'u', 't', 'i', 'o', 'n', '.', 'x', 'm', 'l'] → c.distro = true)

/-- The path below the directory of the index. -/
def relPath (rel : List Str) : Str := joinWith ['/'] rel

/-- The index lists exactly the packages, components and, unless skipped, sources of the directory. -/
def Lists (ix : Index α) (skip : Bool) (w : Walk α) : Prop :=
  (∀ m, m ∈ ix.packages ↔ ∃ rel m', Package w rel m' ∧ m = { m' with uri := relPath rel }) ∧
  (∀ x, x ∈ ix.components ↔
    ∃ rel c, FileAt w rel c ∧ Called rel ['c', 'o', 'm', 'p', 'o', 'n', 'e', 'n', 't', '.', 'x', 'm', 'l'] ∧ c.comp = some x) ∧
  (∀ s, s ∈ ix.specs ↔ skip = false ∧ ∃ rel c s', FileAt w rel c ∧
    Called rel ['p', 's', 'p', 'e', 'c', '.', 'x', 'm', 'l'] ∧ c.spec = some s' ∧ s = { s' with uri := relPath rel })

/-- The names can be part of a URI: no `#`, no `?`, and no colon in the first. -/
def Plain (rel : List Str) : Prop := (∀ x ∈ rel, '#' ∉ x ∧ '?' ∉ x) ∧ ∀ x, rel.head? = some x → ':' ∉ x

/-- The directory of an index on the local file system: an absolute path that does not end with a slash. -/
def Dir (U : Str) : Prop := (∃ r, U = '/' :: r) ∧ U.getLast? ≠ some '/'

end Pisi.IndexSpec
