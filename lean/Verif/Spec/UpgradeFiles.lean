import Verif.Spec.CheckInstalled
import Verif.Spec.Reinstall

/-!
# Upgrading the files of a package

What a user expects: the new version is in place, the configuration files of the user are kept, with those of the package beside them,
and nothing else changes.
-/
namespace Pisi.FS
open Pisi.Path

/-- `p` is a configuration file, of the old version as of the new, that the user has changed. -/
def UserChanged (sha : Str → Str) (dest : Str) (old new : List FileInfo) (s : FS) (p : Str) : Prop :=
  ∃ n ∈ new, ∃ o ∈ old, n.path = o.path ∧ n.conf = true ∧ o.conf = true ∧ joinPath dest [n.path] = p ∧
    ∃ c, s.get p = some (.file c) ∧ o.hash ≠ some (sha c)

/-- `p` is a configuration file of the new version and there is a file of the user: another one than the old version has put there, or,
if that had none, than the new one has. -/
def Users (sha : Str → Str) (dest : Str) (old new : List FileInfo) (s : FS) (p : Str) : Prop :=
  ∃ n ∈ new, n.conf = true ∧ joinPath dest [n.path] = p ∧ ∃ c, s.get p = some (.file c) ∧
    ((∃ o ∈ old, o.path = n.path ∧ o.hash ≠ some (sha c)) ∨ ((∀ o ∈ old, o.path ≠ n.path) ∧ n.hash ≠ some (sha c)))

/-- The file system `t` after the members `is` were put over `s`, the files `K` being kept. -/
structure PutOver (K : Str → Prop) (is : List Item) (s t : FS) : Prop where
  kept : ∀ p, K p → t.get p = s.get p
  beside : ∀ i ∈ is, K (pathOf i.comps) → t.get (pathOf i.comps ++ ".newconfig".toList) = some i.node
  inPlace : ∀ i ∈ is, ¬ K (pathOf i.comps) → t.get (pathOf i.comps) = some i.node
  dirs : ∀ i ∈ is, ∀ q, q <+: i.comps → q ≠ i.comps → t.get (pathOf q) = some .dir
  rest : ∀ k, (∀ i ∈ is, ∀ q, q <+: i.comps → k ≠ pathOf q) → (∀ p, K p → k ≠ p ++ ".newconfig".toList) → t.get k = s.get k

/-- The configuration files of both versions are files, if they are there, and the names for keeping the changed ones are free. -/
structure KeepableUp (sha : Str → Str) (dest : Str) (old new : List FileInfo) (is : List Item) (s : FS) : Prop where
  plain : ∀ n ∈ new, ∀ o ∈ old, n.path = o.path → n.conf = true → o.conf = true →
    s.get (joinPath dest [n.path]) = none ∨ ∃ c, s.get (joinPath dest [n.path]) = some (.file c)
  oldFree : ∀ p, UserChanged sha dest old new s p → s.get (p ++ ".old".toList) = none
  newFree : ∀ p, UserChanged sha dest old new s p → s.get (p ++ ".newconfig".toList) ≠ some .dir
  names : ∀ p, UserChanged sha dest old new s p → ∀ i ∈ is, ∀ q, q <+: i.comps →
    p ++ ".old".toList ≠ pathOf q ∧ p ++ ".newconfig".toList ≠ pathOf q

/-- The file system after a computation that started with `s`, whether it succeeded or not. -/
def Tr.final {β : Type} (s : FS) (x : Tr β) : FS := x.1.getLast?.getD s

end Pisi.FS
