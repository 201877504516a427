import Verif.Model.Unpack
import Verif.Spec.Path

/-!
# Where unpacking may write
-/
namespace Pisi.Unpack
open Pisi.PathSpec

/-- Strictly below the target. -/
def Below (T l : Loc) : Prop := ∃ q, q ≠ [] ∧ l = T ++ q

/-- The target is reached through directories only, and its name does not end in white space. -/
def RealDir (fs : Files) (T : Loc) : Prop :=
  (∀ q, q ≠ [] → q <+: T → ∃ m, fs q = some (.dir m)) ∧ (∀ c ∈ T, c ≠ dot ∧ c ≠ dotdot ∧ c ≠ []) ∧
    ∀ c, T.getLast? = some c → c.getLast?.all (fun x => ¬ isSpace x)

/-- There is no link below the target. -/
def NoLinks (fs : Files) (T : Loc) : Prop := ∀ q t, fs (T ++ q) ≠ some (.link t)

/-- No link below the target is above the place of a member; `root` is the part of the names left out. -/
def LinksAside (fs : Files) (T : Loc) (root : Str) (ms : List Member) : Prop := ∀ q t, fs (T ++ q) = some (.link t) →
  ∀ m ∈ ms, segs root ++ q <+: segs m.name → segs root ++ q = segs m.name

/-- A relative name without `.` and `..`. -/
def CleanName (name : Str) : Prop := ¬ IsAbs name ∧ dot ∉ segs name ∧ dotdot ∉ segs name

/-- A member that is unpacked as a link. -/
def Member.IsLink (m : Member) : Prop := m.isDir = false ∧ m.attr = symmagic

/-- No member lies below a member that is a link. -/
def NoneBelowLinks (ms : List Member) : Prop := ∀ m ∈ ms, ∀ k ∈ ms, k.IsLink → segs k.name <+: segs m.name →
  segs k.name = segs m.name

/-- A place that has to be a directory: above a member, or that of a member that is one. -/
def DirPlace (ms : List Member) (q : List Str) : Prop :=
  q ≠ [] ∧ ∃ m ∈ ms, q <+: segs m.name ∧ (m.isDir = false → q ≠ segs m.name)

/-- The archive can be unpacked below the target: the members and what is there agree on what is a directory, only a link
takes the place of one, and no directory name directly above a file ends in white space. -/
structure Unpackable (fs : Files) (T : Loc) (ms : List Member) : Prop where
  tree : ∀ q c, q ≠ [] → (fs (T ++ (q ++ [c]))).isSome → ∃ m, fs (T ++ q) = some (.dir m)
  apart : ∀ m ∈ ms, m.isDir = false → ¬ DirPlace ms (segs m.name)
  dirs : ∀ q, DirPlace ms q → fs (T ++ q) = none ∨ ∃ m, fs (T ++ q) = some (.dir m)
  files : ∀ m ∈ ms, m.isDir = false → m.attr ≠ symmagic → ∀ x, fs (T ++ segs m.name) ≠ some (.dir x)
  names : ∀ m ∈ ms, m.isDir = false → ∀ c, (segs m.name).dropLast.getLast? = some c →
    c.getLast?.all (fun x => ¬ isSpace x)

end Pisi.Unpack
