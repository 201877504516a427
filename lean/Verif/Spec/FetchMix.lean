import Verif.Spec.Fetch

/-!
# Files that change on the servers while they are being downloaded (C231)
-/
namespace Pisi.Fetch
open Pisi.FS

/-- Every character of `d` is, at its place, that of some version. -/
def From (V : Str → Prop) (d : Str) : Prop := ∀ (i : Nat) (ch : Char), d[i]? = some ch → ∃ c, V c ∧ c[i]? = some ch

/-- Up to some place `d` is put together from versions, from there on it is the end of one version. -/
def Joined (V : Str → Prop) (d : Str) : Prop := ∃ b c, From V b ∧ V c ∧ d = b ++ c.drop b.length

/-- At `p` there is nothing, or a file put together from versions. -/
def PartV (fs : FS) (p : Str) (V : Str → Prop) : Prop := fs.get p = none ∨ ∃ d, From V d ∧ fs.get p = some (.file d)

/-- Every source of `u` has one of the versions. -/
structure SourcesV (net : Net) (conf : Option (List Str)) (fs : FS) (destdir u : Str) (V : Str → Prop) : Prop where
  remote : ∀ v, Leads conf u v → kind v = .remote → ∃ c, V c ∧ Honest (net v) c
  loc : ∀ v src, Leads conf u v → kind v = .loc src → src ≠ target destdir u ∧ src ≠ part (target destdir u) ∧
    ∃ c, V c ∧ fs.get src = some (.file c)

/-- A fetch of a URL with the name `fn`, where each source has one of the versions, leads from one state to another; it may be
cut off. -/
inductive AttemptV (destdir fn : Str) (V : Str → Prop) (fs : FS) : FS → Prop
  | mk (net : Net) (conf : Option (List Str)) (u : Str) (n : Nat) (fs' : FS) : filename u = fn →
      SourcesV net conf fs destdir u V → fs' ∈ (fetch net conf destdir n fs u).1 → AttemptV destdir fn V fs fs'

end Pisi.Fetch
