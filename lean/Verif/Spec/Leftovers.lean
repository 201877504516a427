import Verif.Spec.UpgradeHistory

/-!
# What is left behind

What a user expects: the files of packages that are there are those of the installed ones.
-/
namespace Pisi.FS
open Pisi.Path

/-- `k` is the place of a file or link of some version, and neither a configuration file nor a permanent one in any. -/
structure Ordinary (dest : Str) (ps : List Pack) (k : Str) : Prop where
  isOf : ∃ p ∈ ps, ∃ i ∈ p.is, i.node ≠ .dir ∧ k = pathOf i.comps
  plain : ∀ p ∈ ps, ∀ f ∈ p.l, joinPath dest [f.path] = k → f.conf = false ∧ f.permanent = false

/-- The version has something there. -/
def Has (p : Pack) (k : Str) : Prop := ∃ i ∈ p.is, k = pathOf i.comps

/-- When the package is removed no other one is recorded for its files. -/
def Deed.Owned (dest : Str) : Deed → Prop
  | .remove p db pkg => ∀ f ∈ p.l, ∀ o i, db.get (joinPath dest [f.path]) = some (o, i) → o = pkg
  | _ => True

/-- The history contains a failed installation of a version that has something at `k`. -/
def FailedWith (sha : Str → Str) (dest : Str) (nm : Pack → Str) (s : FS) (ds : List Deed) (k : Str) : Prop :=
  ∃ es b fs, ds = es ++ .install b :: fs ∧ Drops nm (udeeds sha dest nm ⟨s, [], []⟩ es) b ∧ Has b k

end Pisi.FS
