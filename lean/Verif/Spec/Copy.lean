import Verif.Spec.Actions

/-! # Copies of trees -/
namespace Pisi.Act

/-- The file systems that can be: the names are names, there is one node at a place, and it is a tree. -/
structure Sound (fs : FS) : Prop where
  tidy : Tidy fs
  uniq : (fs.map Prod.fst).Nodup
  rooted : Rooted fs

/-- The tree at `S` is at `D` as well, everything else is as it was. -/
structure Copied (S D : Loc) (fs fs' : FS) : Prop where
  sound : Sound fs'
  same : ∀ r, look fs' (D ++ r) = look fs (S ++ r)
  out : ∀ p, ¬ D <+: p → look fs' p = look fs p

/-- The copy has what is in the tree, links as links or as what they lead to. -/
def Shown (sym : Bool) (S D : Loc) (fs fs' : FS) : Prop :=
  ∀ r, look fs' (D ++ r) = if sym then look fs (S ++ r) else stat fs (S ++ r)

end Pisi.Act
