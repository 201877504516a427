import Verif.Spec.Actions
import Verif.Model.Cache

/-! # What emptying the cache should do, without reference to how it is done -/
namespace Pisi.CacheSpec
open Pisi.Act


/-- These trees are gone, except for directories on the way to others of them; everything else is as before, except that directories
on the way may be new. -/
def Emptied (ds : List Loc) (fs fs' : FS) : Prop := ∀ q,
  if ∃ d ∈ ds, d <+: q then look fs' q = none ∨ (look fs' q = some Act.Node.dir ∧ ∃ d ∈ ds, q <+: d ∧ q ≠ d)
  else look fs' q = look fs q ∨ (look fs q = none ∧ look fs' q = some Act.Node.dir ∧ ∃ d ∈ ds, q <+: d)

/-- No file is in the way of this directory. -/
def NoFileAbove (fs : FS) (d : Loc) : Prop := ∀ q, q <+: d → ∀ c, look fs q ≠ some (Act.Node.file c)

end Pisi.CacheSpec
