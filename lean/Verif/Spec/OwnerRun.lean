import Verif.Model.OwnerRun

/-!
# Which package a file belongs to (C230)
-/
namespace Pisi.OwnSpec
open Pisi.DB
variable {π α ι : Type} [DecidableEq π] [DecidableEq α]

/-- `pkg` is installed and has the file `x`. -/
def Has (s : Owners π α ι) (pkg : α) (x : π) : Prop := ∃ fs i, s.lists.get pkg = some fs ∧ (x, i) ∈ fs

/-- The files database says that `x` is a file of `pkg`. -/
def Says (s : Owners π α ι) (x : π) (pkg : α) : Prop := ∃ i, s.db.getFile x = some (pkg, x, i)

/-- No stored file list was lost when its package was removed. -/
def Readable (cs : List (OwnCmd π α ι)) : Prop := ∀ pkg, OwnCmd.remove pkg true ∉ cs

/-- The request brings `x` as a file of `pkg`, with conflicts ignored or not, onto a directory or not. -/
def BringsTo (x : π) (pkg : α) : OwnCmd π α ι → Bool → Bool → Prop
  | .install p fs ignore isdir, ig, dir => p = pkg ∧ (∃ i, (x, i) ∈ fs) ∧ ignore = ig ∧ isdir x = dir
  | .remove _ _, _, _ => False

/-- Where `x` was brought by an install, `x` was no directory on the disk, and where file conflicts were ignored for it (by the
option, or in an upgrade) no other package had `x`. -/
def Fair (cs : List (OwnCmd π α ι)) (x : π) : Prop :=
  ∀ pre c post, cs = pre ++ c :: post → ∀ pkg ig dir, BringsTo x pkg c ig dir →
    dir = false ∧ (ig = true → ∀ q, Has (Owners.run pre) q x → q = pkg)


end Pisi.OwnSpec
