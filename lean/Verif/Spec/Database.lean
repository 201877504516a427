import Verif.Model.ItemByRepo
import Verif.Model.InstallDB
import Verif.Model.FilesDB
import Verif.Model.PackageDB

/-!
# Specification vocabulary for the databases

Stated on plain functions; nothing here refers to how the code stores its data.
-/
namespace Pisi.DBSpec
open Pisi.DB

variable {α ν : Type} [DecidableEq α]

/-- A map from (name, store) to items. -/
abbrev ItemMap (α ν : Type) := α → RepoId → Option ν

/-- Change one cell. -/
def ItemMap.set (m : ItemMap α ν) (n : α) (r : RepoId) (v : Option ν) : ItemMap α ν :=
  fun n' r' => if n' = n ∧ r' = r then v else m n' r'

/-- The effect of one operation on the map. -/
def ItemMap.step (m : ItemMap α ν) : ItemOp α ν → ItemMap α ν
  | .add n v r => m.set n r (some v)
  | .remove n r => m.set n r none
  | .removeAny l n => match l.find? (fun x => (m n (.repo x)).isSome) with
    | some x => m.set n (.repo x) none
    | none => m
  | .removeRepo r => fun n r' => if r' = r then none else m n r'

/-- The map after a history. -/
def ItemMap.run (ops : List (ItemOp α ν)) : ItemMap α ν := ops.foldl ItemMap.step (fun _ _ => none)

/-- `x` is the first member of `l` with property `P`. -/
def FirstWith {β : Type} (P : β → Prop) (l : List β) (x : β) : Prop :=
  ∃ a b, l = a ++ x :: b ∧ P x ∧ ∀ y ∈ a, ¬ P y

/-! ## Histories -/

/-- Some step `x` taken after history `pre` satisfied `A pre x`, and every later step satisfied `B`. -/
def Since {β : Type} (A : List β → β → Prop) (B : β → Prop) (ops : List β) : Prop :=
  ∃ pre x post, ops = pre ++ x :: post ∧ A pre x ∧ ∀ o ∈ post, B o

/-- Package `p` was installed and neither removed nor purged since. -/
def Installed (ops : List (InstOp α ν)) (p : α) : Prop :=
  Since (fun _ x => ∃ v later, x = .install p v later) (fun o => o ≠ .remove p ∧ o ≠ .purge p) ops

/-- The installation in effect recorded `v`: `p` was installed with `v` when it was not installed, and was
neither removed nor purged since. -/
def InstalledAs (ops : List (InstOp α ν)) (p : α) (v : ν) : Prop :=
  Since (fun pre x => (∃ later, x = .install p v later) ∧ ¬ Installed pre p)
    (fun o => o ≠ .remove p ∧ o ≠ .purge p) ops

/-- `p` was installed with deferred configuration, and neither removed, purged nor configured since. -/
def Pending (ops : List (InstOp α ν)) (p : α) : Prop :=
  Since (fun pre x => (∃ v, x = .install p v true) ∧ ¬ Installed pre p)
    (fun o => o ≠ .remove p ∧ o ≠ .purge p ∧ o ≠ .clear p) ops

/-! ## Files -/

variable {π ι : Type} [DecidableEq π]

/-- The operation registers `path` for `pkg` with information `i` (the last entry of the list counts). -/
def Registers (pkg : α) (path : π) (i : ι) (x : FileOp π α ι) : Prop :=
  ∃ a b, x = .add pkg (a ++ (path, i) :: b) ∧ ∀ e ∈ b, e.1 ≠ path

/-- The operation names `path` at all. -/
def Mentions (path : π) : FileOp π α ι → Prop
  | .add _ fs => ∃ i, (path, i) ∈ fs
  | .remove _ fs => path ∈ fs

/-- `pkg` is the last to have registered `path`, and has not unregistered it itself since. -/
def Owns (ops : List (FileOp π α ι)) (pkg : α) (path : π) (i : ι) : Prop :=
  Since (fun _ x => Registers pkg path i x)
    (fun o => (∀ q fs, o = .add q fs → ¬ Mentions path o) ∧ (∀ fs, o = .remove pkg fs → ¬ Mentions path o)) ops

/-- The last operation naming `path` registered it for `pkg`. -/
def LastRegistered (ops : List (FileOp π α ι)) (pkg : α) (path : π) (i : ι) : Prop :=
  Since (fun _ x => Registers pkg path i x) (fun o => ¬ Mentions path o) ops

/-! ## Packages -/

/-- The package description names `x` as a dependency. -/
def DependsOn (m : Meta α) (x : α) : Prop := ∃ d ∈ m.info.deps, d.package = x

/-- Store `r` describes package `y` by `m`. -/
def Has (s : Stores α) (r : RepoId) (y : α) (m : Meta α) : Prop := s.pkg.getItem [] y (.one r) = .ok m

/-- `y` is reported as a reverse dependency of `x`. -/
def ListedRev (s : Stores α) (r : RepoId) (x y : α) : Prop :=
  ∃ l d, getRevDeps s x r = .ok l ∧ (y, d) ∈ l

/-- The last member of `l` with the given name. -/
def LastNamed {β : Type} (name : β → α) (l : List β) (n : α) (x : β) : Prop :=
  ∃ a b, l = a ++ x :: b ∧ name x = n ∧ ∀ y ∈ b, name y ≠ n

end Pisi.DBSpec
