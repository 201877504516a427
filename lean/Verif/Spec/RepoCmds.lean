import Verif.Model.RepoCmds
import Verif.Spec.Database

/-! # Vocabulary for the commands about repositories (C178-C180) -/
namespace Pisi.RepoCmdSpec
open Pisi.DB Pisi.DBSpec Pisi.RepoCmd
variable {α ρ : Type} [DecidableEq α]

/-- The index that an answer brings, if it may be used. -/
inductive Brings : Bool → Answer α → Index α → Prop
  | got (f : Bool) (ix : Index α) : Brings f (.got ix true) ix
  | again (ix : Index α) : Brings true (.already (some (ix, true))) ix

/-- The index can be put into the databases (C28). -/
def Fit (ix : Index α) : Prop :=
  (∀ m ∈ ix.packages, m.info.compDeps = [] ∧ m.partOf.isSome) ∧ ∀ sp ∈ ix.specs, sp.valid = true ∧ sp.partOf.isSome

/-- Nothing is to be done: there is nothing new and it was not asked to update in any case. -/
def Nothing : Bool → Answer α → Prop
  | false, .already _ => True
  | _, _ => False

/-- The repository can be updated: there is nothing new, or an index that may be used. -/
def Good (force : Bool) (a : Answer α) : Prop := Nothing force a ∨ ∃ ix, Brings force a ix ∧ Fit ix

/-- The packages and sources of a repository are those of the index. -/
def Holds (y : System α ρ) (n : Str) (ix : Index α) : Prop :=
  (∀ k m, y.stores.pkg.getItem [] k (.one (.repo n)) = .ok m ↔ LastNamed Meta.name ix.packages k m) ∧
  ∀ k m, y.stores.src.getItem [] k (.one (.repo n)) = .ok m ↔ LastNamed SrcSpec.name ix.specs k m

/-- The packages, sources and components of a repository are the same in both. -/
def SameIn (r : RepoId) (y y' : System α ρ) : Prop :=
  ∀ k, y'.stores.pkg.getItem [] k (.one r) = y.stores.pkg.getItem [] k (.one r) ∧
    y'.stores.src.getItem [] k (.one r) = y.stores.src.getItem [] k (.one r) ∧
    y'.stores.comp.getItem [] k (.one r) = y.stores.comp.getItem [] k (.one r)

/-- A repository is as the answer says: updated, or as before if there was nothing to do. -/
def Updated (force : Bool) (a : Answer α) (n : Str) (y y' : System α ρ) : Prop :=
  (Nothing force a → SameIn (.repo n) y y') ∧ ∀ ix, Brings force a ix → Holds y' n ix

/-- The repository has nothing. -/
def Empty (y : System α ρ) (n : Str) : Prop :=
  ∀ k, y.stores.pkg.getItem [] k (.one (.repo n)) = .error .notFound ∧ y.stores.src.getItem [] k (.one (.repo n)) = .error .notFound ∧
    y.stores.comp.getItem [] k (.one (.repo n)) = .error .notFound

/-- A name that is one component of a path. -/
def Plain (n : Str) : Prop := n ≠ [] ∧ '/' ∉ n ∧ n ≠ ['.'] ∧ n ≠ ['.', '.']

end Pisi.RepoCmdSpec
