import Verif.Model.Build

/-!
# What build numbers and staged builds should satisfy
-/
namespace Pisi.Build
open Pisi.PkgName

/-- An existing package that counts for the build number: its file name has the form of the name of the package, it can
be read, it says it is this package, and it has the build number `b`. -/
def OldBuild (entries : List (Str × Option OldPkg)) (name : Str) (b : Nat) (files : List (Str × Option Str)) : Prop :=
  ∃ fn, (fn, some ⟨name, some b, files⟩) ∈ entries ∧ isPackageName fn name = true

/-- All patches have been applied first and the phases 2 to `k` have been run in order. -/
def Ready (c : Cfg) (k : Nat) (l : List Ev) : Prop :=
  (List.range c.patches).map Ev.patch <+: l ∧ ((List.range' 2 (k - 1)).map Ev.phase).Sublist l

/-- Every phase was run on a source on which all the patches and the earlier phases had been run. -/
def Ordered (c : Cfg) (l : List Ev) : Prop := ∀ a k b, l = a ++ .phase k :: b → Ready c (k - 1) a

/-- Setup was run only on patched source. -/
def PatchedFirst (c : Cfg) (l : List Ev) : Prop :=
  ∀ a b, l = a ++ .phase 2 :: b → (List.range c.patches).map Ev.patch <+: a

/-- Where a build may stop for its state file to be right: not before a patch, and not between the removal of the source
and that of the state file. -/
def SafeRest (c : Cfg) : List Step → Prop
  | .ev (.patch _) :: _ => False
  | .rmState :: _ => c.stateFirst = true
  | _ => True

/-- All requests stopped at such a point. -/
def SafeHistory (c : Cfg) : World → List (Req × Nat) → Prop
  | _, [] => True
  | w, r :: rs => (∀ l, program c w r.1 = some l → SafeRest c (runSteps c r.2 l w).2) ∧ SafeHistory c (run c w r) rs

/-- The number of the requested stage. -/
def Req.stage : Req → Nat
  | .unpack => 1
  | .setup => 2
  | .build => 3
  | .install => 4
  | .package => 5
  | .oneShot => 5

end Pisi.Build
