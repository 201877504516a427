import Verif.Spec.Version
import Verif.Model.Dependency

/-! Specification of dependency constraints, in terms of the version grammar and order only. -/
namespace Pisi.DepSpec
open Pisi.Version Pisi.Version.Spec

/-- The bound `o` is stated and is the string `b`. -/
def Given (o : Option Str) (b : Str) : Prop := o = some b ∧ b ≠ []

/-- If the bound is stated, it is a version and stands in relation `R` to `v`. -/
def Holds (R : List Item → List Item → Prop) (v : List Item) (o : Option Str) : Prop :=
  ∀ b, Given o b → ∃ w, VersionG b w ∧ R v w

def AtLeast (v w : List Item) : Prop := Older w v ∨ Same v w
def AtMost (v w : List Item) : Prop := Older v w ∨ Same v w

/-- The six constraints. -/
structure Sat {α : Type} (d : Dep α) (v r : List Item) : Prop where
  version : Holds Same v d.version
  versionFrom : Holds AtLeast v d.versionFrom
  versionTo : Holds AtMost v d.versionTo
  release : Holds Same r d.release
  releaseFrom : Holds AtLeast r d.releaseFrom
  releaseTo : Holds AtMost r d.releaseTo

/-- Every stated bound is a well-formed version. -/
def WellFormed {α : Type} (d : Dep α) : Prop :=
  ∀ o ∈ [d.version, d.versionFrom, d.versionTo, d.release, d.releaseFrom, d.releaseTo],
    ∀ b, Given o b → ∃ w, VersionG b w

/-- `d'` states at least the constraints of `d`, with bounds at least as tight. -/
structure Tighter {α : Type} (d d' : Dep α) : Prop where
  version : ∀ b w, Given d.version b → VersionG b w → ∃ b' w', Given d'.version b' ∧ VersionG b' w' ∧ Same w' w
  versionFrom : ∀ b w, Given d.versionFrom b → VersionG b w →
    ∃ b' w', Given d'.versionFrom b' ∧ VersionG b' w' ∧ AtLeast w' w
  versionTo : ∀ b w, Given d.versionTo b → VersionG b w →
    ∃ b' w', Given d'.versionTo b' ∧ VersionG b' w' ∧ AtMost w' w
  release : ∀ b w, Given d.release b → VersionG b w → ∃ b' w', Given d'.release b' ∧ VersionG b' w' ∧ Same w' w
  releaseFrom : ∀ b w, Given d.releaseFrom b → VersionG b w →
    ∃ b' w', Given d'.releaseFrom b' ∧ VersionG b' w' ∧ AtLeast w' w
  releaseTo : ∀ b w, Given d.releaseTo b → VersionG b w →
    ∃ b' w', Given d'.releaseTo b' ∧ VersionG b' w' ∧ AtMost w' w

end Pisi.DepSpec
