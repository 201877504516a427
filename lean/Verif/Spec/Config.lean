import Verif.Model.Config
import Verif.Spec.Path

/-!
# What a configuration says
-/
namespace Pisi.Config

/-- The first value for the key. -/
def FirstFor (l : List (Str × Str)) (key v : Str) : Prop :=
  ∃ pre post, l = pre ++ (key, v) :: post ∧ ∀ p ∈ pre, p.1 ≠ key

/-- The last value for the key, regardless of case. -/
def LastFor (l : List (Str × Str)) (key v : Str) : Prop :=
  ∃ pre w post, l = pre ++ (w, v) :: post ∧ lower w = key ∧ ∀ p ∈ post, lower p.1 ≠ key

/-- The options of the file in the order of the file: those of `[DEFAULT]`, then those of the section. -/
inductive OptionOf : File → Str → List (Str × Str) → Prop
  | nil (name) : OptionOf [] name []
  | hit (name os f l) : OptionOf f name l → OptionOf ((name, os) :: f) name (os ++ l)
  | miss (name n os f l) : n ≠ name → OptionOf f name l → OptionOf ((n, os) :: f) name l

/-- The file has the section and sets the key to the value; the section takes precedence over `[DEFAULT]`. -/
def Sets (f : File) (name key v : Str) : Prop :=
  (∃ os, (name, os) ∈ f) ∧ ∃ d s, OptionOf f "DEFAULT".toList d ∧ OptionOf f name s ∧ LastFor (d ++ s) key v

/-- A successful first assignment of the constant. -/
def FirstSet {κ ν : Type} (as : List (Attempt κ ν)) (k : κ) (v : ν) : Prop :=
  ∃ pre post, as = pre ++ .set k v :: post ∧ ∀ w, .set k w ∉ pre

end Pisi.Config
