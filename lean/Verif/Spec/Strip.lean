import Verif.Model.Strip
import Verif.Spec.Path

/-!
# What is expected of stripping
-/
namespace Pisi.StripSpec
open Pisi.Strip Pisi.PathSpec

def Name (s : Str) : Prop := s ≠ [] ∧ '/' ∉ s

/-- The names are names. -/
def Proper (w : Walk) : Prop := ∀ d fns, (d, fns) ∈ w → (∀ x ∈ d, Name x) ∧ ∀ f ∈ fns, Name f

/-- There is a file to which these names lead. -/
def FileAt (w : Walk) (rel : List Str) : Prop := ∃ d fns fn, (d, fns) ∈ w ∧ fn ∈ fns ∧ rel = d ++ [fn]

/-- An entry of `NoStrip` names the file, or a directory it is in. -/
def Named (ex : List Str) (rel : List Str) : Prop := ∃ e ∈ ex, segs e <+: rel

end Pisi.StripSpec
