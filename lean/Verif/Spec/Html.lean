import Verif.Spec.Shell
import Verif.Spec.Actions

/-! # Files for the HTML documentation -/
namespace Pisi.Act

/-- A name with one of the endings of such files, with something before it. -/
def HtmlName (b : Str) : Prop := ∃ a x, b = a ++ x ∧ (∃ c ∈ a, c ≠ '.') ∧
  x ∈ [['.', 'p', 'n', 'g'], ['.', 'g', 'i', 'f'], ['.', 'h', 't', 'm', 'l'], ['.', 'h', 't', 'm'], ['.', 'j', 'p', 'g'], ['.', 'c', 's', 's'],
    ['.', 'j', 's']]

/-- The file `n` in the directory `l` is one of those meant by `p`: it is the one named, or somewhere in the directory named. -/
def HtmlOf (e : Env) (f : FS) (p : Str) (l : Loc) (n : Str) : Prop :=
  HtmlName n ∧ (∃ c, look f (l ++ [n]) = some (.file c)) ∧
    (l ++ [n] = e.cs p ∨ look f (e.cs p) = some .dir ∧ basename p ≠ ['C', 'V', 'S'] ∧ e.cs p <+: l)

end Pisi.Act
