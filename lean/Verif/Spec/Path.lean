import Verif.Spec.Version

/-!
# What path strings mean (POSIX), independently of the helpers
-/
namespace Pisi.PathSpec

/-- Auxiliary scan: `cur` is the component being read. -/
def segsFrom : Str → Str → List Str
  | cur, [] => if cur = [] then [] else [cur]
  | cur, c :: r => if c = '/' then (if cur = [] then segsFrom [] r else cur :: segsFrom [] r) else segsFrom (cur ++ [c]) r

/-- The names along a path; repeated and trailing slashes do not matter. -/
def segs (p : Str) : List Str := segsFrom [] p

/-- The path starts at the root. -/
def IsAbs (p : Str) : Prop := ∃ r, p = '/' :: r

/-- Two spellings of the same path. -/
def SameLoc (p q : Str) : Prop := (IsAbs p ↔ IsAbs q) ∧ segs p = segs q

/-- `cs` are the components of `p`: the pieces between slashes, a single final empty piece left out. -/
def PathComps (p : Str) (cs : List Str) : Prop :=
  (Version.Spec.Splits (· = '/') p cs ∧ cs.getLast? ≠ some []) ∨ Version.Spec.Splits (· = '/') p (cs ++ [[]])

end Pisi.PathSpec
