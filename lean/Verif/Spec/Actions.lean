import Verif.Model.ActionsApi

/-! # What actions scripts are held to -/
namespace Pisi.Act

/-- A name a directory can have. -/
def Proper (c : Str) : Prop := c ≠ [] ∧ c ≠ ['.'] ∧ c ≠ dotdot ∧ '/' ∉ c

instance (c : Str) : Decidable (Proper c) := inferInstanceAs (Decidable (_ ∧ _))

/-- The names in the file system are names. -/
def Tidy (fs : FS) : Prop := ∀ n ∈ fs, ∀ c ∈ n.1, Proper c

instance (fs : FS) : Decidable (Tidy fs) := inferInstanceAs (Decidable (∀ n ∈ fs, _))

/-- There is no symbolic link. -/
def LinkFree (fs : FS) : Prop := ∀ n ∈ fs, ∀ t, n.2 ≠ .link t

/-- Everything on the way to a place is a directory. -/
def Reached (fs : FS) (p : Loc) : Prop := ∀ q, q <+: p → q ≠ p → look fs q = some .dir

/-- The file system is a tree: above every node there are directories. -/
def Rooted (fs : FS) : Prop := ∀ p, look fs p ≠ none → Reached fs p

/-- Nothing but the tree at `l` differs. -/
def SameOutside (l : Loc) (fs fs' : FS) : Prop := ∀ p, ¬ l <+: p → look fs' p = look fs p

/-- The path does not lead upwards. -/
def NoUp (s : Str) : Prop := dotdot ∉ comps s

instance (s : Str) : Decidable (NoUp s) := inferInstanceAs (Decidable (_ ∉ _))

/-- The arguments that are meant for the install directory do not lead upwards, nor does the last component of a source. -/
def Call.Inside : Call → Prop
  | .dodir d => NoUp d
  | .domove s d f => NoUp s ∧ NoUp d ∧ NoUp f
  | .rename s f => NoUp s ∧ NoUp f
  | .dosym _ d => NoUp d
  | .insinto d s f _ => NoUp d ∧ NoUp f ∧ (comps s).getLast? ≠ some dotdot
  | .remove s => NoUp s
  | .removeDir d => NoUp d

/-- The call makes a symbolic link of its own. -/
def Call.isDosym : Call → Bool
  | .dosym _ _ => true
  | _ => false

/-- A sensible install directory: an absolute path without wild cards and `..`, other than the root. -/
structure Env.Fit (e : Env) : Prop where
  abs : isAbs e.inst = true
  plain : hasMagic e.inst = false
  noup : NoUp e.inst
  nonroot : comps e.inst ≠ []

end Pisi.Act
