import Verif.Model.ActionsInstall

/-! # Names that survive the way through the shell -/
namespace Pisi.Act

/-- The characters that mean something to the shell outside of quotes. -/
def shellChars : List Char :=
  ['|', '&', ';', '<', '>', '(', ')', '$', '`', '\\', '\'', '#', '~', '*', '?', '[', ']', '{', '}', '\n']

/-- No blanks, quotes or characters with a meaning for the shell. -/
def Clean (s : Str) : Prop := s ≠ [] ∧ ∀ c ∈ s, blank c = false ∧ shSpecial c = false ∧ c ≠ '"'

instance (s : Str) : Decidable (Clean s) := inferInstanceAs (Decidable (_ ∧ _))

/-- Every blank is a space and no two are next to one another; the flag tells whether there is one before. -/
def single : Bool → Str → Bool
  | _, [] => true
  | b, c :: s => if blank c then !b && c == ' ' && single true s else single false s

/-- What may be between double quotes. -/
def CleanQuoted (s : Str) : Prop := single false s = true ∧ ∀ c ∈ s, quotedSpecial c = false ∧ c ≠ '"'

instance (s : Str) : Decidable (CleanQuoted s) := inferInstanceAs (Decidable (_ ∧ _))

end Pisi.Act
