import Verif.Model.Str

/-! # What an amount on the screen means -/
namespace Pisi.SizeSpec

/-- The units, in bytes. -/
def unit (s : Str) : Option Nat :=
  if s = [' ', 'B'] then some 1
  else if s = ['K', 'B'] then some 1024
  else if s = ['M', 'B'] then some (1024 * 1024)
  else if s = ['G', 'B'] then some (1024 * 1024 * 1024)
  else none

/-- So many hundredths of this unit are `h` hundredths of a byte. -/
def Means (shown : Nat × Str) (h : Nat) : Prop := ∃ u, unit shown.2 = some u ∧ h = shown.1 * u

/-- `h` hundredths of a byte are `n` bytes, with an error of one percent at most. -/
def Close (h n : Nat) : Prop := h ≤ 100 * n + n ∧ 100 * n ≤ h + n

end Pisi.SizeSpec
