import Verif.Model.Str

/-!
# Specification of addresses
-/
namespace Pisi.Uri.Spec

/-- The characters of schemes. -/
def SchemeChar (c : Char) : Prop := ('a' ≤ c ∧ c ≤ 'z') ∨ ('A' ≤ c ∧ c ≤ 'Z') ∨ ('0' ≤ c ∧ c ≤ '9') ∨ c = '+' ∨ c = '-' ∨ c = '.'

def Scheme (s : Str) : Prop := s ≠ [] ∧ ∀ c ∈ s, SchemeChar c

/-- `u` is a scheme, a colon, and something that is not a port number. -/
def Split (u s r : Str) : Prop := u = s ++ ':' :: r ∧ Scheme s ∧
  (s = "http".toList ∨ r = [] ∨ ∃ c ∈ r, ¬ ('0' ≤ c ∧ c ≤ '9'))

/-- `b` is what comes after the last slash. -/
def LastPart (p b : Str) : Prop := '/' ∉ b ∧ (p = b ∨ ∃ d, p = d ++ '/' :: b)

/-- `u` is `s://host/path`, and perhaps a query or a fragment. -/
def Address (u s host p : Str) : Prop := ∃ rest, u = s ++ "://".toList ++ host ++ p ++ rest ∧ Scheme s ∧
  (∀ c ∈ host, c ≠ '/' ∧ c ≠ '?' ∧ c ≠ '#') ∧ (p = [] ∨ p.head? = some '/') ∧ (∀ c ∈ p, c ≠ '?' ∧ c ≠ '#' ∧ c ≠ ';') ∧
  (rest = [] ∨ rest.head? = some '?' ∨ rest.head? = some '#')

end Pisi.Uri.Spec
