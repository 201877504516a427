import Verif.Model.Str

/-! What file name patterns mean. -/
namespace Pisi.GlobSpec

/-- The set written between brackets has the character: it is within a range `a-b` or is written by itself. -/
inductive InSet : Str → Char → Prop
  | range {a b c : Char} {r : Str} (h1 : a ≤ c) (h2 : c ≤ b) : InSet (a :: '-' :: b :: r) c
  | afterRange {a b c : Char} {r : Str} (h : InSet r c) : InSet (a :: '-' :: b :: r) c
  | one {a : Char} {r : Str} (hr : ∀ b r', r ≠ '-' :: b :: r') : InSet (a :: r) a
  | afterOne {a c : Char} {r : Str} (hr : ∀ b r', r ≠ '-' :: b :: r') (h : InSet r c) : InSet (a :: r) c

/-- What can be between brackets: something, without a closing bracket except in front. -/
def SetBody : Str → Prop
  | [] => False
  | _ :: r => ']' ∉ r

/-- Whether a name matches a pattern. -/
inductive Matches : Str → Str → Prop
  | done : Matches [] []
  /-- a star stands for any text -/
  | star {p s : Str} (t : Str) (h : Matches p s) : Matches ('*' :: p) (t ++ s)
  /-- a question mark stands for any character -/
  | any {p s : Str} (c : Char) (h : Matches p s) : Matches ('?' :: p) (c :: s)
  /-- a set stands for any of its characters -/
  | set {b p s : Str} {c : Char} (hb : SetBody b) (hn : b.head? ≠ some '!') (hc : InSet b c) (h : Matches p s) :
      Matches ('[' :: (b ++ ']' :: p)) (c :: s)
  /-- a set with an exclamation mark in front stands for any other character -/
  | notSet {b p s : Str} {c : Char} (hb : SetBody b) (hc : ¬ InSet b c) (h : Matches p s) :
      Matches ('[' :: '!' :: (b ++ ']' :: p)) (c :: s)
  /-- a bracket that is not closed stands for itself -/
  | bracket {p s : Str} (hp : ∀ b q, SetBody b → b.head? ≠ some '!' → p ≠ b ++ ']' :: q)
      (hp' : ∀ b q, SetBody b → p ≠ '!' :: (b ++ ']' :: q)) (h : Matches p s) : Matches ('[' :: p) ('[' :: s)
  /-- everything else stands for itself -/
  | plain {c : Char} {p s : Str} (h1 : c ≠ '*') (h2 : c ≠ '?') (h3 : c ≠ '[') (h : Matches p s) : Matches (c :: p) (c :: s)

end Pisi.GlobSpec
