import Verif.Model.Xml

/-!
# Specification: records that say the same
-/
namespace Pisi.Xml

/-- The values are the same, up to the order of the languages of texts. -/
inductive SameVal : Val → Val → Prop where
  | none : SameVal .none .none
  | str (s : Str) : SameVal (.str s) (.str s)
  | uni (s : Str) : SameVal (.uni s) (.uni s)
  | int (n : Int) : SameVal (.int n) (.int n)
  | long (n : Int) : SameVal (.long n) (.long n)
  | loc (d e : List (Str × Str)) : (∀ p, p ∈ d ↔ p ∈ e) → SameVal (.loc d) (.loc e)
  | nil : SameVal (.list []) (.list [])
  | cons (v w : Val) (l k : List Val) : SameVal v w → SameVal (.list l) (.list k) → SameVal (.list (v :: l)) (.list (w :: k))
  | empty : SameVal (.obj []) (.obj [])
  | field (n : Str) (v w : Val) (a b : List (Str × Val)) : SameVal v w → SameVal (.obj a) (.obj b) →
      SameVal (.obj ((n, v) :: a)) (.obj ((n, w) :: b))

end Pisi.Xml
