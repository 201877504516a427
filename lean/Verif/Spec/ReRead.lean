import Verif.Spec.Xml

/-!
# Specification: values that reading can give and writing can keep
-/
namespace Pisi.Xml

/-- The first value is somewhere in the second. -/
inductive Within : Val → Val → Prop where
  | self (v : Val) : Within v v
  | item (w x : Val) (l : List Val) : x ∈ l → Within w x → Within w (.list l)
  | field (w x : Val) (k : Str) (fs : List (Str × Val)) : (k, x) ∈ fs → Within w x → Within w (.obj fs)

/-- No number in it is 0, and languages have ASCII names. -/
def Clean (v : Val) : Prop := ¬ Within (.int 0) v ∧ ¬ Within (.long 0) v ∧
  ∀ d, Within (.loc d) v → ∀ p ∈ d, Ascii p.1

mutual
/-- Attributes are not of the type `unicode`. -/
def PlainAttrs : List Member → Prop
  | [] => True
  | m :: ms => PlainAttrsM m ∧ PlainAttrs ms

def PlainAttrsM : Member → Prop
  | .attr _ b _ => b ≠ .uni
  | .cls _ ms _ => PlainAttrs ms
  | .clss _ _ _ ms _ => PlainAttrs ms
  | _ => True
end

end Pisi.Xml
