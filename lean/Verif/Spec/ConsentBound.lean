import Verif.Spec.Consent

/-! # How many packages may be treated without a question -/
namespace Pisi.ConsentSpec
open Pisi.Consent

/-- The packages (or files) something is done to, in their order. -/
def treated : List Ev → List Str
  | [] => []
  | .did x :: t => x :: treated t
  | _ :: t => treated t

/-- What was given: the files, or the packages the names stand for. -/
def given {σ : Type} (m : Machine σ) (s : σ) : Cmd → List Str
  | .install [] => []
  | .install (x :: l) => if suffix.isSuffixOf x then x :: l else m.expand (x :: l)
  | .remove args => m.expand args
  | .upgrade args => m.expand (if args = [] then m.allInstalled s else args)

/-- No question is answered. -/
def Unasked (t : List Ev) : Prop := ∀ q b, .said q b ∉ t

end Pisi.ConsentSpec
