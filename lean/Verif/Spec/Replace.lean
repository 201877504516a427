import Verif.Model.Path

/-! # Replacing a piece of text: what `dosed` is for -/
namespace Pisi.Act

/-- Replacement of all occurrences of `f`, from the left, not overlapping; so many characters are passed over first. -/
def replaceFrom (f r : Str) : Nat → Str → Str
  | _, [] => []
  | k + 1, _ :: s => replaceFrom f r k s
  | 0, c :: s => if f <+: c :: s then r ++ replaceFrom f r (f.length - 1) s else c :: replaceFrom f r 0 s

/-- All occurrences of `f` in `s` replaced by `r`. -/
def replaceAll (f r s : Str) : Str := replaceFrom f r 0 s

end Pisi.Act
