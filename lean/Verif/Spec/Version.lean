import Verif.Model.Version

/-!
# Specification of version strings and their order, independent of the parser

Only the data types `Kw`, `Val`, `Item` of the model are used.
-/

namespace Pisi.Version.Spec
open Pisi Pisi.Version

/-- `s` is the concatenation of the pieces `ps` interleaved with separators, no piece
containing a separator. -/
inductive Splits (sep : Char → Prop) : Str → List Str → Prop
  | last (p : Str) (hp : ∀ c ∈ p, ¬ sep c) : Splits sep p [p]
  | cons (p : Str) (c : Char) (s : Str) (ps : List Str)
      (hp : ∀ c ∈ p, ¬ sep c) (hc : sep c) (hs : Splits sep s ps) :
      Splits sep (p ++ c :: s) (p :: ps)

/-- `DecVal ds n`: `ds` is a (possibly empty) string of decimal digits denoting `n`. -/
inductive DecVal : Str → Nat → Prop
  | nil : DecVal [] 0
  | snoc (ds : Str) (n d : Nat) (hd : d < 10) (h : DecVal ds n) :
      DecVal (ds ++ [Char.ofNat (48 + d)]) (10 * n + d)

/-- White space. -/
def Space (c : Char) : Prop := c ∈ [' ', '\t', '\n', '\r', '\x0b', '\x0c']

/-- `Number s z`: `s` spells the integer `z` (Python's `int`): white space, optional sign,
at least one digit, white space. -/
def Number (s : Str) (z : Int) : Prop :=
  ∃ (w₁ sg ds w₂ : Str) (n : Nat), s = w₁ ++ sg ++ ds ++ w₂ ∧
    (∀ c ∈ w₁, Space c) ∧ (∀ c ∈ w₂, Space c) ∧ ds ≠ [] ∧ DecVal ds n ∧
    ((sg = [] ∧ z = n) ∨ (sg = ['+'] ∧ z = n) ∨ (sg = ['-'] ∧ z = - (n : Int)))

/-- A Latin letter. -/
def Letter (c : Char) : Prop := ('a' ≤ c ∧ c ≤ 'z') ∨ ('A' ≤ c ∧ c ≤ 'Z')

/-- Spelling of the keywords that may precede a number. -/
def kwSpelling : Kw → Option String
  | .alpha => some "alpha"
  | .beta => some "beta"
  | .pre => some "pre"
  | .rc => some "rc"
  | .m => some "m"
  | .p => some "p"
  | .nokey => none

/-- `[keyword]number`. -/
inductive ItemG : Str → Item → Prop
  | num (s : Str) (z : Int) (h : Number s z) : ItemG s ⟨.nokey, .num z⟩
  | kw (k : Kw) (w : String) (s : Str) (z : Int) (hk : kwSpelling k = some w) (h : Number s z) :
      ItemG (w.toList ++ s) ⟨k, .num z⟩

/-- A final newline, silently ignored after a letter. -/
def OptNewline (t : Str) : Prop := t = [] ∨ t = ['\n']

/-- One separator-free piece and the version items it denotes. -/
inductive PieceG : Str → List Item → Prop
  | plain (s : Str) (a : Item) (h : ItemG s a) : PieceG s [a]
  | lettered (s t : Str) (a : Item) (c : Char) (h : ItemG s a) (hc : Letter c)
      (ht : OptNewline t) : PieceG (s ++ c :: t) [a, ⟨.nokey, .letter c⟩]
  | twoLetters (c d : Char) (t : Str) (hc : Letter c) (hd : Letter d) (ht : OptNewline t) :
      PieceG (c :: d :: t) [⟨.nokey, .letter c⟩, ⟨.nokey, .letter d⟩]

/-- The separators. -/
def Sep (c : Char) : Prop := c = '.' ∨ c = '-' ∨ c = '_'

/-- The pieces of a version string, in order, denote these items. -/
inductive PiecesG : List Str → List Item → Prop
  | nil : PiecesG [] []
  | cons (p : Str) (ps : List Str) (a b : List Item) (h : PieceG p a) (hs : PiecesG ps b) :
      PiecesG (p :: ps) (a ++ b)

/-- `VersionG s l`: `s` is a well-formed version string with components `l`. -/
def VersionG (s : Str) (l : List Item) : Prop :=
  ∃ ps, Splits Sep s ps ∧ PiecesG ps l

/-- Rank of a keyword: `alpha < beta < pre < rc < m < (none) < p`, as positions in a list. -/
def kwOrder : List Kw := [.alpha, .beta, .pre, .rc, .m, .nokey, .p]

/-- `a` comes before `b` as single values: numbers numerically, letters alphabetically
(by code), every number before every letter. -/
inductive ValBefore : Val → Val → Prop
  | num (a b : Int) (h : a < b) : ValBefore (.num a) (.num b)
  | mixed (a : Int) (c : Char) : ValBefore (.num a) (.letter c)
  | letter (c d : Char) (h : c < d) : ValBefore (.letter c) (.letter d)

/-- `a` comes before `b` as single components: by keyword, then by value. -/
def ItemBefore (a b : Item) : Prop :=
  kwOrder.idxOf a.kw < kwOrder.idxOf b.kw ∨ (a.kw = b.kw ∧ ValBefore a.val b.val)

/-- The `n`th component of a version; versions continue with zeros for ever. -/
def nth : List Item → Nat → Item
  | [], _ => ⟨.nokey, .num 0⟩
  | a :: _, 0 => a
  | _ :: l, n + 1 => nth l n

/-- `l` is older than `r`: at the first position where they differ `l` has the smaller component. -/
def Older (l r : List Item) : Prop :=
  ∃ n, (∀ m, m < n → nth l m = nth r m) ∧ ItemBefore (nth l n) (nth r n)

/-- `l` and `r` are the same version. -/
def Same (l r : List Item) : Prop := ∀ n, nth l n = nth r n

end Pisi.Version.Spec
