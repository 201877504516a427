/-!
# Python string primitives used by the modelled code

Strings that are parsed are lists of characters.  Only ASCII behaviour is modelled
(the code handles unicode strings coming from XML; non-ASCII digits, letters and
white space are outside the model).
-/

namespace Pisi

/-- A parsed Python string. -/
abbrev Str := List Char

/-- Python `str.split(c)` for a one-character separator (used by `multisplit`,
pisi/util/fun.py:39, `splitpath`, pisi/util/path.py:25-31, `parse_package_name`,
pisi/util/pkg.py:72-86): never empty, keeps empty pieces. -/
def splitOn (c : Char) : Str → List Str
  | [] => [[]]
  | x :: xs =>
    if x = c then [] :: splitOn c xs
    else match splitOn c xs with
      | [] => [[x]]          -- unreachable: `splitOn` never returns `[]`
      | h :: t => (x :: h) :: t

/-- pisi/util/fun.py:35-40 `multisplit(str, chars)`.
`concat` is `reduce(operator.concat, l)`; `l` is never empty here. -/
def multisplit (s : Str) (chars : List Char) : List Str :=
  chars.foldl (fun l c => l.flatMap (splitOn c)) [s]

/-- Python `str.join`: `sep.join(l)`. -/
def joinWith (sep : Str) : List Str → Str
  | [] => []
  | [x] => x
  | x :: y :: r => x ++ sep ++ joinWith sep (y :: r)

/-- ASCII white space as understood by `isspace` in C (used by `int()`). -/
def isSpace (c : Char) : Bool :=
  c = ' ' || c = '\t' || c = '\n' || c = '\r' || c = '\x0b' || c = '\x0c'

/-- Value of one decimal digit. -/
def digitVal (c : Char) : Nat := c.toNat - '0'.toNat

/-- Value of a string of decimal digits, most significant first. -/
def digitsVal (ds : Str) : Nat := ds.foldl (fun n c => 10 * n + digitVal c) 0

/-- The optional sign accepted by `int()`: (negative?, rest). -/
def takeSign : Str → Bool × Str
  | '-' :: r => (true, r)
  | '+' :: r => (false, r)
  | r => (false, r)

/-- Python 2 `int(s)` on ASCII strings: optional surrounding white space, an optional sign,
at least one decimal digit.  `none` is `ValueError`. -/
def pyInt (s : Str) : Option Int :=
  let t := takeSign (s.dropWhile isSpace)
  let ds := t.2.takeWhile Char.isDigit
  let rest := t.2.dropWhile Char.isDigit
  if ds.isEmpty then none
  else if rest.all isSpace then
    some (if t.1 then - (digitsVal ds : Int) else (digitsVal ds : Int))
  else none

end Pisi
