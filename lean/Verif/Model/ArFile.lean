import Verif.Model.Packaging

/-!
# Model of pisi/util/fs.py:93-104 (cleaning the time stamps in static libraries)

The content of a file is the list of its bytes.
-/
namespace Pisi.Ar

/-- `readlines()`: the lines with their line ends. -/
def lines : Str → List Str
  | [] => []
  | c :: s => if c = '\n' then [c] :: lines s else match lines s with
    | [] => [[c]]
    | l :: ls => (c :: l) :: ls

/-- `line.rfind(chr(32) + chr(96))`, pisi/util/fs.py:100; `none` for -1. -/
def rfindMark : Str → Option Nat
  | [] => none
  | c :: s => match rfindMark s with
    | some i => some (i + 1)
    | none => if c = ' ' ∧ s.head? = some '`' then some 0 else none

/-- Where a bound of a slice lies in a string of length `n`: a negative one counts from the end. -/
def bound (n : Nat) (i : Int) : Nat := if i < 0 then (i + n).toNat else i.toNat

/-- `s[i:j]` -/
def slice (s : Str) (i j : Int) : Str := (s.take (bound s.length j)).drop (bound s.length i)

def zeros : Str := ['0', '0', '0', '0', '0', '0', '0', '0', '0', '0']

/-- The body of the loop over lines, pisi/util/fs.py:100-102. -/
def cleanLine (line : Str) : Str := match rfindMark line with
  | none => line
  | some pos =>
    if '/' ∈ slice line ((pos : Int) - 57) ((pos : Int) + 2) then
      line.take (bound line.length ((pos : Int) - 41)) ++ zeros ++ line.drop (bound line.length ((pos : Int) - 31))
    else line

/-- `is_ar_file(file_path)`, pisi/util/fs.py:90-91, on the content. -/
def isAr (c : Str) : Bool := Pack.strip (c.takeWhile (· ≠ '\n')) = ['!', '<', 'a', 'r', 'c', 'h', '>']

/-- `clean_ar_timestamps(ar_file)`, pisi/util/fs.py:93-104: the new content of the file. -/
def clean (c : Str) : Str := if isAr c then (lines c).flatMap cleanLine else c

/-- `sha1_sum(f)`, pisi/util/fs.py:117-132, for a file: the hash, and the content that is left in the file. -/
def hashed {H : Type} (sha : Str → H) (f c : Str) : H × Str :=
  if f.drop (f.length - 2) = ['.', 'a'] then (sha (clean c), clean c) else (sha c, c)

end Pisi.Ar
