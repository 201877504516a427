import Verif.Model.Str

/-!
# Model of showing sizes

`human_readable_size` of `pisi/util/fun.py` and the line about the total size that comes before an installation or an upgrade.

Numbers that may not be whole are a numerator and a denominator.  `float` is taken to be exact here: a whole number divided by a power of
two is, as long as it is below 2^53 (sizes below eight exbibytes).
-/
namespace Pisi.Size

/-- The loop of `human_readable_size`, pisi/util/fun.py:84-86: the size is `num / den` of the unit number `depth`.  The first division
is one of whole numbers, the others are of floating point numbers.  `left` is `3 - depth`. -/
def loop : Nat → Nat → Nat → Nat × Nat × Nat
  | 0, num, den => (num, den, 3)
  | left + 1, num, den =>
    if num > 1000 * den then (if left = 2 then loop left (num / 1024) 1 else loop left num (den * 1024))
    else (num, den, 2 - left)

/-- `human_readable_size`, pisi/util/fun.py:81-88, for a whole number: the value as a fraction and the position of the symbol. -/
def human (n : Nat) : Nat × Nat × Nat := loop 3 n 1

/-- `symbols`, pisi/util/fun.py:82. -/
def symbol : Nat → Str
  | 0 => [' ', 'B']
  | 1 => ['K', 'B']
  | 2 => ['M', 'B']
  | _ => ['G', 'B']

/-- `'%.2f'` of a fraction, in hundredths: to the nearest, to the even one of two. -/
def cents (num den : Nat) : Nat :=
  if 2 * (100 * num % den) < den then 100 * num / den
  else if den < 2 * (100 * num % den) then 100 * num / den + 1
  else 100 * num / den + 100 * num / den % 2

/-- `sum([…packageSize …])`: `None` cannot be added, `TypeError`. -/
def sum : List (Option Nat) → Option Nat
  | [] => some 0
  | none :: _ => none
  | some n :: l => (sum l).map (n + ·)

/-- `'Total size of packages: %.2f %s'`, pisi/op/install.py:530-532, pisi/op/upgrade.py:146-148: the hundredths and the symbol.
`sizes` are the sizes (`packageSize`, which may be `None`: pisi/data/metadata.py:48) of the packages in the order of installation. -/
def total (sizes : List (Option Nat)) : Option (Nat × Str) := (sum sizes).map fun n => match human n with
  | (num, den, d) => (cents num den, symbol d)

end Pisi.Size
