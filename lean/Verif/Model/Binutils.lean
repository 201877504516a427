import Verif.Model.Str

/-!
# Model of finding tools

`existBinary`, `getBinutilsInfo` and the functions named after tools of `pisi/actionsapi/get.py`.
-/
namespace Pisi.Binutils

/-- `os.path.join(directory, name)`. -/
def join (d b : Str) : Str :=
  if b.head? = some '/' then b
  else if d = [] ∨ d.getLast? = some '/' then d ++ b
  else d ++ '/' :: b

/-- `existBinary(bin)`, pisi/actionsapi/get.py:167-173; `there` is `os.path.exists`.  Without `PATH` it is a `KeyError`. -/
def existBinary (there : Str → Bool) (path : Option Str) (bin : Str) : Option Bool :=
  path.map fun p => (splitOn ':' p).any fun d => there (join d bin)

/-- How `getBinutilsInfo` fails. -/
inductive Err where
  | noPath
  | notFound
deriving DecidableEq

/-- `'%s-%s' % (HOST(), util)`, pisi/actionsapi/get.py:176: the variable `HOST` may be missing, then it is `None`. -/
def crossName (host : Option Str) (util : Str) : Str := host.getD "None".toList ++ '-' :: util

/-- `getBinutilsInfo(util)`, pisi/actionsapi/get.py:175-185. -/
def getBinutilsInfo (there : Str → Bool) (path host : Option Str) (util : Str) : Except Err Str :=
  match existBinary there path (crossName host util) with
  | none => .error .noPath
  | some true => .ok (crossName host util)
  | some false => match existBinary there path util with
    | none => .error .noPath
    | some false => .error .notFound
    | some true => .ok util

/-- The functions named after tools and what they look for, pisi/actionsapi/get.py:187-212. -/
def tools : List (Str × Str) := [("AR".toList, "ar".toList), ("AS".toList, "as".toList), ("CC".toList, "gcc".toList), ("CXX".toList, "g++".toList),
  ("LD".toList, "ld".toList), ("NM".toList, "nm".toList), ("RANLIB".toList, "ranlib".toList), ("F77".toList, "f77".toList), ("GCJ".toList, "gcj".toList)]

end Pisi.Binutils
