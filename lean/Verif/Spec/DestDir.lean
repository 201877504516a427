import Verif.Model.Unpack
import Verif.Spec.Path

/-!
# What a path leads to
-/
namespace Pisi.DestDir
open Pisi.Unpack Pisi.PathSpec

/-- From the directory `cur` the names lead to a location. -/
inductive Leads (fs : Files) : Loc → List Str → Loc → Prop
  | here (cur : Loc) : Leads fs cur [] cur
  | dot {cur cs l} : Leads fs cur cs l → Leads fs cur (['.'] :: cs) l
  | up {cur cs l} : Leads fs cur.dropLast cs l → Leads fs cur (['.', '.'] :: cs) l
  | dir {cur c cs m l} : c ≠ ['.'] → c ≠ ['.', '.'] → fs (cur ++ [c]) = some (.dir m) → Leads fs (cur ++ [c]) cs l →
      Leads fs cur (c :: cs) l
  | file {cur c t m} : c ≠ ['.'] → c ≠ ['.', '.'] → fs (cur ++ [c]) = some (.file t m) → Leads fs cur [c] (cur ++ [c])
  | link {cur c cs t l} : c ≠ ['.'] → c ≠ ['.', '.'] → fs (cur ++ [c]) = some (.link t) →
      Leads fs (if t.head? = some '/' then [] else cur) (names t ++ cs) l → Leads fs cur (c :: cs) l

/-- What a name means in the directory `cwd`. -/
def LeadsFrom (fs : Files) (cwd : Loc) (d : Str) (l : Loc) : Prop :=
  (IsAbs d → Leads fs [] (segs d) l) ∧ (¬ IsAbs d → Leads fs cwd (segs d) l)

/-- A location with directories all along, itself included. -/
def Real (fs : Files) (l : Loc) : Prop := ∀ q, q ≠ [] → q <+: l → ∃ m, fs q = some (.dir m)

/-- Nothing but new directories. -/
def OnlyDirs (fs fs' : Files) : Prop := ∀ q, fs' q = fs q ∨ (fs q = none ∧ fs' q = some (.dir 493))

end Pisi.DestDir
