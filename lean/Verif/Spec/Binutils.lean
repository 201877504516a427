import Verif.Model.Binutils
import Verif.Spec.Version

/-!
# Finding tools

What the author of an actions script expects: the name is that of a tool that can be run, the one for the host if there is one.
-/
namespace Pisi.Binutils

/-- The shell finds a tool called `b`: in one of the directories that `path` names there is a file of that name that can be run. -/
def Found (runs : Str → Prop) (path : Str) (b : Str) : Prop :=
  ∃ ds, Version.Spec.Splits (· = ':') path ds ∧ ∃ d ∈ ds, runs (join d b)

/-- Full statement: the name for the host if that can be run; else the plain name if that can be run; else an error. -/
def ToolsFull : Prop := ∀ (there : Str → Bool) (runs : Str → Prop) (path host util : Str), (∀ p, runs p → there p = true) →
  (Found runs path (host ++ '-' :: util) → getBinutilsInfo there (some path) (some host) util = .ok (host ++ '-' :: util)) ∧
  (¬ Found runs path (host ++ '-' :: util) → Found runs path util → getBinutilsInfo there (some path) (some host) util = .ok util) ∧
  (¬ Found runs path (host ++ '-' :: util) → ¬ Found runs path util → getBinutilsInfo there (some path) (some host) util = .error .notFound)

end Pisi.Binutils
