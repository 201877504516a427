import Verif.Model.PackPar
import Verif.Spec.PackRun

/-!
# What one build sees of others
-/
namespace Pisi.PackRun

/-- The build of the process `q` has a directory of its own, and no other process writes the files of its packages. -/
def Apart (d : Nat → Str) (ps : Nat → List Pkg) (q : Nat) : Prop :=
  ∀ q', q' ≠ q → d q' ≠ d q ∧ ∀ p ∈ ps q, ∀ p' ∈ ps q', p.name ≠ p'.name

/-- The same for the packages `ps`: their files, the temporary files and what the process remembers. -/
def Agree (ps : List Pkg) (s t : State) : Prop :=
  (∀ p ∈ ps, s.out p.name = t.out p.name) ∧ s.tar = t.tar ∧ s.lz = t.lz ∧ s.left = t.left

/-- What the process may have come to if it is where it is and was alone. -/
def Alone (old : Bool) (ps : List Pkg) (s s' : State) : Phase → Prop
  | .run r => ∃ a, progs old ps = a ++ r ∧ exec a s = (s', true)
  | .stopped => Stops (progs old ps) s s'
  | .over false => Failed old ps s s'
  | .over true => attempt old ps s = (s', true)

end Pisi.PackRun
