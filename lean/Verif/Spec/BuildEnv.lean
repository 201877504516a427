/-
What builds in one run of pisi ought to see, whatever was built before.
-/
import Verif.Model.BuildEnv

namespace Pisi.BuildEnvSpec

open Pisi.BuildEnv

/-- An actions script changes the variable `k`. -/
def Changes (p : Pkg) (k : Str) : Prop :=
  (∃ f, Step.export k f ∈ p.top ++ p.body) ∨ Step.unset k ∈ p.top ++ p.body

/-- Some script of the packages built earlier changes the variable `k`. -/
def Touched (hist : List Pkg) (k : Str) : Prop := ∃ p ∈ hist, Changes p k

/-- The variables that every build sets by itself. -/
def own : List Str :=
  [['H','O','S','T'], ['C','F','L','A','G','S'], ['C','X','X','F','L','A','G','S'],
   ['L','D','F','L','A','G','S'], ['U','S','E','R','_','L','D','F','L','A','G','S'],
   ['J','O','B','S'], ['P','K','G','_','D','I','R'], ['W','O','R','K','_','D','I','R'],
   ['I','N','S','T','A','L','L','_','D','I','R'], ['S','R','C','_','N','A','M','E'],
   ['S','R','C','_','V','E','R','S','I','O','N'], ['S','R','C','_','R','E','L','E','A','S','E']]

/-- A build sets the variable before the actions script is loaded: it is one of
its own, or it is `PATH` and there is a build helper. -/
def Sets (cf : Conf) (k : Str) : Prop :=
  k ∈ own ∨ (k = ['P','A','T','H'] ∧ cf.helper ≠ none)

/-- Two observations that differ at most in the variables `S` of programs. -/
def Same (S : Str → Prop) : Obs → Obs → Prop
  | .got k v, .got k' v' => k = k' ∧ v = v'
  | .ran e, .ran e' => ∀ k, ¬ S k → e k = e' k
  | _, _ => False

/-- What the scripts themselves read. -/
def reads : List Obs → List (Str × Option Str)
  | [] => []
  | .got k v :: l => (k, v) :: reads l
  | .ran _ :: l => reads l

end Pisi.BuildEnvSpec
