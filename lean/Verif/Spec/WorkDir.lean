/-
Where packages are created.
-/
import Verif.Model.WorkDir

namespace Pisi.WorkDir

open Pisi Pisi.Path

/-- The packages of a source, in the directory `d`. -/
def Job.made (j : Job) (out d : Str) : List (Str × Str) := j.packs.map fun p => (d, joinPath out [p.name])

/-- The packages of the sources called `xs`. -/
def allMade (find : Str → Str → Job) (out d : Str) (xs : List Str) : List (Str × Str) := xs.flatMap fun x => (find d x).made out d

/-- The statements of actions.py outside of its functions leave the working directory as it is. -/
def Job.Quiet (j : Job) : Prop := ∀ d, (j.script d).1 = d

/-- C218 in full: whatever is built and whatever comes of it, the working directory is the same afterwards, and every package
is created there (or in the output directory seen from there). -/
def WorkDirFull : Prop := ∀ (find : Str → Str → Job) (out : Str) (xs : List Str) (d : Str),
  (farm find out xs ⟨d, []⟩).cwd = d ∧ ∀ p ∈ (farm find out xs ⟨d, []⟩).made, p.1 = d

end Pisi.WorkDir
