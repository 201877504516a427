import Verif.Model.PackRun

/-!
# What an end in between may leave
-/
namespace Pisi.PackRun

/-- What belongs into a package file. -/
def whole (old : Bool) (p : Pkg) : List Member :=
  p.scripts.map .script ++ [.metadata, .filesXml] ++ (if old then p.files.map .file else [.payload p.files])

/-- The state when something stops the steps: a missing file, a full disk, Ctrl-C or the end of the process; when `lzma` is
stopped there may be anything in the file that it was writing. -/
inductive Stops : List Step → State → State → Prop
  | here (l s) : Stops l s s
  | lzma (b l s x) : s.lz = none → Stops (.tarClose b :: l) s { s with lz := x }
  | next {st l s s1 s'} : st.run s = some s1 → Stops l s1 s' → Stops (st :: l) s s'

/-- An exception stopped the build, and `finalize` was run. -/
def Failed (old : Bool) (ps : List Pkg) (s s' : State) : Prop :=
  ∃ s1, Stops (progs old ps) { s with left := false } s1 ∧ s' = finalize s1

/-- The process was killed. -/
def Killed (old : Bool) (ps : List Pkg) (s s' : State) : Prop :=
  ∃ s1, Stops (progs old ps) { s with left := false } s1 ∧ s' = { s1 with left := false }

/-- Any number of builds of the same packages, each failed or killed somewhere. -/
inductive Tries (old : Bool) (ps : List Pkg) : State → State → Prop
  | none (s) : Tries old ps s s
  | failed {s s1 s2} : Tries old ps s s1 → Failed old ps s1 s2 → Tries old ps s s2
  | killed {s s1 s2} : Tries old ps s s1 → Killed old ps s1 s2 → Tries old ps s s2

/-- The packages are all there and whole, and no other package file was touched. -/
def Built (old : Bool) (ps : List Pkg) (s s' : State) : Prop :=
  (∀ p ∈ ps, s'.out p.name = some (whole old p, true)) ∧ (∀ n, (∀ p ∈ ps, p.name ≠ n) → s'.out n = s.out n)

end Pisi.PackRun
