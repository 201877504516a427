import Verif.Model.Build
import Verif.Model.SpecFile

/-!
# The calls of a build, in one shot and in stages, pisi/op/build.py
-/
namespace Pisi.BuildRun
open Pisi.Build (Req)
open Pisi.Pspec

/-- The methods of `Builder` that `build` (pisi/op/build.py:185-208) and the functions for stages (887-947) call. -/
inductive Call where
  | compile
  | patchExists
  | checkDeps
  | fetchComponent
  | fetchArchive
  | unpack
  | patches
  | setup
  | build
  | install
  | packages
  deriving DecidableEq

/-- `__buildState_unpack`, pisi/op/build.py:887-891. -/
def unpackCalls : List Call := [.fetchArchive, .unpack, .patches]

/-- `__buildState_setupaction(pb, last)`, pisi/op/build.py:893-897. -/
def setupCalls (last : Nat) : List Call := (if last < 1 then unpackCalls else []) ++ [.setup]

/-- `__buildState_buildaction(pb, last)`, pisi/op/build.py:899-903. -/
def buildCalls (last : Nat) : List Call := (if last < 2 then setupCalls last else []) ++ [.build]

/-- `__buildState_installaction(pb, last)`, pisi/op/build.py:905-909. -/
def installCalls (last : Nat) : List Call := (if last < 3 then buildCalls last else []) ++ [.install]

/-- `__buildState_buildpackages(pb, last)`, pisi/op/build.py:911-915. -/
def packageCalls (last : Nat) : List Call := (if last < 4 then installCalls last else []) ++ [.packages]

/-- The calls of `build_until(pspec, state)`, pisi/op/build.py:917-947, and of `Builder.build`, pisi/op/build.py:185-208; `last` is the
number of the stage in the state file (0 without one).  Which of them is used depends on `--until`, pisi/cli/build.py:104-108. -/
def calls (last : Nat) : Req → List Call
  | .unpack => .compile :: unpackCalls
  | .setup => .compile :: setupCalls last
  | .build => .compile :: buildCalls last
  | .install => .compile :: installCalls last
  | .package => .compile :: packageCalls last
  | .oneShot => [.compile, .patchExists, .checkDeps, .fetchComponent, .fetchArchive, .unpack, .patches, .setup, .build, .install, .packages]

/-- What a build meets: the installed packages and the repositories, the options, the packages of system.devel, the name in
component.xml of the parent directory, and which of the other calls succeed. -/
structure Env where
  w : World Str
  o : BuildOpts := {}
  devel : Option (List Str) := none
  comp : Option Str := none
  ok : Call → Bool := fun _ => true

/-- The ends of a build that fails. -/
inductive Fail where
  | spec (e : SErr)
  | call (c : Call)
  deriving DecidableEq

/-- One call; the specification is the one read by the builder, of which only `fetch_component` changes what later goes into packages
(that the safety switch adds to the build dependencies is left out: nothing reads them afterwards). -/
def step (e : Env) (s : SpecFile) : Call → Except Fail SpecFile
  | .checkDeps => match checkBuildDeps e.w e.o e.devel s.source.buildDeps with
    | .error x => .error (.spec x)
    | .ok _ => .ok s
  | .fetchComponent => match fetchComponent e.comp s with
    | .error x => .error (.spec x)
    | .ok s => .ok s
  | c => if e.ok c then .ok s else .error (.call c)

/-- The calls in turn, up to the first that fails: those that succeeded, and the specification at the end. -/
def run (e : Env) : List Call → SpecFile → List Call × Except Fail SpecFile
  | [], s => ([], .ok s)
  | c :: cs, s => match step e s c with
    | .error x => ([], .error x)
    | .ok s => (c :: (run e cs s).1, (run e cs s).2)

/-- The stage that is recorded after a request was carried out, pisi/op/build.py:175-177 with 323, 325-345 and 724-870. -/
def stage : Req → Nat
  | .unpack => 1
  | .setup => 2
  | .build => 3
  | .install => 4
  | .package => 5
  | .oneShot => 5

/-- Commands `pisi build --until=...` one after the other, up to the first that fails; each reads the specification `s` anew. -/
def session (e : Env) (s : SpecFile) : List Req → Nat → List Call × Except Fail SpecFile
  | [], _ => ([], .ok s)
  | r :: rs, last => match run e (calls last r) s with
    | (t, .error x) => (t, .error x)
    | (t, .ok s') => if rs = [] then (t, .ok s') else (t ++ (session e s rs (stage r)).1, (session e s rs (stage r)).2)

end Pisi.BuildRun
