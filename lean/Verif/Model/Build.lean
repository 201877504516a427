import Verif.Model.PkgName
import Verif.Model.InstallFiles

/-!
# Model of build numbers and of staged builds, pisi/op/build.py
-/
namespace Pisi.Build
open Pisi.Path Pisi.PkgName Pisi.FS

/-- What `Package.read` finds in an old package: the name and the build number of metadata.xml and the files (path
and hash) of files.xml. -/
structure OldPkg where
  name : Str
  build : Option Nat
  files : List (Str × Option Str)
  deriving DecidableEq

/-- `locate_old_package`, pisi/op/build.py:645-659.  A package file is given by its base name and what reading it
yields, `none` when that raises (the file is skipped).  The second reading of the chosen package (694-696) is taken to
yield the same. -/
def locate (name : Str) (e : Str × Option OldPkg) : Option OldPkg :=
  if isPackageName e.1 name then match e.2 with
    | some p => if p.name ≠ name then none else some p
    | none => none
  else none

/-- The comparison loop of lines 708-717. -/
def changedLoop : List (Str × Option Str) → List (Str × Option Str) → Bool
  | fo :: o, fn :: n => if fo.1 ≠ fn.1 then true else if fo.2 ≠ fn.2 then true else changedLoop o n
  | _, _ => false

/-- Sorting by path, lines 702-703. -/
def sortPaths (l : List (Str × Option Str)) : List (Str × Option Str) := l.mergeSort (fun a b => strLe a.1 b.1)

/-- `changed`, pisi/op/build.py:699-717. -/
def changed (old new : List (Str × Option Str)) : Bool :=
  if new.length ≠ old.length then true else changedLoop (sortPaths old) (sortPaths new)

/-- `Builder.calc_build_no(package_name)`, pisi/op/build.py:641-722.  `entries` are the files below the packages
directory followed by those in the output directory, in the order of `os.walk` and `os.listdir`. -/
def calcBuildNo (entries : List (Str × Option OldPkg)) (name : Str) (new : List (Str × Option Str)) :
    Nat × Option Nat :=
  let found := entries.filterMap (locate name)
  let a := found.filterMap (fun p => p.build.map (fun b => (b, p.files)))
  match (a.mergeSort (fun x y => decide (x.1 ≤ y.1))).getLast? with
  | none => (1, none)
  | some (b, old) => if changed old new then (b + 1, some b) else (b, some b)

/-! ## Staged builds -/

/-- The names written to `pisiBuildState` and their numbers, `order`, pisi/op/build.py:880-885. -/
def order : List (Str × Nat) :=
  [("none".toList, 0), ("unpack".toList, 1), ("setupaction".toList, 2), ("buildaction".toList, 3),
   ("installaction".toList, 4), ("buildpackages".toList, 5)]

/-- The name of a stage. -/
def stageName : Nat → Str
  | 0 => "none".toList
  | 1 => "unpack".toList
  | 2 => "setupaction".toList
  | 3 => "buildaction".toList
  | 4 => "installaction".toList
  | _ => "buildpackages".toList

/-- What has been done to the unpacked source: the patch with this number was applied, the phase with this number was
run (2 setup, 3 build, 4 install, 5 stripping at the start of `build_packages`), the package with this number was
written. -/
inductive Ev where
  | patch (i : Nat)
  | phase (k : Nat)
  | pack (i : Nat)
  deriving DecidableEq

/-- The build directory: the content of `pisiBuildState` and what was done to the source since it was unpacked (`none`:
there is no complete unpacked source). -/
structure World where
  state : Option Str
  tree : Option (List Ev)

def World.init : World := ⟨none, none⟩

/-- The steps of a build.  A step is taken to be atomic; a build may stop, by an error or by a crash, before any of
them. -/
inductive Step where
  | rmState
  | rmTree
  | extract
  | write (c : Str)
  | ev (e : Ev)
  deriving DecidableEq

def Step.apply : Step → World → World
  | .rmState, w => { w with state := none }
  | .rmTree, w => { w with tree := none }
  | .extract, w => { w with tree := some [] }
  | .write c, w => { w with state := some c }
  | .ev e, w => { w with tree := w.tree.map (· ++ [e]) }

def exec (l : List Step) (w : World) : World := l.foldl (fun w s => s.apply w) w

/-- The numbers of patches and packages of the source, `archive.norootdir`, `general.autoclean`, and whether `rmtree`
meets `pisiBuildState` before the source directory (the order of directory entries is arbitrary). -/
structure Cfg where
  patches : Nat
  packages : Nat
  norootdir : Bool
  autoclean : Bool
  stateFirst : Bool

/-- `set_state`, pisi/op/build.py:175-177: the file is truncated and written. -/
def mark (k : Nat) : List Step :=
  (List.range ((stageName k).length + 1)).map (fun i => .write ((stageName k).take i))

/-- `util.clean_dir` on a directory with the state file and the source. -/
def clean (c : Cfg) : List Step := if c.stateFirst then [.rmState, .rmTree] else [.rmTree, .rmState]

/-- The patches in order. -/
def patchList (c : Cfg) : List Ev := (List.range c.patches).map .patch

/-- `unpack_source_archive` and `apply_patches`, pisi/op/build.py:316-323 and 481-496, with `SourceArchive.unpack`
(sourcearchive.py:62-76) and `ArchiveBase.unpack` (archive.py:47-53).  With `norootdir` the source directory is made
first, which fails when there is one, and only that directory is cleaned. The fetching of the archive (C36-C38) is not
repeated here. -/
def unpackSteps (c : Cfg) : List Step :=
  (if c.norootdir then [] else clean c) ++ [.extract] ++ mark 1 ++ (patchList c).map .ev

/-- `run_setup_action`, `run_build_action`, `run_install_action`, pisi/op/build.py:325-345. -/
def actionSteps (k : Nat) : List Step := .ev (.phase k) :: mark k

/-- `build_packages`, pisi/op/build.py:724-870: stripping, then for every package writing it and setting the state,
then the optional cleaning. -/
def packageSteps (c : Cfg) : List Step :=
  .ev (.phase 5) :: ((List.range c.packages).flatMap (fun i => .ev (.pack i) :: mark 5)
    ++ (if c.autoclean then clean c else []))

/-- What is asked for: `build_until` with a state, or `Builder.build`. -/
inductive Req where
  | unpack | setup | build | install | package | oneShot
  deriving DecidableEq

/-- `__buildState_setupaction(pb, last)`, pisi/op/build.py:893-897; `last` is the number of the last state. -/
def setupTo (c : Cfg) (last : Nat) : List Step := (if last < 1 then unpackSteps c else []) ++ actionSteps 2

/-- `__buildState_buildaction`, pisi/op/build.py:899-903. -/
def buildTo (c : Cfg) (last : Nat) : List Step := (if last < 2 then setupTo c last else []) ++ actionSteps 3

/-- `__buildState_installaction`, pisi/op/build.py:905-909. -/
def installTo (c : Cfg) (last : Nat) : List Step := (if last < 3 then buildTo c last else []) ++ actionSteps 4

/-- `__buildState_buildpackages`, pisi/op/build.py:911-915. -/
def packagesTo (c : Cfg) (last : Nat) : List Step := (if last < 4 then installTo c last else []) ++ packageSteps c

/-- `get_state` and `if not last: last = "none"`, pisi/op/build.py:179-183 and 925-928. -/
def lastState (w : World) : Str := match w.state with
  | none => "none".toList
  | some [] => "none".toList
  | some s => s

/-- `order[last]`; `none` is the `KeyError`. -/
def orderOf (s : Str) : Option Nat := (order.find? (fun p => p.1 = s)).map (·.2)

/-- The steps of `build_until(pspec, state)` (pisi/op/build.py:917-946) or of `Builder.build` (185-208) started in `w`;
`none` when the unknown content of the state file raises `KeyError` before anything is done. -/
def program (c : Cfg) (w : World) : Req → Option (List Step)
  | .unpack => some (unpackSteps c)
  | .setup => (orderOf (lastState w)).map (setupTo c)
  | .build => (orderOf (lastState w)).map (buildTo c)
  | .install => (orderOf (lastState w)).map (installTo c)
  | .package => (orderOf (lastState w)).map (packagesTo c)
  | .oneShot => some (unpackSteps c ++ actionSteps 2 ++ actionSteps 3 ++ actionSteps 4 ++ packageSteps c)

/-- Whether the step fails: the source directory cannot be made by `os.makedirs` when there is one and it was not
cleaned (`norootdir`, sourcearchive.py:72-74). -/
def Step.fails (c : Cfg) (w : World) : Step → Bool
  | .extract => c.norootdir && w.tree.isSome
  | _ => false

/-- The first `n` steps of a program, stopping at a failing one; also whether every step of the program was done and
the rest of the program. -/
def runSteps (c : Cfg) : Nat → List Step → World → World × List Step
  | 0, l, w => (w, l)
  | _ + 1, [], w => (w, [])
  | n + 1, s :: r, w => if s.fails c w then (w, s :: r) else runSteps c n r (s.apply w)

/-- A request of which at most `n` steps are done. -/
def run (c : Cfg) (w : World) (r : Req × Nat) : World := match program c w r.1 with
  | some l => (runSteps c r.2 l w).1
  | none => w

/-- The build directory after a sequence of requests, each of which may have been cut. -/
def history (c : Cfg) (rs : List (Req × Nat)) : World := rs.foldl (run c) World.init

/-- The phases among the steps: 1 for unpacking, 2-5. -/
def phasesOf (l : List Step) : List Nat := l.filterMap (fun
  | .extract => some 1
  | .ev (.phase k) => some k
  | _ => none)

/-- `run_action_function(func, mandatory)`, pisi/op/build.py:402-419: whether the function was called, given whether it
is defined in actions.py; nothing is raised (line 417 lacks the `raise`).  Errors of the function itself are not
modelled. -/
def runActionFunction (isDefined _mandatory : Bool) : Except Unit Bool :=
  if isDefined then .ok true else .ok false

end Pisi.Build
