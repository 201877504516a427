/-
Model of the working directory while sources are built: pisi/op/build.py, pisi/archive.py and pisi/util/fs.py.
-/
import Verif.Model.Path

namespace Pisi.WorkDir

open Pisi Pisi.Path

/-- What a step does as far as the working directory is concerned.  Directories are absolute: the directories of the builder
come from `os.path.realpath` (op/build.py:146-152) and from the configuration (op/build.py:159-173). -/
inductive Op where
  /-- work that does not depend on the working directory; it raises an exception unless it is `ok` -/
  | work (ok : Bool)
  /-- code of actions.py: from the working directory before to that after and whether it came to its end -/
  | user (code : Str → Str × Bool)
  /-- `os.chdir(d)`, an exception unless `d` is `there` -/
  | cd (d : Str) (there : Bool)
  /-- a package is created: `Package(name, 'w')` opens the file at once (op/build.py:797, data/package.py:92, archive.py:168-178);
  that this fails belongs to the work before -/
  | create (name : Str)

/-- The working directory and the packages that were created: each with the working directory of then. -/
structure St where
  cwd : Str
  made : List (Str × Str)
  deriving DecidableEq

/-- One step; `false` is an exception. -/
def step : Op → St → St × Bool
  | .work ok, s => (s, ok)
  | .user code, s => ({ s with cwd := (code s.cwd).1 }, (code s.cwd).2)
  | .cd d there, s => if there then ({ s with cwd := d }, true) else (s, false)
  | .create n, s => ({ s with made := s.made ++ [(s.cwd, n)] }, true)

/-- Steps one after the other until an exception. -/
def steps : List Op → St → St × Bool
  | [], s => (s, true)
  | o :: os, s => match step o s with
    | (s', true) => steps os s'
    | (s', false) => (s', false)

/-- `cwd = os.getcwd()`, `os.chdir(d)`, the body, `os.chdir(cwd)`, as in run_action_function (op/build.py:409-419), do_patch
(util/fs.py:244-263), ArchiveTar.unpack_dir (archive.py:105-129) and build_packages (op/build.py:749-759, 800-839).  There is
no `finally`.  `back` says that the first directory can be entered again. -/
def inside (d : Str) (there back : Bool) (body : List Op) (s : St) : St × Bool :=
  match steps (.cd d there :: body) s with
  | (s', true) => step (.cd s.cwd back) s'
  | (s', false) => (s', false)

/-- A part of the building of a source. -/
inductive Part where
  | plain (o : Op)
  | within (d : Str) (there back : Bool) (body : List Op)

/-- Parts one after the other. -/
def parts : List Part → St → St × Bool
  | [], s => (s, true)
  | .plain o :: ps, s => match step o s with
    | (s', true) => parts ps s'
    | (s', false) => (s', false)
  | .within d t b body :: ps, s => match inside d t b body s with
    | (s', true) => parts ps s'
    | (s', false) => (s', false)

/-- An action of actions.py, if there is one of that name: run_action_function, op/build.py:402-419.  (That a mandatory
function is missing is not reported: the `raise` is missing in line 417.) -/
structure Action where
  code : Option (Str → Str × Bool)
  there : Bool
  back : Bool

/-- A package that is built: the additional files and the contents are added in the directory of the spec file and in that of
the package, op/build.py:746-839. -/
structure Pack where
  name : Str
  files : Bool
  specThere : Bool
  back : Bool
  work : Bool
  comar : Bool
  dirThere : Bool
  contents : Bool
  back2 : Bool

/-- What happens when a source is built, as far as the code does not determine it. -/
structure Job where
  srcDir : Str
  specDir : Str
  pkgDir : Str
  workDir : Str
  /-- the statements of actions.py itself, executed by compile_action_script, op/build.py:368-391 -/
  script : Str → Str × Bool
  /-- the checks, the dependencies that are installed, and the fetching, op/build.py:192-198 -/
  prepare : Bool
  /-- the source is a tar archive (otherwise the working directory plays no role, archive.py:77-85, 320-324) -/
  tar : Bool
  workThere : Bool
  unpack : Bool
  unpackBack : Bool
  /-- for every patch: the source directory is there, the patch applies, the way back -/
  patches : List (Bool × Bool × Bool)
  setup : Action
  build : Action
  install : Action
  /-- fetch_component and strip_install_dir, op/build.py:726-741 -/
  strip : Bool
  packs : List Pack

/-- run_action_function, op/build.py:402-419. -/
def runAction (src : Str) (a : Action) : Part :=
  .within src a.there a.back (match a.code with | some f => [.user f] | none => [])

/-- SourceArchive.unpack, sourcearchive.py:65-78, with ArchiveTar.unpack_dir, archive.py:104-130. -/
def unpackPart (j : Job) : Part :=
  if j.tar then .within j.workDir j.workThere j.unpackBack [.work j.unpack] else .plain (.work j.unpack)

/-- do_patch, util/fs.py:242-263. -/
def patchPart (src : Str) (p : Bool × Bool × Bool) : Part := .within src p.1 p.2.2 [.work p.2.1]

/-- One turn of the loop of build_packages, op/build.py:746-839; `out` is the output directory. -/
def packParts (j : Job) (out : Str) (p : Pack) : List Part :=
  [.within j.specDir p.specThere p.back [.work p.files], .plain (.work p.work), .plain (.create (joinPath out [p.name])),
   .within j.specDir p.specThere p.back2 [.work p.comar, .cd j.pkgDir p.dirThere, .work p.contents]]

/-- Builder.build, op/build.py:185-208, and build_packages, 722-870. -/
def buildParts (j : Job) (out : Str) : List Part :=
  [.plain (.user j.script), .plain (.work j.prepare), unpackPart j] ++ j.patches.map (patchPart j.srcDir) ++
  [runAction j.srcDir j.setup, runAction j.srcDir j.build, runAction j.srcDir j.install, .plain (.work j.strip)] ++
  j.packs.flatMap (packParts j out)

/-- Builder.build. -/
def buildJob (j : Job) (out : Str) (s : St) : St × Bool := parts (buildParts j out) s

/-- The loop of Build.run, cli/build.py:104-109: the first exception ends the program.  Which spec file a relative name
stands for depends on the working directory (op/build.py:146-152): `find` gives the source of each word. -/
def buildCmd (find : Str → Str → Job) (out : Str) : List Str → St → St × Bool
  | [], s => (s, true)
  | x :: xs, s => match buildJob (find s.cwd x) out s with
    | (s', true) => buildCmd find out xs s'
    | (s', false) => (s', false)

/-- A program that uses pisi.api.build and goes on after an exception. -/
def farm (find : Str → Str → Job) (out : Str) : List Str → St → St
  | [], s => s
  | x :: xs, s => farm find out xs (buildJob (find s.cwd x) out s).1

end Pisi.WorkDir
