import Verif.Model.Path

/-!
# The commands build and emerge: pisi/cli/build.py, pisi/cli/emerge.py

What the commands do before and around the calls of the library.
-/
namespace Pisi.BuildCmd

/-- The options of build and emerge that are looked at here, pisi/cli/build.py:53-77; a missing value is the default `None`. -/
structure Opts where
  until_ : Option Str := none
  format : Str := "1.1".toList
  noInstall : Bool := false
  outputDir : Option Str := none

/-- `Build.steps` and `Build.package_formats`, pisi/cli/build.py:49-51. -/
def steps : List Str := ["unpack".toList, "setup".toList, "build".toList, "install".toList, "package".toList]
def formats : List Str := ["1.0".toList, "1.1".toList]

/-- What is done: the help is shown; the library is initialised, for writing or not; a package is built, in a stage or in full, with the
output directory and the format that are set then; sources are emerged; everything is closed. -/
inductive Act where
  | help
  | init (write : Bool)
  | build (x : Str) (out : Str) (format : Str)
  | buildUntil (x : Str) (step : Str) (out : Str) (format : Str)
  | emerge (xs : List Str) (out : Str) (format : Str)
  | finalize
  deriving DecidableEq

/-- How the command ends. -/
inductive End where
  | done
  | badStep
  | badFormat
  | failed
  deriving DecidableEq

/-- A value that counts as given: `if ctx.get_option(...)` with an empty text is false. -/
def given (v : Option Str) : Option Str := match v with
  | some [] => none
  | v => v

/-- The loop of `Build.run`, pisi/cli/build.py:104-109; `ok` tells whether a build succeeds, the first failure ends the program. -/
def buildLoop (ok : Act → Bool) (act : Str → Act) : List Str → List Act × End
  | [] => ([.finalize], .done)
  | x :: xs => if ok (act x) then let r := buildLoop ok act xs; (act x :: r.1, r.2) else ([act x], .failed)

/-- `Build.run`, pisi/cli/build.py:79-110. -/
def build (ok : Act → Bool) (o : Opts) (args : List Str) : List Act × End :=
  if args = [] then ([.help], .done)
  else if (given o.until_).any (fun u => decide (u ∉ steps)) then ([], .badStep)
  else if o.format ∉ formats then ([.init (!o.noInstall)], .badFormat)
  else
    let out := (given o.outputDir).getD ['.']
    let r := buildLoop ok (fun x => match given o.until_ with
      | some u => .buildUntil x u out o.format
      | none => .build x out o.format) args
    (.init (!o.noInstall) :: r.1, r.2)

/-- `Emerge.run`, pisi/cli/emerge.py:49-64; `cache` is `ctx.config.packages_dir()`. -/
def emerge (ok : Act → Bool) (cache : Str) (o : Opts) (args : List Str) : List Act × End :=
  if args = [] then ([.help], .done)
  else
    let a := Act.emerge args ((given o.outputDir).getD cache) o.format
    (.init true :: a :: (if ok a then [.finalize] else []), if ok a then .done else .failed)

end Pisi.BuildCmd
