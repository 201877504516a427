import Verif.Model.Unpack

/-!
# Model of the treatment of `--destdir`, pisi/cli/command.py:105-115

On the file system of Model/Unpack, where links and `..` are followed in every component of a path.
-/
namespace Pisi.DestDir
open Pisi.Unpack

/-- The names from the root along the option as given; relative ones start at the current directory, whose location the
kernel keeps. -/
def destPath (cwd : Loc) (d : Str) : List Str := if isAbs d then names d else cwd ++ names d

/-- `process_opts`, pisi/cli/command.py:105-115, without `check_auth_info`.  The outer `none`: an `OSError` of `makedirs`,
which ends the command; the inner one: the option is not given.  `os.path.realpath` is the location that the path leads
to; `n` bounds the steps of a resolution, and the path with the new directory may take one more.  New directories have
the mode 0777 without the bits of the usual umask 022. -/
def processOpts (n : Nat) (cwd : Loc) (opt : Option Str) (s : St) : St × Option (Option Loc) := match opt with
  | none => (s, some none)
  | some [] => (s, some none)
  | some (a :: d) =>
    let p := destPath cwd (a :: d)
    let r := if (stat s.fs n p).isSome then (s, true) else makedirs n [] p 493 s
    if r.2 then match resolve r.1.fs (n + 1) [] p with
      | some l => (r.1, some (some l))
      | none => (r.1, none)
    else (r.1, none)

end Pisi.DestDir
