import Verif.Model.FS

/-!
# Model of pisi/util/fs.py:266-341 (stripping the files of a build)

A walk lists the directories below `top` by the names that lead to them, with the names of the files in them, in the order of
`os.walk`.  `strip` and `objcopy` are taken to get the paths that are put into the command line (paths without characters that
mean something to the shell).  Not modelled: the two `sed` commands on `.la` files, and what `strip` and `objcopy` do.
-/
namespace Pisi.Strip
open Pisi.Path

abbrev Walk := List (List Str × List Str)

/-- The directory `root` of `os.walk(top)`, which joins names with slashes (`top` does not end in one). -/
def pathOf (rel : List Str) : Str := rel.flatMap ('/' :: ·)

def debugSuffix : Str := ['/', 'd', 'e', 'b', 'u', 'g']

/-- The loop over `excludelist`, pisi/util/fs.py:286-291. -/
def strips (ex : List Str) (p : Str) : Bool := ! ex.any (fun e => «prefix» e p)

/-- The body of the loop over files, pisi/util/fs.py:269-294: the arguments of `strip_file`, if it is called. -/
def stripOne (top : Str) (ex : List Str) (root fn : Str) : Except PathErr (Option (Str × Str)) :=
  let fr := joinPath root [fn]
  match removePrefix top fr with
  | .error e => .error e
  | .ok r =>
    let dr := joinPath (FS.dirname top) [debugSuffix, r]
    .ok (if strips ex ('/' :: r) then some (fr, dr) else none)

/-- The loop over the files of a directory. -/
def stripFiles (top : Str) (ex : List Str) (root : Str) : List Str → Except PathErr (List (Str × Str))
  | [] => .ok []
  | fn :: fns => match stripOne top ex root fn with
    | .error e => .error e
    | .ok x => match stripFiles top ex root fns with
      | .error e => .error e
      | .ok xs => .ok (x.toList ++ xs)

/-- `strip_directory(top, excludelist)`, pisi/util/fs.py:266-296: the calls of `strip_file`. -/
def stripDirectory (top : Str) (ex : List Str) : Walk → Except PathErr (List (Str × Str))
  | [] => .ok []
  | (d, fns) :: w => match stripFiles top ex (top ++ pathOf d) fns with
    | .error e => .error e
    | .ok xs => match stripDirectory top ex w with
      | .error e => .error e
      | .ok ys => .ok (xs ++ ys)

/-- `a in b` -/
def inside (a : Str) : Str → Bool
  | [] => a.isEmpty
  | c :: s => «prefix» a (c :: s) || inside a s

inductive Kind where
  | archive
  | executable
  | shared
  deriving DecidableEq

def archiveText : Str := ['c', 'u', 'r', 'r', 'e', 'n', 't', ' ', 'a', 'r', ' ', 'a', 'r', 'c', 'h', 'i', 'v', 'e']
def executableText : Str := ['S', 'B', ' ', 'e', 'x', 'e', 'c', 'u', 't', 'a', 'b', 'l', 'e']
def sharedText : Str := ['S', 'B', ' ', 's', 'h', 'a', 'r', 'e', 'd', ' ', 'o', 'b', 'j', 'e', 'c', 't']

/-- The branches of `strip_file` on the output of `file`, pisi/util/fs.py:322-341; `none` when the file is left alone. -/
def kind (o : Str) : Option Kind :=
  if inside archiveText o then some .archive
  else if inside executableText o then some .executable
  else if inside sharedText o then some .shared
  else none

/-- What `file "path"` prints. -/
def fileOutput (path desc : Str) : Str := path ++ (':' :: ' ' :: desc) ++ ['\n']

/-- `strip_file(filepath, outpath)`, pisi/util/fs.py:298-341, for a file that `file` describes so: the options of `strip` if it
is called, and the file the debug information is copied to, if any. -/
def stripFile (generatedebug : Bool) (path out desc : Str) : Option (List Str × Option Str) :=
  match kind (fileOutput path desc) with
  | none => none
  | some .archive => some ([['-', 'g']], none)
  | some .executable => some ([], if generatedebug then some (out ++ ['.', 'd', 'e', 'b', 'u', 'g']) else none)
  | some .shared => some ([['-', '-', 's', 't', 'r', 'i', 'p', '-', 'u', 'n', 'n', 'e', 'e', 'd', 'e', 'd']],
      if generatedebug then some (out ++ ['.', 'd', 'e', 'b', 'u', 'g']) else none)

end Pisi.Strip
