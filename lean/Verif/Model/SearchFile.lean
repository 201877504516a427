/-
`pisi search-file`, the command that finds the package of a file
(`pisi/cli/search.py`).

The file system is that of `Model/ActionsFS.lean`: links are followed
component by component.  Not modelled: that `fnmatch` keeps only a hundred
patterns, and what is printed beside the package and the path.
-/
import Verif.Model.ActionsInstall
import Verif.Model.FilesDB

namespace Pisi.SearchFile
open Pisi.Act

variable {α ι : Type}

/-- The path that is looked up: the real path if the file exists, and without
the slashes it begins with (pisi/cli/search.py:101, 131-133). -/
def query (fs : FS) (cwd path : Str) : Str :=
  Path.lstripSlash (if existsC fs (absComps cwd path) then realpath fs (absComps cwd path) else path)

/-- `search_exact` (pisi/cli/search.py:98-116) with the real path taken in
`run` (118-136): the package, the path and the rest of the record of every
file shown. -/
def search (fs : FS) (cwd : Str) (d : DB.FilesDB Str α ι) (fuzzy : Bool) (path : Str) :
    List (α × Str × ι) :=
  if fuzzy then d.matchFiles (fnmatch (query fs cwd path))
  else if d.hasFile (query fs cwd path) then (d.getFile (query fs cwd path)).toList
  else []

end Pisi.SearchFile
