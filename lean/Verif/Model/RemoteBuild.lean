/-
Building from a specification on a server: the files that are fetched
(`Builder.fetch_files` of `pisi/op/build.py`) and those that are read, and the
additional files that are put into the install directory.

Whether fetching succeeds is not modelled here (`Model/Fetch.lean`); nor is the
specification itself, which is read from the server.
-/
import Verif.Model.Path
import Verif.Model.FS
import Verif.Model.Uri
import Verif.Model.ActionsFS

namespace Pisi.RemoteBuild
open Pisi.Path (joinPath)
open Pisi.FS (dirname)
open Pisi.Act (osJoin basename)

/-- The files a specification names. -/
structure Source where
  /-- The patches: `patch.filename`. -/
  patches : List Str
  /-- The COMAR scripts of all packages: `pcomar.script`. -/
  scripts : List Str
  /-- The additional files of all packages: `afile.filename`. -/
  additional : List Str

/-- `actions.py`, `ctx.const.actions_file` -/
def actionsFile : Str := ['a','c','t','i','o','n','s','.','p','y']

/-- `files`, `ctx.const.files_dir` -/
def filesDir : Str := ['f','i','l','e','s']

/-- `comar`, `ctx.const.comar_dir` -/
def comarDir : Str := ['c','o','m','a','r']

/-- `Builder.download(uri, transferdir)` (pisi/op/build.py:285-288): the
address and the local file, `join(transfer_dir, uri.filename())`
(pisi/file.py:103). -/
def download (uri dir : Str) : Str × Str := (uri, joinPath dir [Uri.filename uri])

/-- `fetch_patches` for one patch (pisi/op/build.py:260-265) and
`fetch_additionalFiles` for one file (279-283). -/
def fetchBelow (specdir destdir name : Str) : Str × Str :=
  download (joinPath specdir [filesDir, dirname name, basename name])
    (joinPath destdir [filesDir, dirname name])

/-- `fetch_comarfiles` for one script (pisi/op/build.py:270-273). -/
def fetchScript (specdir destdir script : Str) : Str × Str :=
  download (joinPath specdir [comarDir, script]) (joinPath destdir [comarDir])

/-- The directory into which files are fetched (pisi/op/build.py:242-244). -/
def destDir (specuri tmp : Str) : Str := joinPath tmp [basename (dirname specuri)]

/-- `fetch_files` (pisi/op/build.py:241-283): what is fetched, and where it is
put. -/
def fetchFiles (specuri tmp : Str) (s : Source) : List (Str × Str) :=
  let u := dirname specuri
  let d := destDir specuri tmp
  download (joinPath u [actionsFile]) d ::
    (s.patches.map (fetchBelow u d) ++ s.scripts.map (fetchScript u d) ++
      s.additional.map (fetchBelow u d))

/-- The files that a build reads: the actions script (pisi/op/build.py:375),
the patches (482-486), the scripts, read in `specdir` (800-803), and the
additional files, read there too (750-753). -/
def reads (specdir : Str) (s : Source) : List Str :=
  joinPath specdir [actionsFile] ::
    (s.patches.map (fun p => joinPath (joinPath specdir [filesDir]) [p]) ++
      s.scripts.map (fun c => osJoin specdir (joinPath comarDir [c])) ++
      s.additional.map (fun a => osJoin specdir (osJoin filesDir a)))

/-- Where an additional file is put (pisi/op/build.py:751, 754):
`os.path.join(install_dir + os.path.dirname(afile.target),
os.path.basename(afile.target))`. -/
def additionalDest (install target : Str) : Str :=
  osJoin (install ++ dirname target) (basename target)

end Pisi.RemoteBuild
