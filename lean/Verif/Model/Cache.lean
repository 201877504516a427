import Verif.Model.ActionsFS
import Verif.Model.Config
import Verif.Model.Packaging

/-!
# Model of emptying the cache

`delete_cache` of `pisi/api.py` with the functions of `pisi/util/fs.py` and `pisi/config.py` it uses, on the file system of
`Model/ActionsFS.lean`.
-/
namespace Pisi.Cache
open Pisi.Act

/-- `check_dir`, pisi/util/fs.py:38-43. -/
def checkDir (cwd d : Str) : Act := fun fs =>
  let d' := Path.rstrip (· = '/') (Pack.strip d)
  if d' ≠ [] ∧ existsC fs (absComps cwd d') then (fs, .ok ()) else makedirsC [] (absComps cwd d') fs

/-- `clean_dir`, pisi/util/fs.py:45-49. -/
def cleanDir (cwd d : Str) : Act := fun fs =>
  if existsC fs (absComps cwd d) then call (rmtreeC (absComps cwd d)) fs else (fs, .ok ())

/-- What the functions depend on: the working directory, the destination directory, the three directories of the configuration,
whether the directory for temporary files can be written to, and the variable `USER`. -/
structure Cfg where
  cwd : Str
  dest : Str
  packages : Str
  archives : Str
  tmp : Str
  writable : Bool
  user : Option Str
  deriving DecidableEq

/-- `delete_cache`, pisi/api.py:138-141; the directories are made before they are emptied (`subdir`, pisi/config.py:82-85). -/
def deleteCache (c : Cfg) : Act :=
  seq (checkDir c.cwd (Config.subdir c.dest c.packages)) <| seq (cleanDir c.cwd (Config.subdir c.dest c.packages)) <|
  seq (checkDir c.cwd (Config.subdir c.dest c.archives)) <| seq (cleanDir c.cwd (Config.subdir c.dest c.archives)) <|
  seq (checkDir c.cwd (Config.subdir c.dest c.tmp)) (cleanDir c.cwd (Config.tmpDir c.dest c.tmp c.writable c.user))

end Pisi.Cache
