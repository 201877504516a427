import Verif.Model.Unpack
import Verif.Model.Packaging

/-!
# Model of the files of a package: packing (pisi/op/build.py:817-837) and installing (pisi/archive.py:86-130,
pisi/data/package.py:119-131) in both package formats

The tar archives of the library module `tarfile` are modelled as lists of members; compression by `lzma` is left out (the
name of the compressed file is not, see `withoutSuffix`).  Owners and times are not modelled.
-/
namespace Pisi.Tar
open Pisi.Path Pisi.Unpack

/-- `"install"` -/
def installName : Str := ['i', 'n', 's', 't', 'a', 'l', 'l']
/-- `"debug"` -/
def debugName : Str := ['d', 'e', 'b', 'u', 'g']

/-- `s.lstrip(chars)` -/
def lstripChars (chars s : Str) : Str := s.dropWhile (· ∈ chars)

/-- `s.rstrip(chars)` -/
def rstripChars (chars s : Str) : Str := Path.rstrip (· ∈ chars) s

/-- The second argument of `tar.add_to_archive`, pisi/op/build.py:829-832. -/
def arcname (path : Str) : Str := lstripChars installName (joinPath installName [path])

/-- The name that `TarFile.gettarinfo` gives a member: without leading slashes.  (Some versions also normalise it; the
paths in files.xml are in normal form.) -/
def memberName (arc : Str) : Str := arc.dropWhile (· = '/')

inductive Kind where
  | file (content : Str) (mode : Nat)
  | dir (mode : Nat)
  | sym (target : Str)
  | hard (name : Str) (mode : Nat)
  deriving DecidableEq

structure TarMember where
  name : Str
  kind : Kind
  deriving DecidableEq

/-- `TarFile.add` of the path `path` below the directory `I`: `ino` gives the inodes, `seen` the inodes added so far with
the names of the members.  `none`: there is nothing at the path, the build fails.  Simplifications: the paths are those
that `os.walk` found, so that they lead through directories; only empty directories are listed, so that nothing is added
with them; a file is taken for a hard link if its inode was added under another name (the library also looks at the number
of links, which is then at least two). -/
def addTar (fs : Files) (ino : Loc → Nat) (I : Loc) (seen : List (Nat × Str)) (path : Str) :
    Option (List (Nat × Str) × TarMember) :=
  let l := I ++ names path
  let name := memberName (arcname path)
  match fs l with
  | none => none
  | some (.dir m) => some (seen, ⟨name, .dir m⟩)
  | some (.link t) => some (seen, ⟨name, .sym t⟩)
  | some (.file c m) => match seen.lookup (ino l) with
    | none => some (seen ++ [(ino l, name)], ⟨name, .file c m⟩)
    | some first => if first = name then some (seen, ⟨name, .file c m⟩) else some (seen, ⟨name, .hard first m⟩)

/-- The loop over files.xml, pisi/op/build.py:826-832.  `I` is the directory `install` of the build, or `debug` for a
debug package. -/
def packTar (fs : Files) (ino : Loc → Nat) (I : Loc) : List (Nat × Str) → List Str → Option (List TarMember)
  | _, [] => some []
  | seen, p :: ps => match addTar fs ino I seen p with
    | none => none
    | some (seen', m) => match packTar fs ino I seen' ps with
      | none => none
      | some ms => some (m :: ms)

/-! ## Extracting -/

/-- One name in `os.path.normpath`. -/
def normStep (abs : Bool) (acc : List Str) (c : Str) : List Str :=
  if c = dot then acc
  else if c = dotdot then
    if acc = [] then (if abs then [] else [dotdot])
    else if acc.getLast? = some dotdot then acc ++ [dotdot] else acc.dropLast
  else acc ++ [c]

/-- The names of `os.path.normpath(name)`. -/
def normNames (name : Str) : List Str := (names name).foldl (normStep (isAbs name)) []

/-- The directory that a name is relative to. -/
def base (T : Loc) (name : Str) : Loc := if isAbs name then [] else T

/-- Where `open(path, 'wb')` writes: links are followed, the last name may be missing. -/
def resolveNew (fs : Files) : Nat → Loc → List Str → Option Loc
  | 0, _, _ => none
  | _ + 1, cur, [] => some cur
  | n + 1, cur, c :: cs =>
    if c = dot then resolveNew fs n cur cs
    else if c = dotdot then resolveNew fs n cur.dropLast cs
    else match fs (cur ++ [c]) with
      | some (.link t) => resolveNew fs n (if isAbs t then [] else cur) (names t ++ cs)
      | some (.dir _) => resolveNew fs n (cur ++ [c]) cs
      | some (.file _ _) => if cs = [] then some (cur ++ [c]) else none
      | none => if cs = [] then some (cur ++ [c]) else none

/-- `makefile` and `chmod` of `tarfile`; the new file has the mode of the member.  The flag tells whether there was no
exception. -/
def makeFile (n : Nat) (p : List Str) (content : Str) (mode : Nat) (s : St) : St × Bool :=
  match resolveNew s.fs n [] p with
  | none => (s, false)
  | some l => match s.fs l with
    | none => (s.set l (some (.file content mode)), true)
    | some (.file _ _) => (s.set l (some (.file content mode)), true)
    | some _ => (s, false)

/-- `os.chmod`; links are followed. -/
def chmod (n : Nat) (p : List Str) (mode : Nat) (s : St) : St × Bool := match resolve s.fs n [] p with
  | none => (s, false)
  | some l => match s.fs l with
    | some (.file c _) => (s.set l (some (.file c mode)), true)
    | some (.dir _) => (s.set l (some (.dir mode)), true)
    | _ => (s, false)

/-- `makedir` and `chmod` of `tarfile`: something that is there already is no error. -/
def makeDir (n : Nat) (p : List Str) (mode : Nat) (s : St) : St × Bool := match place s.fs n p with
  | none => (s, false)
  | some l => chmod n p mode (if (s.fs l).isSome then s else s.set l (some (.dir 493)))

/-- `os.link(source, path)`.  Simplification: the new name gets a copy of the file; that both are changed by a later change
of one does not matter here, as files are removed before new ones are written and the modes are those of one file. -/
def hardLink (n : Nat) (source p : List Str) (s : St) : St × Bool := match place s.fs n source with
  | none => (s, false)
  | some a => match s.fs a with
    | none => (s, false)
    | some (.dir _) => (s, false)
    | some x => match place s.fs n p with
      | none => (s, false)
      | some l => if (s.fs l).isSome then (s, false) else (s.set l (some x), true)

/-- The directories above a member that is extracted: made if there is nothing at the path; exceptions are ignored.
Simplification: the modes of these directories depend on the version of the library. -/
def upperDirs (n : Nat) (b : Loc) (up : List Str) (s : St) : St :=
  if up ≠ [] ∧ (stat s.fs n (b ++ up)).isSome = false then (makedirs n b up 493 s).1 else s

/-- `TarFile._extract_member` -/
def extractMember (n : Nat) (T : Loc) (m : TarMember) (s : St) : St × Bool :=
  let b := base T m.name
  let p := b ++ normNames m.name
  let s := upperDirs n b (normNames m.name).dropLast s
  match m.kind with
  | .file c mode => makeFile n p c mode s
  | .dir mode => makeDir n p mode s
  | .sym t => symlink n p t s
  | .hard first mode => andThen (hardLink n (ofile T first) p s) (chmod n p mode)

/-- The body of the loop of `unpack_dir`, pisi/archive.py:110-127.  A file or link that is in the way is removed if the
archive is that of a package (`replace`).  `TarFile.extract` catches all exceptions of the operating system: an object
opened by `tarfile.open` has the `errorlevel` 0. -/
def extractOne (replace : Bool) (n : Nat) (T : Loc) (m : TarMember) (s : St) : St :=
  (extractMember n T m (if replace then (clearOld n (ofile T m.name) s).1 else s)).1

/-- `ArchiveTar.unpack_dir(target_dir)`, pisi/archive.py:86-130, with the members read from the archive. -/
def unpackTar (replace : Bool) (n : Nat) (T : Loc) (ms : List TarMember) (s : St) : St :=
  ms.foldl (fun s m => extractOne replace n T m s) s

/-- `ctx.const.lzma_suffix`, pisi/constants.py:40. -/
def lzmaSuffix : Str := ['.', 'l', 'z', 'm', 'a']
/-- `ctx.const.install_tar`, pisi/constants.py:70. -/
def installTar : Str := ['i', 'n', 's', 't', 'a', 'l', 'l', '.', 't', 'a', 'r']
/-- `ctx.const.install_tar_lzma`, pisi/constants.py:71. -/
def installTarLzma : Str := installTar ++ lzmaSuffix

/-- The name of the file that is opened after `lzma -d -f path`, pisi/archive.py:96-100. -/
def withoutSuffix (path : Str) : Str := rstripChars lzmaSuffix path

/-- `lzma -d -f path`: the file `path` is replaced by one without the suffix. -/
def lzmaOutput (path : Str) : Option Str :=
  if lzmaSuffix <:+ path then some (path.take (path.length - lzmaSuffix.length)) else none

/-- The condition `self.file_path == install_tar_path`, pisi/archive.py:108-120, for an archive at `path`. -/
def isInstallTar (tmp path : Str) : Bool := withoutSuffix path = joinPath tmp [installTar]

/-- `extract_install(outdir)` of a package with an install.tar.lzma, pisi/data/package.py:120-123; `tmp` is `tmp_dir()`. -/
def extractInstall (n : Nat) (tmp : Str) (T : Loc) (ms : List TarMember) (s : St) : St :=
  unpackTar (isInstallTar tmp (Pack.osJoin tmp installTarLzma)) n T ms s

/-! ## Source archives -/

/-- The types of source archives, pisi/archive.py:312-319. -/
inductive AType where
  | targz | tarbz2 | tarlzma | tar | zip | binary
  deriving DecidableEq

/-- The files of the archive cache by path. -/
abbrev Cache := Str → Option Str

/-- `lzma -d -f path`: the archive is replaced by what is in it; `unlzma` decompresses.  `none`: the command fails. -/
def lzmaD (unlzma : Str → Option Str) (c : Cache) (path : Str) : Option Cache := match lzmaOutput path, c path with
  | some out, some x => match unlzma x with
    | some y => some fun p => if p = path then none else if p = out then some y else c p
    | none => none
  | _, _ => none

/-- The part of `unpack_dir` and of the other `unpack` functions that reads the archive, pisi/archive.py:62-69, 86-104, 162-174:
the content that is unpacked and the files of the cache afterwards.  `none`: an exception.  For the types other than `tarlzma`
the archive is read as it is; that it has the format of its type is not modelled. -/
def readArchive (unlzma : Str → Option Str) (t : AType) (path : Str) (c : Cache) : Option (Str × Cache) := match t with
  | .tarlzma => match lzmaD unlzma c path with
    | none => none
    | some c' => (c' (withoutSuffix path)).map (·, c')
  | _ => (c path).map (·, c)

/-- `SourceArchive.unpack`, pisi/sourcearchive.py:64-77, as far as the cache goes: the hash is checked first. -/
def unpackSource (sha : Str → Str) (unlzma : Str → Option Str) (t : AType) (path hash : Str) (c : Cache) :
    Option (Str × Cache) := match c path with
  | none => none
  | some x => if sha x = hash then readArchive unlzma t path c else none

/-- `SourceArchive.is_cached`, pisi/sourcearchive.py:52-62. -/
def isCached (sha : Str → Str) (path hash : Str) (c : Cache) : Bool := match c path with
  | none => false
  | some x => sha x = hash

/-! ## The format 1.0 -/

/-- `ArchiveZip.add_to_archive(file_name, arc_name)`, pisi/archive.py:183-208, of the path `path` in the directory
`pre` (`install` or `debug`, at `I`) with the name `install/path`.  The name is used for files only. -/
def addZip (fs : Files) (I : Loc) (pre path : Str) : Option Member :=
  let org := joinPath pre [path]
  let arc := joinPath installName [path]
  match fs (I ++ names path) with
  | none => none
  | some (.dir m) => some ⟨org ++ ['/'], storedAttr true m, []⟩
  | some (.link t) => some ⟨org, symmagic, t⟩
  | some (.file c m) => some ⟨arc, storedAttr false m, c⟩

/-- The loop for the format 1.0, pisi/op/build.py:817-822. -/
def packZip (fs : Files) (I : Loc) (pre : Str) : List Str → Option (List Member)
  | [] => some []
  | p :: ps => match addZip fs I pre p with
    | none => none
    | some m => match packZip fs I pre ps with
      | none => none
      | some ms => some (m :: ms)

end Pisi.Tar
