import Verif.Model.FS

/-!
# Collecting built files into packages, pisi/op/build.py:50-93, 347-369, 563-639 and pisi/util/fs.py:58-80, 109-191

The build root is a part of the file system of `Model/FS.lean`.  `glob.glob` and `os.walk` list directories in an order
that is up to the operating system: both are parameters (`glob`, `walk`), the theorems hold for all results they may give.

Simplifications: the time stamps in static archives (`clean_ar_timestamps`) are zero already; the assertion of
`remove_prefix` in `get_file_hashes` is left out, since it is only called on paths beginning with the directory that is
removed; special files are not modelled.
-/
namespace Pisi.Pack
open Pisi.FS

/-- One entry of `os.walk`: directory, names of subdirectories (links to directories included), names of other files. -/
abbrev Triple := Str × List Str × List Str

/-- `specfile.Path`, pisi/data/specfile.py:108-112. -/
structure PathInfo where
  path : Str
  fileType : Option Str := none
  permanent : Option Str := none
  deriving DecidableEq

/-- The part of `specfile.Package` used here, pisi/data/specfile.py:166-190. -/
structure Pkg where
  name : Str
  files : List PathInfo

/-- `FileInfo`, pisi/data/files.py:19-34. -/
structure FileInfo where
  path : Str
  type : Option Str
  permanent : Option Str
  size : Nat
  hash : Option Str
  deriving DecidableEq

/-- Options: `create_static` on the command line, `generatedebug` in the configuration. -/
structure Opts where
  createStatic : Bool := false
  generateDebug : Bool := false

/-- `s.endswith(t)` -/
def endsWith (s t : Str) : Bool := Path.suffix t s
/-- `s.startswith(t)` -/
def startsWith (s t : Str) : Bool := Path.prefix t s

/-- `ctx.const.ar_file_suffix`, pisi/constants.py:51. -/
def arSuffix : Str := ['.', 'a']
/-- `ctx.const.debug_file_suffix`, pisi/constants.py:47. -/
def debugSuffix : Str := ['.', 'd', 'e', 'b', 'u', 'g']
/-- `ctx.const.static_name_suffix`, pisi/constants.py:50. -/
def staticSuffix : Str := ['-', 's', 't', 'a', 't', 'i', 'c']

/-- `check_path_collision(package, pkgList)`, pisi/op/build.py:69-93; `others` is `pkgList` without `package` itself. -/
def pathCollision (o : Opts) (package : Pkg) (others : List Pkg) : List Str :=
  package.files.flatMap fun pinfo => others.flatMap fun pkg => pkg.files.filterMap fun path =>
    if (endsWith path.path arSuffix && o.createStatic) || (endsWith path.path debugSuffix && o.generateDebug) then none
    else if Path.subpath pinfo.path path.path then some path.path
    else none

/-- `has_excluded_prefix`, pisi/util/fs.py:142-148. -/
def excluded (ex : List Str) (rm f : Str) : Bool :=
  !ex.isEmpty && !rm.isEmpty && ex.any fun p => startsWith (f.drop rm.length) p

section
variable (sha : Str → Str) (fs : FS)

/-- `os.readlink` of a path known to be a link. -/
def readlink (p : Str) : Str := match fs.get p with
  | some (.link t) => t
  | _ => []

/-- `sha1_sum(f)` in `get_file_hashes`, pisi/util/fs.py:117-140; an archive is opened by `clean_ar_timestamps` first. -/
def hashFile (f : Str) : Except FErr (Option Str) :=
  if endsWith f arSuffix && !isFile fs f then .error .os
  else match sha1File sha fs f with
    | some h => .ok (some h)
    | none => if isLink fs f || isDir fs f then .ok none else .error .file

/-- What the generator yields: a path and its hash, or the exception raised instead. -/
abbrev Item := Str × Except FErr (Option Str)

/-- `yield (f, sha1_sum(os.readlink(f), True))` -/
def linkItem (f : Str) : Item := (f, .ok (some (sha (readlink fs f))))

/-- The loop over subdirectories, pisi/util/fs.py:170-174. -/
def walkDirs (rm root : Str) : List Str → List Str → List Item × List Str
  | [], ex => ([], ex)
  | d :: ds, ex =>
    let p := Path.joinPath root [d]
    if isLink fs p && !excluded ex rm p then
      let r := walkDirs rm root ds (ex ++ [p.drop rm.length ++ ['/']])
      (linkItem sha fs p :: r.1, r.2)
    else walkDirs rm root ds ex

/-- The loop over other files, pisi/util/fs.py:183-191. -/
def walkFiles (rm root : Str) (ex : List Str) (ns : List Str) : List Item :=
  ns.filterMap fun n =>
    let f := Path.joinPath root [n]
    if excluded ex rm f then none
    else if isLink fs f then some (linkItem sha fs f)
    else some (f, hashFile sha fs f)

/-- One directory, pisi/util/fs.py:162-191.  The inner walk ends with the entry of the directory itself. -/
def walkRoot (rm : Str) (t : Triple) (ex : List Str) : List Item × List Str :=
  if isLink fs t.1 && !excluded ex rm t.1 then
    ([linkItem sha fs t.1], ex ++ [t.1.drop rm.length ++ ['/']])
  else
    let a := walkDirs sha fs rm t.1 t.2.1 ex
    let b := if isDir fs t.1 && !excluded a.2 rm t.1 && t.2.1.isEmpty && t.2.2.isEmpty then [(t.1, hashFile sha fs t.1)] else []
    (a.1 ++ b ++ walkFiles sha fs rm t.1 a.2 t.2.2, a.2)

/-- The loop over directories; the list of excluded prefixes grows on the way. -/
def walkAll (rm : Str) : List Triple → List Str → List Item × List Str
  | [], ex => ([], ex)
  | t :: ts, ex =>
    let a := walkRoot sha fs rm t ex
    let b := walkAll rm ts a.2
    (a.1 ++ b.1, b.2)

variable (walk : Str → List Triple)

/-- `get_file_hashes(top, excludePrefix, removePrefix)`, pisi/util/fs.py:109-191; also gives the list `excludePrefix` as it is
left for the caller. -/
def fileHashes (rm top : Str) (ex : List Str) : List Item × List Str :=
  if isFile fs top then ([(top, hashFile sha fs top)], ex)
  else if isLink fs top then ([linkItem sha fs top], ex)
  else walkAll sha fs rm (walk top) ex

/-- `os.path.getsize` -/
def getsize (p : Str) : Nat := match stat fs p with
  | some (.file c) => c.length
  | _ => 0

/-- The size of a directory entry, pisi/util/fs.py:78-79. -/
def entrySize (p : Str) : Nat := if isLink fs p then (readlink fs p).length else getsize fs p

/-- `dir_size(dir)`, pisi/util/fs.py:58-80. -/
def dirSize (p : Str) : Nat :=
  if existsP fs p && (!isDir fs p && !isLink fs p) then getsize fs p
  else if isLink fs p then (readlink fs p).length
  else ((walk p).map fun t => (t.2.2.map fun n => entrySize fs (Path.joinPath t.1 [n])).sum).sum

/-- `s.strip()` -/
def strip (s : Str) : Str := Path.rstrip isSpace (s.dropWhile isSpace)

/-- `is_ar_file`, pisi/util/fs.py:90-91. -/
def isArFile (f : Str) : Except FErr Bool := match stat fs f with
  | some (.file c) => .ok (strip (c.takeWhile (· ≠ '\n')) = ['!', '<', 'a', 'r', 'c', 'h', '>'])
  | _ => .error .os

variable (glob : Str → List Str)

/-- `os.path.join(a, b)` -/
def osJoin (a b : Str) : Str :=
  if b.head? = some '/' then b
  else if a = [] ∨ a.getLast? = some '/' then a ++ b
  else a ++ '/' :: b

/-- `a < b` on Python strings. -/
def strLt : Str → Str → Bool
  | _, [] => false
  | [], _ :: _ => true
  | x :: xs, y :: ys => if x.toNat < y.toNat then true else if y.toNat < x.toNat then false else strLt xs ys

/-- The first element after `x.sort(reverse=True)`. -/
def greatest : List Str → Option Str
  | [] => none
  | x :: xs => some (xs.foldl (fun m y => if strLt m y then y else m) x)

/-- `get_file_type(path, pinfo_list, install_dir)`, pisi/op/build.py:51-67. -/
def fileType (path : Str) (pinfos : List PathInfo) (inst : Str) : Except FErr (Option Str × Option Str) :=
  let ms := pinfos.filter fun i => (glob (inst ++ i.path)).any fun m => decide (m <:+: osJoin inst path)
  match greatest (ms.map (·.path)) with
  | none => .error .pisi
  | some b => match pinfos.find? (fun i => b = i.path) with
    | none => .error .other   -- unreachable
    | some i => .ok (i.fileType, i.permanent)

/-- One turn of the loop of `add_path`, pisi/op/build.py:615-627. -/
def addItem (o : Opts) (pkg : Pkg) (inst : Str) (d : Dict Str FileInfo) (it : Item) : Except FErr (Dict Str FileInfo) := do
  let h ← it.2
  let f := it.1
  let skip ← if o.createStatic && endsWith f arSuffix && !endsWith pkg.name staticSuffix then isArFile fs f else .ok false
  if skip then .ok d
  else
    let frpath ← (Path.removepathprefix inst f).mapError fun _ => .assertion
    let (t, p) ← fileType glob frpath pkg.files inst
    .ok (d.put frpath ⟨frpath, t, p, dirSize fs walk f, h⟩)

/-- `add_path(path)`, pisi/op/build.py:613-627. -/
def addPath (o : Opts) (pkg : Pkg) (inst : Str) (st : Dict Str FileInfo × List Str) (path : Str) :
    Except FErr (Dict Str FileInfo × List Str) := do
  let r := fileHashes sha fs walk inst path st.2
  let d ← r.1.foldlM (addItem fs walk glob o pkg inst) st.1
  .ok (d, r.2)

/-- The paths the specification of a package expands to, pisi/op/build.py:629-632. -/
def expand (pkg : Pkg) (inst : Str) : List Str :=
  pkg.files.flatMap fun i => glob (Path.joinPath inst [i.path])

/-- `gen_files_xml(package)`, pisi/op/build.py:593-639: the entries of `files.xml`.  `inst` is the directory of the package,
`others` the other packages of the specification. -/
def genFiles (o : Opts) (pkg : Pkg) (others : List Pkg) (inst : Str) : Except FErr (Dict Str FileInfo) := do
  let r ← (expand glob pkg inst).foldlM (addPath sha fs walk glob o pkg inst) ([], pathCollision o pkg others)
  .ok r.1

/-- `installedSize` in `gen_metadata_xml(package)`, pisi/op/build.py:574-584. -/
def installedSize (pkg : Pkg) (inst : Str) : Nat := ((expand glob pkg inst).map (dirSize fs walk)).sum

/-- `get_abandoned_files()`, pisi/op/build.py:347-369; `not fpath.find(path)` holds when `fpath` begins with `path`. -/
def abandoned (pkgs : List Pkg) (inst : Str) : List Str :=
  let all := pkgs.flatMap fun p => p.files.flatMap fun i => glob (inst ++ i.path)
  (walk inst).flatMap fun t => t.2.2.filterMap fun n =>
    let f := Path.joinPath t.1 [n]
    if all.any fun p => startsWith f p then none else some f

end
end Pisi.Pack
