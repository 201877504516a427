import Verif.Model.PackageDB
import Verif.Model.Packaging
import Verif.Model.Uri

/-!
# Building an index of a directory, pisi/data/index.py:85-169, and finding packages by it, pisi/op/install.py:54-73,
pisi/op/build.py:100-121 and pisi/data/package.py:36-93

`os.walk` lists directories in an order that is up to the operating system: its result is a parameter.  What reading a file
gives is kept with the file.  That the index file is read back as it was written is the subject of C51 and C112.
-/
namespace Pisi.Indexing
open Pisi.DB
variable {α : Type} [DecidableEq α]

/-- What a file gives when it is read as a package, pisi/data/index.py:114-134: an exception (no zip file, no metadata.xml, a
member missing), metadata with errors, or metadata. -/
inductive PkgFile (α : Type) where
  | broken
  | invalid
  | good (m : Meta α)

/-- What a file gives when it is read as a package, a component, a specification (`none`: an exception), a distribution
(`false`: an exception). -/
structure Content (α : Type) where
  pkg : PkgFile α := .broken
  comp : Option (α × Comp α) := none
  spec : Option (SrcSpec α) := none
  distro : Bool := false

/-- The result of `os.walk(repo_uri)`: for each directory the names leading to it from the top, and its files.  The top comes
first. -/
abbrev Walk (α : Type) := List (List Str × List (Str × Content α))

/-- Exceptions. -/
inductive IxErr where
  /-- reading a file raises -/
  | read
  /-- ImportError: there is no module `fetcher` for pisi/data/package.py:43 (it is pisi/fetcher.py, not pisi/data/fetcher.py) -/
  | import_
  /-- assertion of `remove_prefix`, pisi/util/fun.py:63 -/
  | assertion
  deriving DecidableEq

/-- `".pisi"`, pisi/constants.py:36. -/
def pkgSuffix : Str := ['.', 'p', 'i', 's', 'i']

/-- `fn.endswith(ctx.const.package_suffix)` -/
def isPkg (fn : Str) : Bool := pkgSuffix.isSuffixOf fn

def componentXml : Str := ['c', 'o', 'm', 'p', 'o', 'n', 'e', 'n', 't', '.', 'x', 'm', 'l']

def pspecXml : Str := ['p', 's', 'p', 'e', 'c', '.', 'x', 'm', 'l']

def distributionXml : Str := ['d', 'i', 's', 't', 'r', 'i', 'b', 'u', 't', 'i', 'o', 'n', '.', 'x', 'm', 'l']

/-- The options of `pisi index`. -/
structure Opts where
  skipSources : Bool := false
  nonRecursive : Bool := false
  /-- `--absolute-uris`: `os.path.realpath` -/
  realpath : Option (Str → Str) := none

/-- The URI kept with a package or source, pisi/data/index.py:122-128, 164-167. -/
def uriOf (o : Opts) (repoUri path : Str) : Except IxErr Str :=
  match o.realpath with
  | some f => .ok (f path)
  | none => match Path.removepathprefix repoUri path with
    | .ok u => .ok u
    | .error _ => .error .assertion

/-- `add_package(path, repo_uri)`, pisi/data/index.py:113-134; `Package(path)` for a remote path ends in the ImportError. -/
def addPackage (o : Opts) (repoUri path : Str) (c : Content α) (ix : Index α) : Except IxErr (Index α) :=
  if Uri.isRemote path then .error .import_ else
  match c.pkg with
  | .broken => .error .read
  | .invalid => match uriOf o repoUri path with
    | .error e => .error e
    | .ok _ => .ok ix
  | .good m => match uriOf o repoUri path with
    | .error e => .error e
    | .ok u => .ok { ix with packages := ix.packages ++ [{ m with uri := u }] }

/-- `add_component(path)`, pisi/data/index.py:137-144. -/
def addComponent (c : Content α) (ix : Index α) : Except IxErr (Index α) :=
  match c.comp with
  | none => .error .read
  | some x => .ok { ix with components := ix.components ++ [x] }

/-- `add_distro(path)`, pisi/data/index.py:146-153. -/
def addDistro (c : Content α) (ix : Index α) : Except IxErr (Index α) :=
  if c.distro then .ok ix else .error .read

/-- `add_spec(path, repo_uri)`, pisi/data/index.py:155-169. -/
def addSpec (o : Opts) (repoUri path : Str) (c : Content α) (ix : Index α) : Except IxErr (Index α) :=
  match c.spec with
  | none => .error .read
  | some s => match uriOf o repoUri path with
    | .error e => .error e
    | .ok u => .ok { ix with specs := ix.specs ++ [{ s with uri := u }] }

/-- The body of the inner loop of `index`, pisi/data/index.py:88-98. -/
def addFile (o : Opts) (repoUri root : Str) (ix : Index α) (f : Str × Content α) : Except IxErr (Index α) :=
  let path := Pack.osJoin root f.1
  match (if isPkg f.1 then addPackage o repoUri path f.2 ix else .ok ix) with
  | .error e => .error e
  | .ok ix =>
    match (if f.1 = componentXml then addComponent f.2 ix else .ok ix) with
    | .error e => .error e
    | .ok ix =>
      match (if f.1 = pspecXml ∧ o.skipSources = false then addSpec o repoUri path f.2 ix else .ok ix) with
      | .error e => .error e
      | .ok ix => if f.1 = distributionXml then addDistro f.2 ix else .ok ix

/-- The path that `os.walk(repo_uri)` gives for a directory. -/
def rootOf (repoUri : Str) (d : List Str) : Str := d.foldl Pack.osJoin repoUri

/-- The loops of `index(repo_uri, skip_sources, non_recursive)`, pisi/data/index.py:85-100. -/
def addDirs (o : Opts) (repoUri : Str) : Walk α → Index α → Except IxErr (Index α)
  | [], ix => .ok ix
  | (d, fs) :: w, ix =>
    match forM' (addFile o repoUri (rootOf repoUri d)) fs ix with
    | .error e => .error e
    | .ok ix => addDirs o repoUri w ix

/-- `index(repo_uri, …)`: with `non_recursive` the directories below the top are not visited. -/
def indexDir (o : Opts) (repoUri : Str) (w : Walk α) (ix : Index α) : Except IxErr (Index α) :=
  addDirs o repoUri (if o.nonRecursive then w.take 1 else w) ix

/-- The loop over the directories given, pisi/op/index.py:36-41. -/
def indexDirs (o : Opts) : List (Str × Walk α) → Index α → Except IxErr (Index α)
  | [], ix => .ok ix
  | (r, w) :: ds, ix => match indexDir o r w ix with
    | .error e => .error e
    | .ok ix => indexDirs o ds ix

/-! ### From the index to the file -/

/-- Exceptions of `from_name`. -/
inductive FindErr where
  | repo (e : RErr)
  | item (e : IErr)
  /-- IndexError of `absolute_path`, pisi/util/path.py:78 -/
  | index
  /-- "Package %s not found in any active repository." -/
  | notFound
  /-- ImportError, see above -/
  | import_
  deriving DecidableEq

/-- The path of an item, pisi/op/install.py:62-68 and pisi/op/build.py:108-115. -/
def resolve (indexUri : Except FindErr Str) (uri : Str) : Except FindErr Str :=
  match Path.absolutePath (Uri.path uri) with
  | .error _ => .error .index
  | .ok true => .ok uri
  | .ok false => match indexUri with
    | .error e => .error e
    | .ok i => .ok (Pack.osJoin (FS.dirname i) (Uri.path uri))

/-- `Package(packagefn)`, pisi/data/package.py:36-93: the path that is opened.  For a remote file the ImportError. -/
def openPackage (fn : Str) : Except FindErr Str := if Uri.isRemote fn then .error .import_ else .ok fn

/-- `Install.from_name(name)`, pisi/op/install.py:53-75, up to opening the package; the entries of the repository database
are the URIs of the indices. -/
def fromName (y : System α Str) (name : α) : Except FindErr Str :=
  match y.repos.list with
  | .error e => .error (.repo e)
  | .ok l => match y.stores.pkg.whichRepo l name with
    | .error e => .error (.item e)
    | .ok (.repo (c :: n)) => match y.repos.getRepo (c :: n) with
      | .error e => .error (.repo e)
      | .ok indexUri => match y.stores.pkg.getItem l name .repos with
        | .error e => .error (.item e)
        | .ok m => match resolve (.ok indexUri) m.uri with
          | .error e => .error e
          | .ok p => openPackage p
    | .ok _ => .error .notFound

/-- `Builder.from_name(name)`, pisi/op/build.py:101-121: the path of the specification. -/
def sourceFromName (y : System α Str) (name : α) : Except FindErr Str :=
  match y.repos.list with
  | .error e => .error (.repo e)
  | .ok l => match y.stores.src.getItemRepo l name .repos with
    | .error e => .error (.item e)
    | .ok (sp, .repo n) => resolve (match y.repos.getRepo n with
      | .error e => .error (.repo e)
      | .ok i => .ok i) sp.uri
    | .ok _ => .error .notFound

end Pisi.Indexing
