import Verif.Model.PkgName

/-!
# The command info

pisi/cli/info.py:56-136 and pisi/op/info.py:31-39.  `pisi.api` has `info_file` only (pisi/api.py:154): neither `info` nor
`info_name` is in it, so that calling them raises `AttributeError`.  `index.add_component` (pisi/data/index.py:137-141) takes
the path of a file, not a component, and raises when it is given one.
-/
namespace Pisi.Info

/-- The options of pisi/cli/info.py:44-54. -/
structure Opts where
  files : Bool := false
  filesPath : Bool := false
  short : Bool := false
  xml : Bool := false

/-- What `info_file` gives for a package file (pisi/op/info.py:31-39): its package, the components the package depends on,
and its list of files. -/
structure PkgFile (ρ φ : Type) where
  pkg : ρ
  compDeps : List Str
  list : List φ

/-- What the command asks for: the union component of a name, whether a package with the name is installed or in a repository,
and what is read from a package file, `none` if it is missing or cannot be read.  `shown` says whether `unicode(component)` goes
without error. -/
structure View (κ ρ φ : Type) where
  comp : Str → Option κ
  shown : κ → Bool
  installed : Str → Bool
  inRepos : Str → Bool
  file : Str → Option (PkgFile ρ φ)

/-- What is printed. -/
inductive Out (κ ρ φ : Type) where
  | help
  | comp (c : κ)
  | compShort (c : κ)
  | packageFile (fn : Str)
  | pkg (p : ρ)
  | pkgShort (p : ρ)
  | filesHead
  | fileInfo (f : φ)
  | filePath (f : φ)
  | blank
  | found (n : Nat)

/-- What was printed, and whether the command came to its end. -/
structure Res (κ ρ φ : Type) where
  out : List (Out κ ρ φ)
  ok : Bool

variable {κ ρ φ : Type}

/-- One after the other, unless the first raises. -/
def Res.andThen (a b : Res κ ρ φ) : Res κ ρ φ := if a.ok then ⟨a.out ++ b.out, b.ok⟩ else a

/-- `unicode(metadata.package)`, pisi/data/metadata.py:58-64 and pisi/data/specfile.py:205-224: the components it depends on are
strings, which have no attribute `package`. -/
def packageText (f : PkgFile ρ φ) : Res κ ρ φ := if f.compDeps = [] then ⟨[.pkg f.pkg], true⟩ else ⟨[], false⟩

/-- The list of files, pisi/cli/info.py:124-134; `sort` is `list.sort(key = ...)`. -/
def filesText (sort : List φ → List φ) (o : Opts) (f : PkgFile ρ φ) : Res κ ρ φ :=
  if o.files || o.filesPath then
    ⟨.filesHead :: (sort f.list).map (fun x => if o.files then .fileInfo x else .filePath x), true⟩
  else ⟨[], true⟩

/-- `print_pkginfo(metadata, files)`, pisi/cli/info.py:113-136. -/
def printPkg (sort : List φ → List φ) (o : Opts) (f : PkgFile ρ φ) : Res κ ρ φ :=
  ((if o.short then ⟨[.pkgShort f.pkg], true⟩ else packageText f).andThen (filesText sort o f)).andThen
    (if o.short then ⟨[], true⟩ else ⟨[.blank], true⟩)

/-- `info_package`, pisi/cli/info.py:91-111. -/
def infoPackage (sort : List φ → List φ) (o : Opts) (w : View κ ρ φ) (arg : Str) : Res κ ρ φ :=
  if PkgName.packageSuffix.isSuffixOf arg then match w.file arg with
    | none => ⟨[], false⟩
    | some f => Res.andThen ⟨[.packageFile arg], true⟩ (printPkg sort o f)
  else if w.installed arg then ⟨[], false⟩
  else if w.inRepos arg then ⟨[], false⟩
  else ⟨[], true⟩

/-- The body of the loop, pisi/cli/info.py:68-81. -/
def infoArg (sort : List φ → List φ) (o : Opts) (w : View κ ρ φ) (arg : Str) : Res κ ρ φ :=
  match w.comp arg with
  | some c =>
    if o.xml then ⟨[], false⟩
    else if !o.short then (if w.shown c then ⟨[.comp c], true⟩ else ⟨[], false⟩)
    else ⟨[.compShort c], true⟩
  | none => if o.xml then ⟨[], false⟩ else infoPackage sort o w arg

/-- The loop, pisi/cli/info.py:67. -/
def infoLoop (sort : List φ → List φ) (o : Opts) (w : View κ ρ φ) : List Str → Res κ ρ φ
  | [] => ⟨[], true⟩
  | a :: as => (infoArg sort o w a).andThen (infoLoop sort o w as)

/-- `Info.run`, pisi/cli/info.py:56-88.  With `--xml` the end of the loop is never reached. -/
def run (sort : List φ → List φ) (o : Opts) (w : View κ ρ φ) (args : List Str) : Res κ ρ φ :=
  if args = [] then ⟨[.help], true⟩ else infoLoop sort o w args

/-- The loop of `Search.run`, pisi/cli/search.py:71-72. -/
def searchLoop (sort : List φ → List φ) (o : Opts) (w : View κ ρ φ) : List Str → Res κ ρ φ
  | [] => ⟨[], true⟩
  | a :: as => (infoPackage sort o w a).andThen (searchLoop sort o w as)

/-- `Search.run`, pisi/cli/search.py:59-74, with at least one term; `found` are the names that `search_package_terms` gave, in their
order.  The number of packages found is printed first. -/
def search (sort : List φ → List φ) (o : Opts) (long : Bool) (w : View κ ρ φ) (found : List Str) : Res κ ρ φ :=
  Res.andThen ⟨[.found found.length], true⟩ (searchLoop sort { o with short := !long } w found)

end Pisi.Info
