import Verif.Model.World
import Verif.Model.PkgName
import Verif.Model.Packaging

/-!
# From the specification to the metadata of a package

pisi/data/specfile.py:149-284, pisi/data/metadata.py:37-105 and pisi/op/build.py:290-308, 421-469, 496-549, 561-591.

Reading and writing XML is modelled in `Model/Xml.lean`; here a specification is what `decode` delivers, before
`read_hook` is called.  A missing string is `none`, a missing localised text the empty dictionary, a missing list `[]`.
Members that are only copied have types of no significance (`Str`).
-/
namespace Pisi.Pspec

/-- `Update`, pisi/data/specfile.py:89-97. -/
structure Update where
  release : Str
  version : Str
  date : Str := []
  type : Option Str := none
  deriving DecidableEq

/-- A localised text, pisi/exml/autoxml.py:69-97. -/
abbrev LocalText := Dict Str Str

/-- `specfile.Source`, pisi/data/specfile.py:149-166, without archive and patches; `history` is set by `merge_tags`. -/
structure Source where
  name : Str
  homepage : Option Str := none
  packager : Str := []
  summary : LocalText := []
  description : LocalText := []
  isA : List Str := []
  partOf : Option Str := none
  icon : Option Str := none
  license : List Str := []
  buildDeps : List (Dep Str) := []
  version : Option Str := none
  release : Option Str := none
  history : List Update := []
  deriving DecidableEq

/-- `specfile.Package`, pisi/data/specfile.py:169-186. -/
structure Package where
  name : Str
  summary : LocalText := []
  description : LocalText := []
  isA : List Str := []
  partOf : Option Str := none
  license : List Str := []
  icon : Option Str := none
  deps : List (Dep Str) := []
  compDeps : List Str := []
  files : List Pack.PathInfo := []
  conflicts : List Str := []
  comar : List Str := []
  additional : List Str := []
  history : List Update := []
  deriving DecidableEq

/-- `SpecFile`, pisi/data/specfile.py:227-235. -/
structure SpecFile where
  source : Source
  packages : List Package
  history : List Update
  deriving DecidableEq

/-- Errors. -/
inductive SErr where
  /-- `IndexError` of `history[0]` -/
  | index
  /-- `AttributeError` -/
  | attribute
  /-- `NameError` -/
  | name
  /-- `Exception('Cannot find component.xml in upper directory')` -/
  | noComponent
  /-- `TypeError` -/
  | typeErr
  /-- `build.Error`: the build dependencies are not satisfied -/
  | unsatisfied
  /-- an error of the databases -/
  | db (e : PErr Str)
  deriving DecidableEq

/-- `not s` for a string or `None`. -/
def falsy : Option Str → Bool
  | none => true
  | some s => s.isEmpty

/-- `history[0].version`, pisi/data/specfile.py:256 -/
def lastVersion (h : List Update) : Except SErr Str := match h with
  | [] => .error .index
  | u :: _ => .ok u.version

/-- `history[0].release`, pisi/data/specfile.py:258 -/
def lastRelease (h : List Update) : Except SErr Str := match h with
  | [] => .error .index
  | u :: _ => .ok u.release

/-- `merge_tags()`, pisi/data/specfile.py:242-264. -/
def mergeTags (s : SpecFile) : Except SErr SpecFile := do
  let src := { s.source with history := s.history }
  let src ← if falsy src.version then do .ok { src with version := some (← lastVersion s.history) } else .ok src
  let src ← if falsy src.release then do .ok { src with release := some (← lastRelease s.history) } else .ok src
  .ok { s with source := src, packages := s.packages.map fun p => { p with isA := p.isA ++ src.isA, history := s.history } }

/-- One turn of the loop of `override_tags`, pisi/data/specfile.py:272-282. -/
def overridePkg (src : Source) (p : Package) : Package :=
  let p := if p.summary.isEmpty then { p with summary := src.summary } else p
  let p := if p.description.isEmpty then { p with description := src.description } else p
  let p := if falsy p.partOf then { p with partOf := src.partOf } else p
  let p := if p.license.isEmpty then { p with license := src.license } else p
  if falsy p.icon then { p with icon := src.icon } else p

/-- `override_tags()`, pisi/data/specfile.py:266-284. -/
def overrideTags (s : SpecFile) : SpecFile := { s with packages := s.packages.map (overridePkg s.source) }

/-- `read_hook`, pisi/data/specfile.py:237-240. -/
def readHook (s : SpecFile) : Except SErr SpecFile := do .ok (overrideTags (← mergeTags s))

/-- `fetch_component()`, pisi/op/build.py:290-308; `comp` is the name in `component.xml` of the parent directory, if there is
one. -/
def fetchComponent (comp : Option Str) (s : SpecFile) : Except SErr SpecFile :=
  if falsy s.source.partOf then
    match comp with
    | none => .error .noComponent
    | some c => .ok (overrideTags { s with source := { s.source with partOf := some c } })
  else .ok s

/-- `metadata.Source`, pisi/data/metadata.py:30-35, with the version and release set by `from_spec`. -/
structure MSource where
  name : Str
  homepage : Option Str
  packager : Str
  deriving DecidableEq

/-- `metadata.Package`, pisi/data/metadata.py:37-63.  `version` and `release` are not written to the file. -/
structure MPackage where
  name : Str
  summary : LocalText
  description : LocalText
  icon : Option Str
  isA : List Str
  partOf : Option Str
  license : List Str
  deps : List (Dep Str)
  compDeps : List Str
  files : List Pack.PathInfo
  history : List Update
  conflicts : List Str
  comar : List Str
  additional : List Str
  version : Option Str
  release : Option Str
  build : Option Nat
  distribution : Str
  distributionRelease : Str
  architecture : Str
  installedSize : Nat
  packageFormat : Option Str
  deriving DecidableEq

/-- `MetaData`, pisi/data/metadata.py:66-75. -/
structure MetaData where
  source : MSource
  package : MPackage
  deriving DecidableEq

/-- The settings that go into the metadata. -/
structure Settings where
  distribution : Str
  distributionRelease : Str
  packageFormat : Option Str

/-- `gen_metadata_xml(package, build_no)`, pisi/op/build.py:561-591, with `from_spec(src, pkg)`, pisi/data/metadata.py:78-105.
`size` is computed as in `Pack.installedSize`. -/
def genMetadata (c : Settings) (src : Source) (pkg : Package) (size : Nat) (build : Option Nat) : MetaData :=
  { source := ⟨src.name, src.homepage, src.packager⟩
    package :=
      { name := pkg.name, summary := pkg.summary, description := pkg.description, icon := pkg.icon, isA := pkg.isA,
        partOf := pkg.partOf, license := pkg.license, deps := pkg.deps, compDeps := pkg.compDeps, files := pkg.files,
        history := src.history, conflicts := pkg.conflicts, comar := pkg.comar, additional := pkg.additional,
        version := src.version, release := src.release, build := build, distribution := c.distribution,
        distributionRelease := c.distributionRelease, architecture := ['A', 'n', 'y'], installedSize := size,
        packageFormat := c.packageFormat } }

/-- What is read back from `metadata.xml`: `version` and `release` are set by `decode_hook`, pisi/data/metadata.py:54-56.
That all other members survive is the subject of `Props/Xml.lean`. -/
def readBack (m : MetaData) : Except SErr MetaData := do
  let v ← lastVersion m.package.history
  let r ← lastRelease m.package.history
  .ok { m with package := { m.package with version := some v, release := some r } }

/-- The name of the package file, pisi/op/build.py:775-778; adding `None` to a string raises `TypeError`. -/
def fileName (src : Source) (m : MetaData) : Except SErr Str := match src.version, src.release with
  | some v, some r => .ok (PkgName.packageName m.package.name v r m.package.build)
  | _, _ => .error .typeErr

/-- A built package: its file name and the metadata as a later installation reads them. -/
def builtPackage (c : Settings) (comp : Option Str) (s : SpecFile) (pkg : Nat) (size : Nat) (build : Option Nat) :
    Except SErr (Str × MetaData) := do
  let s ← readHook s
  let s ← fetchComponent comp s
  match s.packages[pkg]? with
  | none => .error .index
  | some p =>
    let m := genMetadata c s.source p size build
    let fn ← fileName s.source m
    .ok (fn, ← readBack m)

/-! ## Static packages -/

/-- The files that are archives, pisi/op/build.py:499-502. -/
def arFiles (isAr : Str → Except SErr Bool) : List Str → Except SErr (List Str)
  | [] => .ok []
  | f :: fs => match isAr f with
    | .error e => .error e
    | .ok b => match arFiles isAr fs with
      | .error e => .error e
      | .ok r => .ok (if b then f :: r else r)

/-- `generate_static_package_object()`, pisi/op/build.py:498-522: there is no `pisi.specfile` (the module is
`pisi.data.specfile`), so the attribute access fails as soon as there is a library.  `isAr` stands for `is_ar_file`. -/
def staticPackage (walk : List Pack.Triple) (isAr : Str → Except SErr Bool) : Except SErr (Option Package) := do
  let names := walk.flatMap fun t => (t.2.2.filter fun f => Pack.endsWith f Pack.arSuffix).map fun f => Path.joinPath t.1 [f]
  let ars ← arFiles isAr names
  if ars = [] then .ok none else .error .attribute

/-- `generate_debug_package_object()`, pisi/op/build.py:524-549, which fails in the same way. -/
def debugPackage (walk : List Pack.Triple) : Except SErr (Option Package) :=
  let names := walk.flatMap fun t => (t.2.2.filter fun f => Pack.endsWith f Pack.debugSuffix).map fun f => Path.joinPath t.1 [f]
  if names = [] then .ok none else .error .attribute

/-! ## Build dependencies -/

/-- Options and answers. -/
structure BuildOpts where
  bypassSafety : Bool := false
  noInstall : Bool := false
  ignoreDependency : Bool := false
  /-- the answer to the question -/
  confirm : Bool := true

/-- The dependencies that are not satisfied, pisi/op/build.py:444-448. -/
def unsatisfied (w : World Str) : List (Dep Str) → Except SErr (List (Dep Str))
  | [] => .ok []
  | d :: ds => match w.installedSatisfies d with
    | .error e => .error (.db e)
    | .ok b => match unsatisfied w ds with
      | .error e => .error e
      | .ok r => .ok (if b then r else d :: r)

/-- `for dep in dep_unsatis: if not repo_satisfies_dep(dep): raise`, pisi/op/build.py:458-460. -/
def repoHasAll (w : World Str) : List (Dep Str) → Except SErr Unit
  | [] => .ok ()
  | d :: ds => match w.repoSatisfies d with
    | .error e => .error (.db e)
    | .ok false => .error .unsatisfied
    | .ok true => repoHasAll w ds

/-- The extra dependencies on system.devel, pisi/op/build.py:426-436; `devel` are the packages of the component, if it
exists. -/
def develDeps (w : World Str) (o : BuildOpts) (devel : Option (List Str)) (deps : List (Dep Str)) : List (Dep Str) :=
  if o.bypassSafety then []
  else match devel with
    | none => []
    | some l => (l.filter fun x => !(deps.map Dep.package).contains x && !w.isInstalled x).map fun x => { package := x }

/-- `check_build_dependencies()`, pisi/op/build.py:421-469.  The name `operations` of line 465 is not defined. -/
def checkBuildDeps (w : World Str) (o : BuildOpts) (devel : Option (List Str)) (deps : List (Dep Str)) : Except SErr Unit := do
  let us ← unsatisfied w (deps ++ develDeps w o devel deps)
  if us = [] then .ok ()
  else if o.noInstall then .error .unsatisfied
  else if o.ignoreDependency then .ok ()
  else do
    repoHasAll w us
    if o.confirm then .error .name else .error .unsatisfied

end Pisi.Pspec
