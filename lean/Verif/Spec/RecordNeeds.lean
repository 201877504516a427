import Verif.Spec.Dtd

/-!
# Specification of the files that are read as records: what must be in them
-/
namespace Pisi.Xml.Dtd

/-- The element does not begin with another element. -/
def Bare (x : Xml) : Prop := ∀ u as cs ks, x.kids ≠ .elem u as cs :: ks

/-- A number, or a number with a mark after its last digit, as Python writes long integers. -/
def LongNumber (t : Str) (n : Int) : Prop := Pisi.Version.Spec.Number t n ∨ ∃ u d c w, t = u ++ [d, c] ++ w ∧ d.isDigit = true ∧
  (c = 'l' ∨ c = 'L') ∧ (∀ e ∈ w, Pisi.Version.Spec.Space e) ∧ Pisi.Version.Spec.Number (u ++ [d]) n

/-- The text of the element, without white space around it, if there is any, is a number. -/
def Number (N : Str → Int → Prop) (x : Xml) : Prop := ∀ t ks, x.kids = .text t :: ks → strip t = [] ∨ ∃ n, N (strip t) n

/-- If there are such elements, the first has nothing in it, or ASCII text. -/
def MayPlain (x : Xml) (t : String) : Prop := ∀ y, First x (s t) y → Bare y ∧ Plain y
def MayText (x : Xml) (t : String) : Prop := ∀ y, First x (s t) y → Bare y
def MayInt (x : Xml) (t : String) : Prop := ∀ y, First x (s t) y → Bare y ∧ Number Pisi.Version.Spec.Number y
def MayNumber (x : Xml) (t : String) : Prop := ∀ y, First x (s t) y → Bare y ∧ Number LongNumber y
def HasNumber (x : Xml) (t : String) : Prop := ∃ y, First x (s t) y ∧ Words y ∧ Number LongNumber y

/-- There are texts, all are there, and one can be read by the user. -/
def Tells (lang : Str) (x : Xml) (t : String) : Prop := Readable lang x t ∧ AllWords x [t]

/-- A component declaration, pisi/data/component.py. -/
structure ComponentNeeds (lang : Str) (x : Xml) : Prop where
  name : HasWord x "Name"
  localName : Tells lang x "LocalName"
  summary : Tells lang x "Summary"
  description : Tells lang x "Description"
  dependencies : AllWord x ["Dependencies", "Component"]
  packages : AllWord x ["Parts", "Package"]
  sources : AllWord x ["Parts", "Source"]

/-- A distribution. -/
structure DistributionNeeds (lang : Str) (x : Xml) : Prop where
  sourceName : HasWords x "SourceName"
  description : Tells lang x "Description"
  version : MayText x "Version"
  type : HasWords x "Type"
  dependencies : AllWords x ["Dependencies", "Distribution"]
  binaryName : MayText x "BinaryName"
  architecture : MayText x "Architecture"

/-- An entry of files.xml. -/
structure FileNeeds (x : Xml) : Prop where
  path : HasWord x "Path"
  type : HasWord x "Type"
  size : MayNumber x "Size"
  hash : MayPlain x "Hash"
  permanent : MayPlain x "Permanent"

structure UpdateTells (x : Xml) : Prop where
  release : HasAttr x "release"
  date : HasWord x "Date"
  version : HasWord x "Version"
  type : MayPlain x "Type"
  name : MayText x "Name"
  email : MayPlain x "Email"
  comment : MayPlain x "Comment"

structure MetaSourceNeeds (x : Xml) : Prop where
  name : HasWord x "Name"
  homepage : MayPlain x "Homepage"
  packager : ∃ y, First x (s "Packager") y ∧ HasWords y "Name" ∧ HasWord y "Email"

/-- The package of metadata.xml. -/
structure MetaPackageNeeds (lang : Str) (x : Xml) : Prop where
  name : HasWord x "Name"
  summary : Tells lang x "Summary"
  description : Tells lang x "Description"
  isA : AllWord x ["IsA"]
  partOf : HasWord x "PartOf"
  license : AllWord x ["License"]
  icon : MayPlain x "Icon"
  dependencies : ∀ y, Along [s "RuntimeDependencies", s "Dependency"] x y → DependencyNeeds y
  components : AllWord x ["RuntimeDependencies", "Component"]
  files : ∀ y, Along [s "Files", s "Path"] x y → Word y ∧ PlainAttr y "fileType" ∧ PlainAttr y "permanent"
  conflicts : AllWord x ["Conflicts", "Package"]
  comar : ∀ y, Along [s "Provides", s "COMAR"] x y → Word y ∧ HasAttr y "script"
  additional : ∀ y, Along [s "AdditionalFiles", s "AdditionalFile"] x y → Word y ∧ HasAttr y "target" ∧
    PlainAttr y "permission"
  history : ∀ y, Along [s "History", s "Update"] x y → UpdateTells y
  updated : ∃ y, Along [s "History", s "Update"] x y
  build : MayInt x "Build"
  distribution : HasWord x "Distribution"
  distributionRelease : HasWord x "DistributionRelease"
  architecture : HasWord x "Architecture"
  installedSize : HasNumber x "InstalledSize"
  packageSize : MayNumber x "PackageSize"
  packageURI : MayPlain x "PackageURI"
  packageFormat : MayPlain x "PackageFormat"
  source : ∀ y, First x (s "Source") y → MetaSourceNeeds y

structure MetaNeeds (lang : Str) (x : Xml) : Prop where
  source : ∃ y, First x (s "Source") y ∧ MetaSourceNeeds y
  package : ∃ y, First x (s "Package") y ∧ MetaPackageNeeds lang y

end Pisi.Xml.Dtd
