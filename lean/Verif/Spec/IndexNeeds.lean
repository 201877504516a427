import Verif.Spec.RecordNeeds

/-!
# Specification of indices: what must be in them
-/
namespace Pisi.Xml.Dtd

/-- The source of a specification in an index. -/
structure SourceTells (lang : Str) (x : Xml) : Prop where
  name : HasWord x "Name"
  homepage : MayPlain x "Homepage"
  packager : ∃ y, First x (s "Packager") y ∧ HasWords y "Name" ∧ HasWord y "Email"
  summary : Tells lang x "Summary"
  description : Tells lang x "Description"
  isA : AllWord x ["IsA"]
  partOf : MayPlain x "PartOf"
  icon : MayPlain x "Icon"
  license : (∃ y, Along [s "License"] x y) ∧ AllWord x ["License"]
  archive : ∃ y, First x (s "Archive") y ∧ Word y ∧ HasAttr y "type" ∧ HasAttr y "sha1sum" ∧ PlainAttr y "norootdir"
  patches : ∀ y, Along [s "Patches", s "Patch"] x y → Word y ∧ PlainAttr y "compressionType" ∧ IntAttr y "level" ∧
    PlainAttr y "target"
  dependencies : ∀ y, Along [s "BuildDependencies", s "Dependency"] x y → DependencyNeeds y
  version : MayPlain x "Version"
  release : MayPlain x "Release"
  sourceURI : MayPlain x "SourceURI"

/-- A package of a specification in an index: its texts must be its own. -/
structure PackageTells (lang : Str) (x : Xml) : Prop where
  name : HasWord x "Name"
  summary : Tells lang x "Summary"
  description : Tells lang x "Description"
  isA : AllWord x ["IsA"]
  partOf : MayPlain x "PartOf"
  license : AllWord x ["License"]
  icon : MayPlain x "Icon"
  dependencies : ∀ y, Along [s "RuntimeDependencies", s "Dependency"] x y → DependencyNeeds y
  components : AllWord x ["RuntimeDependencies", "Component"]
  files : ∀ y, Along [s "Files", s "Path"] x y → Word y ∧ PlainAttr y "fileType" ∧ PlainAttr y "permanent"
  conflicts : AllWord x ["Conflicts", "Package"]
  comar : ∀ y, Along [s "Provides", s "COMAR"] x y → Word y ∧ HasAttr y "script"
  additional : ∀ y, Along [s "AdditionalFiles", s "AdditionalFile"] x y → Word y ∧ HasAttr y "target" ∧
    PlainAttr y "permission"
  history : ∀ y, Along [s "History", s "Update"] x y → UpdateTells y

/-- A specification in an index. -/
structure SpecTells (lang : Str) (x : Xml) : Prop where
  source : ∃ y, First x (s "Source") y ∧ SourceTells lang y
  packages : (∃ y, Along [s "Package"] x y) ∧ ∀ y, Along [s "Package"] x y → PackageTells lang y
  history : (∃ y, Along [s "History", s "Update"] x y) ∧ ∀ y, Along [s "History", s "Update"] x y → UpdateTells y
  components : ∀ y, Along [s "Component"] x y → ComponentNeeds lang y

/-- Every record of an index is complete. -/
structure IndexNeeds (lang : Str) (x : Xml) : Prop where
  distribution : ∀ y, First x (s "Distribution") y → DistributionNeeds lang y
  specs : ∀ y, Along [s "SpecFile"] x y → SpecTells lang y
  packages : ∀ y, Along [s "Package"] x y → MetaPackageNeeds lang y
  components : ∀ y, Along [s "Component"] x y → ComponentNeeds lang y

end Pisi.Xml.Dtd
