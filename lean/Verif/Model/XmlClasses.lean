import Verif.Model.Xml

/-!
# The record classes of pisi/data

The members in the order of processing; lists with their paths (`parse_spec`, pisi/exml/autoxml.py:592-613).
-/
namespace Pisi.Xml.Classes

def s (x : String) : Str := x.toList

/-- pisi/data/specfile.py:43-46 -/
def packager : List Member := [.basic (s "Name") .uni true, .basic (s "Email") .str true]

/-- pisi/data/specfile.py:53-57 -/
def additionalFile : List Member :=
  [.str (s "Filename") .str true, .attr (s "target") .str true, .attr (s "permission") .str false]

/-- pisi/data/specfile.py:66-71 -/
def patch : List Member := [.str (s "Filename") .str true, .attr (s "compressionType") .str false,
  .attr (s "level") .int false, .attr (s "target") .str false]

/-- pisi/data/specfile.py:89-97 -/
def update : List Member := [.attr (s "release") .str true, .basic (s "Date") .str true, .basic (s "Version") .str true,
  .basic (s "Type") .str false, .basic (s "Name") .uni false, .basic (s "Email") .str false, .basic (s "Comment") .str false]

/-- pisi/data/specfile.py:108-112 -/
def path : List Member := [.str (s "Path") .str true, .attr (s "fileType") .str false, .attr (s "permanent") .str false]

/-- pisi/data/specfile.py:120-123 -/
def comarProvide : List Member := [.str (s "om") .str true, .attr (s "script") .str true]

/-- pisi/data/specfile.py:132-137 -/
def archive : List Member := [.str (s "uri") .str true, .attr (s "type") .str true, .attr (s "sha1sum") .str true,
  .attr (s "norootdir") .str false]

/-- pisi/data/dependency.py:25-35 -/
def dependency : List Member := [.str (s "Package") .str true, .attr (s "version") .str false,
  .attr (s "versionFrom") .str false, .attr (s "versionTo") .str false, .attr (s "release") .str false,
  .attr (s "releaseFrom") .str false, .attr (s "releaseTo") .str false]

/-- pisi/data/specfile.py:147-163 -/
def specSource : List Member := [.basic (s "Name") .str true, .basic (s "Homepage") .str false,
  .cls (s "Packager") packager true, .loc (s "Summary") true, .loc (s "Description") true,
  .basics (s "IsA") [] (s "IsA") .str false, .basic (s "PartOf") .str false, .basic (s "Icon") .str false,
  .basics (s "License") [] (s "License") .str true, .cls (s "Archive") archive true,
  .clss (s "Patches") [s "Patches"] (s "Patch") patch false,
  .clss (s "BuildDependencies") [s "BuildDependencies"] (s "Dependency") dependency false,
  .basic (s "Version") .str false, .basic (s "Release") .str false, .basic (s "SourceURI") .str false]

/-- pisi/data/specfile.py:166-182 -/
def specPackage : List Member := [.basic (s "Name") .str true, .loc (s "Summary") false, .loc (s "Description") false,
  .basics (s "IsA") [] (s "IsA") .str false, .basic (s "PartOf") .str false,
  .basics (s "License") [] (s "License") .str false, .basic (s "Icon") .str false,
  .clss (s "PackageDependencies") [s "RuntimeDependencies"] (s "Dependency") dependency false,
  .basics (s "ComponentDependencies") [s "RuntimeDependencies"] (s "Component") .str false,
  .clss (s "Files") [s "Files"] (s "Path") path false,
  .basics (s "Conflicts") [s "Conflicts"] (s "Package") .str false,
  .clss (s "ProvidesComar") [s "Provides"] (s "COMAR") comarProvide false,
  .clss (s "AdditionalFiles") [s "AdditionalFiles"] (s "AdditionalFile") additionalFile false,
  .clss (s "History") [s "History"] (s "Update") update false]

/-- pisi/data/component.py:46-73 -/
def component : List Member := [.basic (s "Name") .str true, .loc (s "LocalName") true, .loc (s "Summary") true,
  .loc (s "Description") true, .basics (s "Dependencies") [s "Dependencies"] (s "Component") .str false,
  .basics (s "Packages") [s "Parts"] (s "Package") .str false, .basics (s "Sources") [s "Parts"] (s "Source") .str false]

/-- pisi/data/component.py:30-43 -/
def distribution : List Member := [.basic (s "SourceName") .uni true, .loc (s "Description") true,
  .basic (s "Version") .uni false, .basic (s "Type") .uni true,
  .basics (s "Dependencies") [s "Dependencies"] (s "Distribution") .uni false, .basic (s "BinaryName") .uni false,
  .basic (s "Architecture") .uni false]

/-- pisi/data/specfile.py:230-239 -/
def specFile : List Member := [.cls (s "Source") specSource true, .clss (s "Packages") [] (s "Package") specPackage true,
  .clss (s "History") [s "History"] (s "Update") update true, .clss (s "Components") [] (s "Component") component false]

/-- pisi/data/metadata.py:29-34 -/
def metaSource : List Member :=
  [.basic (s "Name") .str true, .basic (s "Homepage") .str false, .cls (s "Packager") packager true]

/-- pisi/data/metadata.py:36-51: the members of the base class come first; `PartOf` is declared again. -/
def metaPackage : List Member := specPackage ++ [.basic (s "PartOf") .str true, .basic (s "Build") .int false,
  .basic (s "Distribution") .str true, .basic (s "DistributionRelease") .str true, .basic (s "Architecture") .str true,
  .basic (s "InstalledSize") .long true, .basic (s "PackageSize") .long false, .basic (s "PackageURI") .str false,
  .basic (s "PackageFormat") .str false, .cls (s "Source") metaSource false]

/-- pisi/data/metadata.py:64-73 -/
def metaData : List Member := [.cls (s "Source") metaSource true, .cls (s "Package") metaPackage true]

/-- pisi/data/files.py:19-28; the path "SHA1Sum" of a basic member is not used (pisi/exml/autoxml.py:631, 651). -/
def fileInfo : List Member := [.basic (s "Path") .str true, .basic (s "Type") .str true, .basic (s "Size") .long false,
  .basic (s "Hash") .str false, .basic (s "Permanent") .str false]

/-- pisi/data/files.py:36-42 -/
def files : List Member := [.clss (s "List") [] (s "File") fileInfo false]

/-- pisi/data/index.py:39-48 -/
def index : List Member := [.cls (s "Distribution") distribution false, .clss (s "Specs") [] (s "SpecFile") specFile false,
  .clss (s "Packages") [] (s "Package") metaPackage false, .clss (s "Components") [] (s "Component") component false]

end Pisi.Xml.Classes
