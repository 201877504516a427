import Verif.Spec.Version
import Verif.Spec.Xml
import Verif.Model.XmlClasses

/-!
# Specification of source specifications: pisi-spec.dtd

`dtd` is a transcript of /repo/pisi-spec.dtd; `Valid` is validity in the sense of XML.
-/
namespace Pisi.Xml.Dtd

/-- How often an element occurs in a sequence. -/
inductive Occ where
  | one | star | plus

/-- Content models: `(#PCDATA)`, `(#PCDATA | …)*` and sequences. -/
inductive Content where
  | text
  | mixed (ts : List Str)
  | seq (ps : List (Str × Occ))

/-- Attribute types: `CDATA` and enumerations. -/
inductive AType where
  | cdata
  | enum (vs : List Str)

structure Attr where
  name : Str
  type : AType := .cdata
  required : Bool := false

structure Decl where
  content : Content
  attrs : List Attr := []

/-- The characters of a literal. -/
def s (x : String) : Str := x.toList

/-- pisi-spec.dtd -/
def dtd : List (Str × Decl) := [
  (s "PISI", { content := .seq [(s "Source", .one), (s "Package", .plus), (s "History", .one)] }),
  (s "Source", { content := .mixed [s "Name", s "Homepage", s "Icon", s "Packager", s "License", s "IsA", s "PartOf",
    s "Summary", s "Description", s "Archive", s "Patches", s "BuildDependencies"] }),
  (s "Name", { content := .text }),
  (s "Homepage", { content := .text }),
  (s "Icon", { content := .text }),
  (s "Packager", { content := .seq [(s "Name", .one), (s "Email", .one)] }),
  (s "Email", { content := .text }),
  (s "License", { content := .text }),
  (s "IsA", { content := .text }),
  (s "PartOf", { content := .text }),
  (s "Summary", { content := .text, attrs := [{ name := s "xml:lang" }] }),
  (s "Description", { content := .text, attrs := [{ name := s "xml:lang" }] }),
  (s "Archive", { content := .text, attrs := [{ name := s "sha1sum", required := true }, { name := s "type", required := true }] }),
  (s "BuildDependencies", { content := .seq [(s "Dependency", .star)] }),
  (s "Dependency", { content := .text, attrs := [{ name := s "versionFrom" }, { name := s "versionTo" }, { name := s "version" },
    { name := s "releaseFrom" }, { name := s "releaseTo" }, { name := s "release" }] }),
  (s "Patches", { content := .seq [(s "Patch", .star)] }),
  (s "Patch", { content := .text, attrs := [{ name := s "compressionType" }, { name := s "level" }, { name := s "target" }] }),
  (s "Package", { content := .mixed [s "Name", s "License", s "IsA", s "PartOf", s "Summary", s "Description",
    s "RuntimeDependencies", s "Files", s "Conflicts", s "AdditionalFiles", s "Provides"] }),
  (s "Provides", { content := .seq [(s "COMAR", .plus)] }),
  (s "COMAR", { content := .text, attrs := [{ name := s "script" }] }),
  (s "Conflicts", { content := .seq [(s "Package", .plus)] }),
  (s "AdditionalFiles", { content := .seq [(s "AdditionalFile", .plus)] }),
  (s "AdditionalFile", { content := .text, attrs := [{ name := s "target", required := true }, { name := s "permission" },
    { name := s "owner" }] }),
  (s "RuntimeDependencies", { content := .seq [(s "Dependency", .star)] }),
  (s "Files", { content := .seq [(s "Path", .plus)] }),
  (s "Path", { content := .text, attrs := [{ name := s "fileType", type := .enum [s "executable", s "library",
    s "data", s "config", s "doc", s "man", s "info", s "localedata", s "header"], required := true },
    { name := s "permanent", type := .enum [s "false", s "true"] }] }),
  (s "History", { content := .seq [(s "Update", .plus)] }),
  (s "Update", { content := .mixed [s "Date", s "Version", s "Comment", s "Name", s "Email"], attrs := [
    { name := s "release", required := true }, { name := s "type" }] }),
  (s "Date", { content := .text }),
  (s "Version", { content := .text }),
  (s "Comment", { content := .text })]

/-- The sequence of tags is as the content model says. -/
inductive Matches : List (Str × Occ) → List Str → Prop
  | nil : Matches [] []
  | one (t : Str) (ps : List (Str × Occ)) (ts : List Str) (h : Matches ps ts) : Matches ((t, .one) :: ps) (t :: ts)
  | none (t : Str) (ps : List (Str × Occ)) (ts : List Str) (h : Matches ps ts) : Matches ((t, .star) :: ps) ts
  | more (t : Str) (ps : List (Str × Occ)) (ts : List Str) (h : Matches ((t, .star) :: ps) ts) :
      Matches ((t, .star) :: ps) (t :: ts)
  | plus (t : Str) (ps : List (Str × Occ)) (ts : List Str) (h : Matches ((t, .star) :: ps) ts) :
      Matches ((t, .plus) :: ps) (t :: ts)

/-- The tags of the elements among the nodes. -/
def tags : List Xml → List Str
  | [] => []
  | .text _ :: ks => tags ks
  | .elem t _ _ :: ks => t :: tags ks

def IsText (x : Xml) : Prop := ∃ t, x = .text t

/-- The children are as the content model says. -/
def ContentOk : Content → List Xml → Prop
  | .text, ks => ∀ k ∈ ks, IsText k
  | .mixed ts, ks => ∀ u ∈ tags ks, u ∈ ts
  | .seq ps, ks => Matches ps (tags ks) ∧ ∀ k ∈ ks, IsText k → Blank k

def ValueOk : AType → Str → Prop
  | .cdata, _ => True
  | .enum vs, v => v ∈ vs

/-- Attributes are declared, have values of their types, occur once, and those required are there. -/
structure AttrsOk (ds : List Attr) (as : List (Str × Str)) : Prop where
  declared : ∀ p ∈ as, ∃ d ∈ ds, d.name = p.1 ∧ ValueOk d.type p.2
  once : (as.map (·.1)).Nodup
  required : ∀ d ∈ ds, d.required = true → ∃ v, (d.name, v) ∈ as

/-- Validity of a node and all below it. -/
inductive Valid : Xml → Prop
  | text (t : Str) : Valid (.text t)
  | elem (t : Str) (as : List (Str × Str)) (ks : List Xml) (d : Decl) (hd : (t, d) ∈ dtd) (ha : AttrsOk d.attrs as)
      (hc : ContentOk d.content ks) (hk : ∀ k ∈ ks, Valid k) : Valid (.elem t as ks)

/-- A valid document. -/
def Document (x : Xml) : Prop := x.isTag (s "PISI") = true ∧ Valid x

/-! ## What the reader wants beyond the DTD -/

/-- There is a character other than white space in the text at the start of the element, and up to white space around it
the text is ASCII. -/
def Word (x : Xml) : Prop := ∃ a t b ks, x.kids = .text (a ++ t ++ b) :: ks ∧ (∀ c ∈ a ++ b, uspace c = true) ∧ Solid t ∧ Ascii t

/-- The same in any characters. -/
def Words (x : Xml) : Prop := ∃ a t b ks, x.kids = .text (a ++ t ++ b) :: ks ∧ (∀ c ∈ a ++ b, uspace c = true) ∧ Solid t

/-- There is nothing but white space in the text at the start, or it is a word. -/
def Plain (x : Xml) : Prop := Word x ∨ ∀ t ks, x.kids = .text t :: ks → ∀ c ∈ t, uspace c = true

/-- The first child with the tag. -/
def First (x : Xml) (t : Str) (y : Xml) : Prop := ∃ l r, x.kids = l ++ y :: r ∧ y.isTag t = true ∧ ∀ z ∈ l, z.isTag t = false

/-- A node along a path. -/
inductive Along : List Str → Xml → Xml → Prop
  | here (x : Xml) : Along [] x x
  | down (t : Str) (p : List Str) (x y z : Xml) (hy : y ∈ x.kids) (ht : y.isTag t = true) (h : Along p y z) :
      Along (t :: p) x z

/-- The attribute is there, is not empty and is ASCII. -/
def HasAttr (x : Xml) (a : String) : Prop := ∃ v, getAttr x (s a) = some v ∧ v ≠ [] ∧ Ascii v

/-- The attribute is ASCII if it is there. -/
def PlainAttr (x : Xml) (a : String) : Prop := ∀ v, getAttr x (s a) = some v → Ascii v

/-- The first such element has a word in it. -/
def HasWord (x : Xml) (t : String) : Prop := ∃ y, First x (s t) y ∧ Word y
def HasWords (x : Xml) (t : String) : Prop := ∃ y, First x (s t) y ∧ Words y
/-- If there are such elements, the first has no text other than ASCII. -/
def PlainText (x : Xml) (t : String) : Prop := ∀ y, First x (s t) y → Plain y
/-- All such elements have a word in them. -/
def AllWord (x : Xml) (p : List String) : Prop := ∀ y, Along (p.map s) x y → Word y
def AllWords (x : Xml) (p : List String) : Prop := ∀ y, Along (p.map s) x y → Words y

/-- An integer, if there and not empty. -/
def IntAttr (x : Xml) (a : String) : Prop := ∀ v, getAttr x (s a) = some v → v ≠ [] → ∃ n, Pisi.Version.Spec.Number v n

/-- The language of a text: that of the attribute, or English. -/
def InTongue (y : Xml) (l : Str) : Prop :=
  getAttr y (s "xml:lang") = some l ∧ l ≠ [] ∨ (getAttr y (s "xml:lang") = none ∨ getAttr y (s "xml:lang") = some []) ∧ l = s "en"

/-- There is such a text in the language of the user, English or Turkish. -/
def Readable (lang : Str) (x : Xml) (t : String) : Prop := ∃ y, Along [s t] x y ∧ (InTongue y lang ∨ InTongue y (s "en") ∨ InTongue y (s "tr"))

structure DependencyNeeds (x : Xml) : Prop where
  package : Word x
  version : PlainAttr x "version"
  versionFrom : PlainAttr x "versionFrom"
  versionTo : PlainAttr x "versionTo"
  release : PlainAttr x "release"
  releaseFrom : PlainAttr x "releaseFrom"
  releaseTo : PlainAttr x "releaseTo"

structure SourceNeeds (lang : Str) (x : Xml) : Prop where
  name : HasWord x "Name"
  homepage : PlainText x "Homepage"
  packager : ∃ y, First x (s "Packager") y ∧ HasWords y "Name" ∧ HasWord y "Email"
  summary : Readable lang x "Summary" ∧ AllWords x ["Summary"]
  description : Readable lang x "Description" ∧ AllWords x ["Description"]
  isA : AllWord x ["IsA"]
  partOf : PlainText x "PartOf"
  icon : PlainText x "Icon"
  license : (∃ y, First x (s "License") y) ∧ AllWord x ["License"]
  archive : ∃ y, First x (s "Archive") y ∧ Word y ∧ HasAttr y "type" ∧ HasAttr y "sha1sum"
  patches : ∀ y, Along [s "Patches", s "Patch"] x y → Word y ∧ PlainAttr y "compressionType" ∧ IntAttr y "level" ∧
    PlainAttr y "target"
  dependencies : ∀ y, Along [s "BuildDependencies", s "Dependency"] x y → DependencyNeeds y

structure PackageNeeds (lang : Str) (x : Xml) : Prop where
  name : HasWord x "Name"
  summary : (∀ y, ¬ First x (s "Summary") y) ∨ Readable lang x "Summary" ∧ AllWords x ["Summary"]
  description : (∀ y, ¬ First x (s "Description") y) ∨ Readable lang x "Description" ∧ AllWords x ["Description"]
  isA : AllWord x ["IsA"]
  partOf : PlainText x "PartOf"
  license : AllWord x ["License"]
  dependencies : ∀ y, Along [s "RuntimeDependencies", s "Dependency"] x y → DependencyNeeds y
  files : AllWord x ["Files", "Path"]
  conflicts : AllWord x ["Conflicts", "Package"]
  comar : ∀ y, Along [s "Provides", s "COMAR"] x y → Word y ∧ HasAttr y "script"
  additional : ∀ y, Along [s "AdditionalFiles", s "AdditionalFile"] x y → Word y ∧ HasAttr y "target" ∧
    PlainAttr y "permission"

structure UpdateNeeds (x : Xml) : Prop where
  release : HasAttr x "release"
  date : HasWord x "Date"
  version : HasWord x "Version"
  email : PlainText x "Email"
  comment : PlainText x "Comment"

/-- What a valid document must have to be read. -/
structure Needs (lang : Str) (x : Xml) : Prop where
  source : ∃ y, First x (s "Source") y ∧ SourceNeeds lang y
  packages : ∀ y, Along [s "Package"] x y → PackageNeeds lang y
  history : ∀ y, Along [s "History", s "Update"] x y → UpdateNeeds y

/-! ## Attributes -/

/-- The records that elements with attributes are read into. -/
def records : List (Str × List Member) := [(s "Archive", Classes.archive), (s "Dependency", Classes.dependency),
  (s "Patch", Classes.patch), (s "COMAR", Classes.comarProvide), (s "AdditionalFile", Classes.additionalFile),
  (s "Path", Classes.path), (s "Update", Classes.update)]

/-- The attribute is a member. -/
def Reads (ms : List Member) (a : Str) : Prop := ∃ b r, .attr a b r ∈ ms

end Pisi.Xml.Dtd
