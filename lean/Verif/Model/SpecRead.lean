import Verif.Model.XmlClasses

/-!
# Reading a specification: the tree, the hook and the validation

`SpecFile.read`, pisi/exml/autoxml.py:424-443 with `read_hook`, pisi/data/specfile.py:237-284.  Objects are lists of
attributes, so that two names for one list are two lists: `pkg.history = self.history` copies.  `source.history`
(pisi/data/specfile.py:249) is not a member of the class `Source` and is left out.  `decode_hook` of `Archive`
(pisi/data/specfile.py:139-140) sets `name`, which is not a member either, and is left out.
-/
namespace Pisi.Xml

/-- `self.n = v` -/
def setField (fs : List (Str × Val)) (n : Str) (v : Val) : List (Str × Val) :=
  fs.map (fun p => if p.1 = n then (n, v) else p)

/-- `x.n` for an object. -/
def Val.dot (v : Val) (n : Str) : Val := match v with
  | .obj fs => field fs n
  | _ => .none

/-- The items of a list. -/
def Val.items : Val → List Val
  | .list l => l
  | _ => []

/-- `if not a: a = b` -/
def orElse (a b : Val) : Val := if a.truthy then a else b

/-- `merge_tags` for the source, pisi/data/specfile.py:254-257. -/
def mergeSource (src : List (Str × Val)) (u : Val) : List (Str × Val) :=
  setField (setField src (Classes.s "version") (orElse (field src (Classes.s "version")) (u.dot (Classes.s "version"))))
    (Classes.s "release") (orElse (field src (Classes.s "release")) (u.dot (Classes.s "release")))

/-- The names of the members that packages take from the source, pisi/data/specfile.py:273-282. -/
def inherited : List Str :=
  [Classes.s "summary", Classes.s "description", Classes.s "partOf", Classes.s "license", Classes.s "icon"]

/-- `merge_tags` for a package, pisi/data/specfile.py:260-262, and `override_tags`, pisi/data/specfile.py:272-283. -/
def hookPackage (src : List (Str × Val)) (hist : Val) : Val → Val
  | .obj p =>
    let p := setField p (Classes.s "isA") (.list ((field p (Classes.s "isA")).items ++ (field src (Classes.s "isA")).items))
    let p := setField p (Classes.s "history") hist
    .obj (inherited.foldl (fun p n => setField p n (orElse (field p n) (field src n))) p)
  | v => v

/-- `read_hook`, pisi/data/specfile.py:237-284; `none` is the exception for an empty history or a missing object. -/
def readHook (fs : List (Str × Val)) : Option (List (Str × Val)) :=
  match field fs (Classes.s "source"), (field fs (Classes.s "history")).items with
  | .obj src, u :: _ =>
    let src := mergeSource src u
    some (setField (setField fs (Classes.s "source") (.obj src)) (Classes.s "packages")
      (.list ((field fs (Classes.s "packages")).items.map (hookPackage src (field fs (Classes.s "history"))))))
  | _, _ => none

/-- `SpecFile.read`, pisi/exml/autoxml.py:424-443, from the root of the tree. -/
def readSpec (lang : Str) (n : Xml) : Option (List (Str × Val)) := match decode Classes.specFile n with
  | some fs => match readHook fs with
    | some fs => if valid lang Classes.specFile fs then some fs else none
    | none => none
  | none => none

/-- `MetaData.read`, pisi/exml/autoxml.py:424-443, with `decode_hook` of the package, pisi/data/metadata.py:53-55, which
raises an exception for an empty history; the version and release it sets are not members.  The hook runs before the
errors of `decode` are reported, so the exception may be another one than the model's, but there is one. -/
def readMeta (lang : Str) (n : Xml) : Option (List (Str × Val)) := match decode Classes.metaData n with
  | some fs => if ((field fs (Classes.s "package")).dot (Classes.s "history")).items.isEmpty then none
    else if valid lang Classes.metaData fs then some fs else none
  | none => none

/-- `Index.read`, pisi/exml/autoxml.py:424-443, as called by `read_uri`, pisi/data/index.py:49-51, from the root of the tree:
`decode_hook` runs for every package, pisi/data/metadata.py:53-55; `read_hook` of the specifications inside does not, only
that of the object that is read (pisi/exml/autoxml.py:433). -/
def readIndex (lang : Str) (n : Xml) : Option (List (Str × Val)) := match decode Classes.index n with
  | some fs => if (field fs (Classes.s "packages")).items.any (fun p => (p.dot (Classes.s "history")).items.isEmpty) then none
    else if valid lang Classes.index fs then some fs else none
  | none => none

end Pisi.Xml
