import Verif.Model.Path
import Verif.Model.Uri

/-!
# Model of the configuration, pisi/configfile.py and pisi/config.py, and of constants, pisi/oo.py

Python's `ConfigParser` is library code: modelled are the sections, the lower-casing of option names, the `[DEFAULT]`
section and that later options replace earlier ones.  The splitting into lines and `%`-interpolation are not.
-/
namespace Pisi.Config
open Pisi.Path

/-- Values of configuration attributes; `other` is any value that is none of these (a doc string, a class). -/
inductive Val where
  | str (s : Str)
  | bool (b : Bool)
  | int (n : Nat)
  | none
  | other
  deriving DecidableEq

/-- Python truth of a value. -/
def Val.truthy : Val → Bool
  | .str s => s ≠ []
  | .bool b => b
  | .int n => n ≠ 0
  | .none => false
  | .other => true

/-- The three known sections. -/
inductive Sec where
  | general | build | directories
  deriving DecidableEq

def Sec.name : Sec → Str
  | .general => "general".toList
  | .build => "build".toList
  | .directories => "directories".toList

/-- `os.getenv(x) or None` -/
def envOr (env : Str → Option Str) (x : Str) : Val := match env x with
  | some (c :: s) => .str (c :: s)
  | _ => .none

/-- The class attributes of the defaults, pisi/configfile.py:61-96. -/
def defaults (env : Str → Option Str) : Sec → List (Str × Val)
  | .general => [
      ("destinationdirectory".toList, .str "/".toList), ("autoclean".toList, .bool false), ("xdelta".toList, .bool false),
      ("bandwidth_limit".toList, .int 0), ("distribution".toList, .str "Pardus".toList),
      ("distribution_release".toList, .str "1.1".toList), ("http_proxy".toList, envOr env "HTTP_PROXY".toList),
      ("https_proxy".toList, envOr env "HTTPS_PROXY".toList), ("ftp_proxy".toList, envOr env "FTP_PROXY".toList)]
  | .build => [
      ("host".toList, .str []), ("jobs".toList, .str "-j1".toList), ("generateDebug".toList, .bool false),
      ("cflags".toList, .str "-O2 -pipe -fomit-frame-pointer".toList),
      ("cxxflags".toList, .str "-O2 -pipe -fomit-frame-pointer".toList), ("ldflags".toList, .str []),
      ("buildno".toList, .bool false), ("buildhelper".toList, .none), ("compressionlevel".toList, .int 7)]
  | .directories => [
      ("lib_dir".toList, .str "/var/lib/pisi".toList), ("db_dir".toList, .str "/var/db/pisi".toList),
      ("archives_dir".toList, .str "/var/cache/pisi/archives".toList),
      ("packages_dir".toList, .str "/var/cache/pisi/packages".toList), ("index_dir".toList, .str "/var/lib/pisi/index".toList),
      ("tmp_dir".toList, .str "/var/tmp/pisi".toList), ("icon_theme_dir".toList, .str "/usr/share/icons/Tulliana-1.0".toList),
      ("kde_dir".toList, .str "/usr/kde/3.5".toList), ("qt_dir".toList, .str "/usr/qt/3".toList)]

/-- What `hasattr` also finds on a class without bases. -/
def classAttrs : List Str :=
  ["__doc__".toList, "__module__".toList, "__name__".toList, "__bases__".toList, "__dict__".toList]

/-- `getattr(self.defaults, attr)` if there is one, pisi/configfile.py:131-132. -/
def defaultOf (env : Str → Option Str) (s : Sec) (attr : Str) : Option Val :=
  match (defaults env s).find? (fun p => p.1 = attr) with
  | some p => some p.2
  | none => if attr ∈ classAttrs then some .other else none

/-- `item[1]`, with "True" and "False" evaluated, pisi/configfile.py:125-128. -/
def conv (v : Str) : Val :=
  if v = "True".toList then .bool true else if v = "False".toList then .bool false else .str v

/-- The loop over the items, pisi/configfile.py:119-128. -/
def searchItems (attr : Str) : List (Str × Str) → Option Val
  | [] => none
  | (k, v) :: l => if k = attr then some (conv v) else searchItems attr l

/-- `ConfigurationSection.__getattr__` and `__getitem__`, pisi/configfile.py:115-139. -/
def getItem (env : Str → Option Str) (s : Sec) (items : List (Str × Str)) (attr : Str) : Val :=
  match searchItems attr items with
  | some v => v
  | none => match defaultOf env s attr with
    | some v => v
    | none => .str []

/-- The attributes that a section object has itself, pisi/configfile.py:101-113 and those of `object`; for these Python
does not call `__getattr__`. -/
def ownAttrs : List Str :=
  ["items", "defaults", "section", "__init__", "__getattr__", "__getitem__", "__class__", "__delattr__", "__dict__",
   "__doc__", "__getattribute__", "__hash__", "__module__", "__new__", "__reduce__", "__reduce_ex__", "__repr__",
   "__setattr__", "__str__", "__weakref__", "__format__", "__sizeof__", "__subclasshook__"].map (·.toList)

/-- `section.attr` -/
def getAttr (env : Str → Option Str) (s : Sec) (items : List (Str × Str)) (attr : Str) : Val :=
  if attr ∈ ownAttrs then .other else getItem env s items attr

/-! ## ConfigParser -/

/-- A configuration file: the blocks with their headers and options in order. -/
abbrev File := List (Str × List (Str × Str))

/-- `optionxform`: ASCII lower-casing. -/
def lower (s : Str) : Str := s.map Char.toLower

/-- `cursect[optname] = optval` -/
def setOpt (d : List (Str × Str)) (p : Str × Str) : List (Str × Str) :=
  (lower p.1, p.2) :: d.filter (fun q => q.1 ≠ lower p.1)

/-- The options of all blocks with the given header. -/
def blockOpts (f : File) (name : Str) : List (Str × Str) := (f.filter (fun b => b.1 = name)).flatMap (·.2)

/-- `parser.items(name)`, with `NoSectionError` giving no items (pisi/configfile.py:149-167): the defaults updated with
the options of the section, without `__name__`. -/
def items (f : File) (name : Str) : List (Str × Str) :=
  if f.any (fun b => b.1 = name) then
    ((blockOpts f "DEFAULT".toList ++ blockOpts f name).foldl setOpt []).filter (fun q => q.1 ≠ "__name__".toList)
  else []

/-- `ctx.config.values.<section>.<attr>` -/
def value (env : Str → Option Str) (f : File) (s : Sec) (attr : Str) : Val := getAttr env s (items f s.name) attr

/-! ## Uses -/

/-- The argument of `lzma`, pisi/archive.py:155-157: `" -%d" % x` raises `TypeError` for a string.  The number is
rendered as it is. -/
def lzmaLevel : Val → Except Unit (Option Nat)
  | .int n => .ok (if n ≠ 0 then some n else none)
  | .bool b => .ok (if b then some 1 else none)
  | .str [] => .ok none
  | .str _ => .error ()
  | .none => .ok none
  | .other => .error ()

/-- `int(x)` -/
def Val.toInt : Val → Option Int
  | .str s => pyInt s
  | .int n => some n
  | .bool b => some (if b then 1 else 0)
  | _ => Option.none

/-- `a or b` -/
def Val.or (a b : Val) : Val := if a.truthy then a else b

/-- `_get_bandwith_limit`, pisi/fetcher.py:288-294; `none` is the `ValueError` of `int`. -/
def bandwidthLimit (option file : Val) : Option Int :=
  let l := option.or file
  if l.truthy && (l ≠ .str ['0']) then l.toInt.map (1024 * ·) else some 0

/-- `URI(u).scheme()`, pisi/uri.py:50-54. -/
def scheme (u : Str) : Str := Uri.scheme u

/-- One of the three assignments of `_get_proxies`, pisi/fetcher.py:274-281. -/
def proxyFor (proxy : Val) (name urlScheme : Str) (d : List (Str × Str)) : List (Str × Str) :=
  match proxy with
  | .str (c :: p) => if urlScheme = name then (scheme (c :: p), c :: p) :: d else d
  | _ => d

/-- `_get_proxies`, pisi/fetcher.py:271-286: the map from schemes to proxies handed to the downloader. -/
def getProxies (env : Str → Option Str) (f : File) (urlScheme : Str) : List (Str × Str) :=
  proxyFor (value env f .general "ftp_proxy".toList) "ftp".toList urlScheme
    (proxyFor (value env f .general "https_proxy".toList) "https".toList urlScheme
      (proxyFor (value env f .general "http_proxy".toList) "http".toList urlScheme []))

/-- `destdir`, pisi/config.py:50-57, given the option and the configured value. -/
def destDir (cwd : Str) (option : Option Str) (file : Str) : Str := match option with
  | some (c :: s) =>
    if (rstrip isSpace ((c :: s).dropWhile isSpace)).head? = some '/' then c :: s else joinPath cwd [c :: s]
  | _ => file

/-- `subdir`, pisi/config.py:82-85. -/
def subdir (dest path : Str) : Str := joinPath dest [path]

/-- `tmp_dir`, pisi/config.py:102-112. -/
def tmpDir (dest path : Str) (writable : Bool) (user : Option Str) : Str :=
  if writable then subdir dest path else match user with
    | some u => "/tmp/pisi-".toList ++ u
    | none => "/tmp/pisi-root".toList

/-! ## Constants -/

variable {κ ν : Type} [DecidableEq κ]

/-- Attempts on an object of a class with the metaclass `constant`. -/
inductive Attempt (κ ν : Type) where
  | set (k : κ) (v : ν)
  | del (k : κ)

inductive Outcome where
  | ok | constError | nameError
  deriving DecidableEq

/-- `self.__dict__` -/
abbrev Consts (κ ν : Type) := List (κ × ν)

def Consts.get (d : Consts κ ν) (k : κ) : Option ν := (d.find? (fun p => p.1 = k)).map (·.2)

/-- `__setattr__` and `__delattr__`, pisi/oo.py:78-90. -/
def attempt (d : Consts κ ν) : Attempt κ ν → Consts κ ν × Outcome
  | .set k v => if (d.get k).isSome then (d, .constError) else ((k, v) :: d, .ok)
  | .del k => if (d.get k).isSome then (d, .constError) else (d, .nameError)

def attempts (as : List (Attempt κ ν)) : Consts κ ν := as.foldl (fun d a => (attempt d a).1) []

end Pisi.Config
