import Verif.Model.Packaging

/-!
# What packaging built files should do

`Below x f`: the path `f` is `x` or lies below the directory `x`.
-/
namespace Pisi.Pack
open Pisi.FS

/-- The path `f` is `x` or below it. -/
def Below (x f : Str) : Prop := f = x ∨ ∃ r, f = x ++ '/' :: r

/-- Everything is below directories, nothing is below files and links. -/
def Tree (fs : FS) : Prop := ∀ a r, a ≠ [] → fs.has (a ++ '/' :: r) = true → fs.get a = some .dir

/-- No empty components: no doubled or trailing slash. -/
def Proper (r : Str) : Prop := ∀ c ∈ splitOn '/' r, c ≠ []

/-- A directory to collect from: it has a name, which does not end in a slash, and everything below has a proper name. -/
structure BuildRoot (fs : FS) (inst : Str) : Prop where
  tree : Tree fs
  ne : inst ≠ []
  last : inst.getLast? ≠ some '/'
  names : ∀ r, fs.has (inst ++ '/' :: r) = true → Proper r

/-- Something to be packaged: a file, a link, or an empty directory. -/
def Leaf (fs : FS) (f : Str) : Prop := match fs.get f with
  | some .dir => ∀ r, fs.has (f ++ '/' :: r) = false
  | some _ => True
  | none => False

/-- `w` is a result of `os.walk(top)`: one entry for each directory (not for links to directories), in any order. -/
structure IsWalk (fs : FS) (top : Str) (w : List Triple) : Prop where
  roots : ∀ d, (∃ t ∈ w, t.1 = d) ↔ Below top d ∧ fs.get d = some .dir
  dirs : ∀ t ∈ w, ∀ n, n ∈ t.2.1 ↔ n ≠ [] ∧ '/' ∉ n ∧ fs.has (t.1 ++ '/' :: n) = true ∧ isDir fs (t.1 ++ '/' :: n) = true
  files : ∀ t ∈ w, ∀ n, n ∈ t.2.2 ↔ n ≠ [] ∧ '/' ∉ n ∧ fs.has (t.1 ++ '/' :: n) = true ∧ isDir fs (t.1 ++ '/' :: n) = false

/-- Every listing of `os.walk` is right. -/
def Walks (fs : FS) (walk : Str → List Triple) : Prop := ∀ top, IsWalk fs top (walk top)

/-- `glob` without wild cards: the path itself if there is one. -/
def Literal (fs : FS) (glob : Str → List Str) : Prop := ∀ p x, x ∈ glob p ↔ x = p ∧ fs.has p = true

/-- The specification lists absolute paths without doubled or trailing slashes. -/
def AbsPaths (p : Pkg) : Prop := ∀ i ∈ p.files, ∃ r, i.path = '/' :: r ∧ Proper r

/-- The paths matching a listed path are below the build root and exist. -/
def GlobBelow (fs : FS) (glob : Str → List Str) (inst : Str) (p : Pkg) : Prop :=
  ∀ i ∈ p.files, ∀ x ∈ glob (inst ++ i.path), fs.has x = true ∧ ∃ r, x = inst ++ '/' :: r

/-- A package lists the path `f` or a directory above it. -/
def Lists (p : Pkg) (f : Str) : Prop := ∃ i ∈ p.files, Below i.path f

/-- No listed path is a mere beginning of the name `f` (like `/usr/share/doc` of `/usr/share/docbook`). -/
def Clear (p : Pkg) (f : Str) : Prop := ∀ i ∈ p.files, i.path <+: f → Below i.path f

/-- No path of a package lies between two paths of another one. -/
def NoSandwich (pkgs : List Pkg) : Prop := ∀ i j (hi : i < pkgs.length) (hj : j < pkgs.length),
  ∀ p ∈ pkgs[i].files, ∀ q ∈ pkgs[j].files, ∀ p' ∈ pkgs[i].files, Below p.path q.path → Below q.path p'.path → i = j

end Pisi.Pack
