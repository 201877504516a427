import Verif.Model.Str

/-!
# Model of pisi/util/fun.py (prefix and suffix helpers) and pisi/util/path.py
-/
namespace Pisi.Path

/-- Errors of the helpers. -/
inductive PathErr where
  | assertion
  | index
  deriving DecidableEq

variable {β : Type} [DecidableEq β]

/-- `prefix(a, b)`, pisi/util/fun.py:53-60; the index loop is a recursion. -/
def «prefix» : List β → List β → Bool
  | [], _ => true
  | _ :: _, [] => false
  | x :: xs, y :: ys => if x ≠ y then false else «prefix» xs ys

/-- `remove_prefix(a, b)`, pisi/util/fun.py:62-65. -/
def removePrefix (a b : List β) : Except PathErr (List β) :=
  if «prefix» a b then .ok (b.drop a.length) else .error .assertion

/-- `suffix(a, b)`, pisi/util/fun.py:67-74: compares `a[-i]` with `b[-i]`. -/
def suffix (a b : List β) : Bool := «prefix» a.reverse b.reverse

/-- `remove_suffix(a, b)`, pisi/util/fun.py:76-79: `b[:-len(a)]`; for an empty `a` this is `b[:0]`. -/
def removeSuffix (a b : List β) : Except PathErr (List β) :=
  if suffix a b then .ok (if a.length = 0 then [] else b.take (b.length - a.length)) else .error .assertion

/-- `splitpath(a)`, pisi/util/path.py:25-31. -/
def splitpath (a : Str) : List Str :=
  let comps := splitOn '/' a
  if comps.getLast? = some [] then comps.dropLast else comps

/-- `makepath(comps, relative)`, pisi/util/path.py:33-39, with the default separator. -/
def makepath (comps : List Str) (relative : Bool := false) : Str :=
  let path := comps.foldl (fun x y => x ++ ['/'] ++ y) []
  if relative then path.drop 1 else path

/-- `s.rstrip(c)` -/
def rstrip (p : Char → Bool) (s : Str) : Str := (s.reverse.dropWhile p).reverse

/-- `a[:a.rfind(c)]`: the part before the last `c`; without any `c`, `rfind` is -1 and the last character is
dropped. -/
def beforeLast (c : Char) (a : Str) : Str :=
  if c ∈ a then (((a.reverse.dropWhile (· ≠ c))).drop 1).reverse else a.dropLast

/-- `parentpath(a)`, pisi/util/path.py:41-44. -/
def parentpath (a : Str) : Str := beforeLast '/' (rstrip (· = '/') a)

/-- `subpath(a, b)`, pisi/util/path.py:63-65. -/
def subpath (a b : Str) : Bool := «prefix» (splitpath a) (splitpath b)

/-- `b.lstrip('/')` -/
def lstripSlash (b : Str) : Str := b.dropWhile (· = '/')

/-- One iteration of `join_path`, pisi/util/path.py:85-89. -/
def joinStep (path b : Str) : Str :=
  if path = [] ∨ path.getLast? = some '/' then path ++ lstripSlash b else path ++ '/' :: lstripSlash b

/-- `join_path(a, *p)`, pisi/util/path.py:81-90. -/
def joinPath (a : Str) (p : List Str) : Str := p.foldl joinStep a

/-- `removepathprefix(prefix, path)`, pisi/util/path.py:67-73. -/
def removepathprefix (pre path : Str) : Except PathErr Str :=
  match removePrefix (splitpath pre) (splitpath path) with
  | .error e => .error e
  | .ok [] => .ok []
  | .ok (c :: cs) => .ok (joinPath c cs)

/-- `absolute_path(path)`, pisi/util/path.py:75-78. -/
def absolutePath (path : Str) : Except PathErr Bool :=
  match splitpath path with
  | [] => .error .index
  | c :: _ => .ok (c = [])

end Pisi.Path
