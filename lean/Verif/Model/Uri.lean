import Verif.Model.Str

/-!
# Model of pisi/uri.py on `urlparse` of python 2.7
-/
namespace Pisi.Uri

/-- `"file"`, the default scheme, pisi/uri.py:52. -/
def file : Str := ['f', 'i', 'l', 'e']

/-- `urlparse.scheme_chars` -/
def schemeChar (c : Char) : Bool := c.isAlphanum || c = '+' || c = '-' || c = '.'

/-- The first part of `urlparse.urlsplit(u, "file")`: what is before the first colon if these are scheme characters, and
what comes after is no port number. -/
def splitScheme (u : Str) : Str × Str :=
  let p := u.takeWhile (· ≠ ':')
  match u.dropWhile (· ≠ ':') with
  | [] => (file, u)
  | _ :: r =>
    if p ≠ [] ∧ p.all schemeChar ∧ (p = ['h', 't', 't', 'p'] ∨ r = [] ∨ r.any (fun c => !c.isDigit)) then (p.map Char.toLower, r)
    else (file, u)

/-- `urlparse.uses_params` -/
def usesParams : List Str :=
  [[],
   ['f', 't', 'p'],
   ['h', 'd', 'l'],
   ['p', 'r', 'o', 's', 'p', 'e', 'r', 'o'],
   ['h', 't', 't', 'p'],
   ['i', 'm', 'a', 'p'],
   ['h', 't', 't', 'p', 's'],
   ['s', 'h', 't', 't', 'p'],
   ['r', 't', 's', 'p'],
   ['r', 't', 's', 'p', 'u'],
   ['s', 'i', 'p'],
   ['s', 'i', 'p', 's'],
   ['m', 'm', 's'],
   ['s', 'f', 't', 'p'],
   ['t', 'e', 'l']]

/-- The path left by `urlparse._splitparams`: parameters are cut off the last part. -/
def dropParams (s : Str) : Str :=
  (s.reverse.dropWhile (· ≠ '/')).reverse ++ ((s.reverse.takeWhile (· ≠ '/')).reverse).takeWhile (· ≠ ';')

/-- `URI(u).scheme()`, pisi/uri.py:53, 88-89. -/
def scheme (u : Str) : Str := (splitScheme u).1

/-- `URI(u).path()`, pisi/uri.py:55, 94-95: without host, fragment, query and parameters. -/
def path (u : Str) : Str :=
  let s := (splitScheme u).1
  let r := (splitScheme u).2
  let r := if r.take 2 = ['/', '/'] then (r.drop 2).dropWhile (fun c => c ≠ '/' && c ≠ '?' && c ≠ '#') else r
  let r := (r.takeWhile (· ≠ '#')).takeWhile (· ≠ '?')
  if s ∈ usesParams then dropParams r else r

/-- `URI(u).filename()`, pisi/uri.py:56, 97-98. -/
def filename (u : Str) : Str := ((path u).reverse.takeWhile (· ≠ '/')).reverse

/-- `URI(u).is_remote_file()`, pisi/uri.py:64-71. -/
def isRemote (u : Str) : Bool := scheme u ≠ file

end Pisi.Uri
