import Verif.Model.Path

/-!
# Model of the package file name helpers of pisi/util/pkg.py
-/
namespace Pisi.PkgName
open Pisi.Path

/-- `ctx.const.package_suffix`, pisi/constants.py:36. -/
def packageSuffix : Str := ['.', 'p', 'i', 's', 'i']

/-- `str(build)` for a build number. -/
def buildStr (b : Nat) : Str := Nat.toDigits 10 b

/-- `package_name(name, version, release, build, prependSuffix)`, pisi/util/pkg.py:29-35.  The build number `None` or
0 is left out. -/
def packageName (name version release : Str) (build : Option Nat) (suffix : Bool := true) : Str :=
  let fn := name ++ ['-'] ++ version ++ ['-'] ++ release
  let fn := match build with
    | some b => if b = 0 then fn else fn ++ ['-'] ++ buildStr b
    | none => fn
  if suffix then fn ++ packageSuffix else fn

/-- `IndexError` of `part[0]` on an empty part. -/
inductive NameErr where
  | index
  deriving DecidableEq

/-- The loop of `parse_package_name`, pisi/util/pkg.py:77-82. -/
def nameParts : List Str → List Str → Except NameErr (List Str)
  | name, [] => .ok name
  | name, part :: rest =>
    if name = [] then nameParts (name ++ [part]) rest
    else match part with
      | [] => .error .index
      | c :: _ => if c.isDigit then .ok name else nameParts (name ++ [part]) rest

/-- `parse_package_name(package_name)`, pisi/util/pkg.py:72-86. -/
def parsePackageName (s : Str) : Except NameErr (Str × Str) :=
  match nameParts [] (splitOn '-' s) with
  | .error e => .error e
  | .ok ps => let name := joinWith ['-'] ps; .ok (name, s.drop (name.length + 1))

/-- `pure_package_name(package_name)`, pisi/util/pkg.py:63-70.  `rstrip` strips any of the characters of the suffix. -/
def purePackageName (s : Str) : Except NameErr Str :=
  let s := if suffix packageSuffix s then rstrip (fun c => decide (c ∈ packageSuffix)) s else s
  match parsePackageName s with
  | .ok p => .ok p.1
  | .error e => .error e

/-- `is_package_name(fn, package_name)`, pisi/util/pkg.py:37-50, with a package name given (without one the code raises
`TypeError`). -/
def isPackageName (fn name : Str) : Bool :=
  if «prefix» (name ++ ['-']) fn then
    if suffix packageSuffix fn then
      let verstr := (fn.take (fn.length - packageSuffix.length)).drop (name.length + 1)
      (splitOn '-' verstr).all (fun x => match x with
        | [] => false
        | c :: _ => c.isDigit)
    else false
  else false

end Pisi.PkgName
