import Verif.Model.ActionsInstall

/-!
# Model of the rest of pisi/actionsapi/pisitools.py: manual pages, HTML files and files under a new name

As in `Model/ActionsInstall.lean`: the commands are put together and given to the shell, modes and owners are left out.
-/
namespace Pisi.Act
open Pisi.Path (joinPath)

variable (e : Env)

/-- `get.manDIR()`, pisi/actionsapi/variables.py:77. -/
def manDir : Str := ['u', 's', 'r', '/', 's', 'h', 'a', 'r', 'e', '/', 'm', 'a', 'n']

/-- `'usr/share/doc'`, pisi/actionsapi/pisitools.py:74, 233. -/
def docDir : Str := ['u', 's', 'r', '/', 's', 'h', 'a', 'r', 'e', '/', 'd', 'o', 'c']

/-- `source[source.rindex('.')+1:]`, pisi/actionsapi/pisitools.py:136-137; `none`: `ValueError`. -/
def afterDot (s : Str) : Option Str := if s.contains '.' then some (s.reverse.takeWhile (· ≠ '.')).reverse else none

/-- The command line at pisi/actionsapi/pisitools.py:142, 91: nothing is quoted. -/
def plainCmd (src dst : Str) : Str := wInstall ++ ' ' :: (wRead ++ ' ' :: (src ++ ' ' :: dst))

/-- The directory of a section, pisi/actionsapi/pisitools.py:141. -/
def sectionDir (sec : Str) : Str := joinPath (joinPath e.inst [manDir]) [['/', 'm', 'a', 'n'] ++ sec]

/-- The pages found for one name, pisi/actionsapi/pisitools.py:134-142.  `prev` is the variable `pageDirectory`, which keeps its value
when `error` returns since action errors are ignored; without a value it is an `UnboundLocalError`, here `.attr`. -/
def domanPages : Option Str → List Str → FS → FS × Except Err (Option Str)
  | prev, [], fs => (fs, .ok prev)
  | prev, p :: ps, fs =>
    match afterDot p, e.ignore with
    | none, false => (fs, .error .action)
    | d, _ => match d.or prev with
      | none => (fs, .error .attr)
      | some sec => match seq (makedirs e (sectionDir e sec)) (shell e (squeeze (plainCmd p (sectionDir e sec)))) fs with
        | (fs', .ok ()) => domanPages (some sec) ps fs'
        | (fs', .error x) => (fs', .error x)

def domanLoop : Option Str → List Str → FS → FS × Except Err Unit
  | _, [], fs => (fs, .ok ())
  | prev, s :: ss, fs => match domanPages e prev (glob fs e.cwd s) fs with
    | (fs', .ok prev') => domanLoop prev' ss fs'
    | (fs', .error x) => (fs', .error x)

/-- `doman`, pisi/actionsapi/pisitools.py:125-142.  A directory that can be accessed exists, then `makedirs` does nothing. -/
def doman (srcs : List Str) : Act := seq (makedirs e (joinPath e.inst [manDir])) (domanLoop e none srcs)

/-- `os.path.splitext(s)[1]`: dots at the beginning of the name do not count. -/
def extOf (s : Str) : Str :=
  let b := (basename s).dropWhile (· = '.')
  if b.contains '.' then '.' :: (b.reverse.takeWhile (· ≠ '.')).reverse else []

/-- `allowed_extensions`, pisi/actionsapi/pisitools.py:79. -/
def htmlExts : List Str := [['.', 'p', 'n', 'g'], ['.', 'g', 'i', 'f'], ['.', 'h', 't', 'm', 'l'], ['.', 'h', 't', 'm'],
  ['.', 'j', 'p', 'g'], ['.', 'c', 's', 's'], ['.', 'j', 's']]

/-- `os.walk`: the directories with the names in them that are no directories; links to directories are not gone through.  The number
bounds the depth. -/
def osWalk (fs : FS) : Nat → Str → List (Str × List Str)
  | 0, _ => []
  | n + 1, d => match listdirC fs (e.cs d) with
    | none => []
    | some names => (d, names.filter fun x => !isDirC fs (e.cs (osJoin d x))) ::
      (names.filter fun x => isDirC fs (e.cs (osJoin d x)) && !isLinkC fs (e.cs (osJoin d x))).flatMap fun x => osWalk fs n (osJoin d x)

/-- One name found by `dohtml`, pisi/actionsapi/pisitools.py:84-91.  The tree is gone through before the first file is installed; the
program goes through it meanwhile, which makes a difference only if the destination is below. -/
def dohtmlOne (dst p : Str) : Act := fun fs =>
  seq (if isFileC fs (e.cs p) && htmlExts.contains (extOf p) then shell e (squeeze (readableCmd p dst)) else skip)
    (fun fs => if isDirC fs (e.cs p) && basename p ≠ ['C', 'V', 'S'] then
      each (fun df => each (fun f =>
        if htmlExts.contains (extOf f) then seq (makedirs e dst) (shell e (squeeze (plainCmd (joinPath df.1 [f]) dst))) else skip) df.2)
        (osWalk e fs e.limit p) fs
     else (fs, .ok ())) fs

def htmlDir (tag : Str) : Str := joinPath e.inst [docDir, tag, ['h', 't', 'm', 'l']]

/-- `dohtml`, pisi/actionsapi/pisitools.py:71-91. -/
def dohtml (tag : Str) (srcs : List Str) : Act := seq (makedirs e (htmlDir e tag)) <| each (fun s => fun fs =>
  each (dohtmlOne e (htmlDir e tag)) (glob fs e.cwd s) fs) srcs

/-- `newdoc`, pisi/actionsapi/pisitools.py:226-233. -/
def newdoc (sd tag src dst : Str) : Act := seq (copy e src (basename dst) true)
  (readableInsinto e sd (joinPath e.inst [docDir, tag, FS.dirname dst]) [basename dst])

/-- `newman`, pisi/actionsapi/pisitools.py:235-239. -/
def newman (src dst : Str) : Act := seq (copy e src dst true) (doman e [dst])

end Pisi.Act
