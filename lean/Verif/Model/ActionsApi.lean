import Verif.Model.ActionsFS

/-!
# Model of pisi/actionsapi/shelltools.py and pisi/actionsapi/pisitools.py

Messages to the user are not modelled.
-/
namespace Pisi.Act
open Pisi.Path (joinPath)

/-- What the functions take from their surroundings: `get.installDIR()`, `os.getcwd()`, the option `ignore_action_errors` and the
recursion limit of the interpreter. -/
structure Env where
  inst : Str
  cwd : Str
  ignore : Bool
  limit : Nat

variable (e : Env)

def Env.cs (s : Str) : List Str := absComps e.cwd s

/-- `error`, pisi/actionsapi/__init__.py:23-27. -/
def error : Act := if e.ignore then skip else fail .action

/-- `makedirs`, pisi/actionsapi/shelltools.py:45-51. -/
def makedirs (d : Str) : Act := catching (· == .os)
  (fun fs => if existsC fs (e.cs d) then (fs, .ok ()) else makedirsC [] (e.cs d) fs) (error e)

/-- `unlink`, pisi/actionsapi/shelltools.py:91-101. -/
def unlink (p : Str) : Act := fun fs =>
  if isFileC fs (e.cs p) || isLinkC fs (e.cs p) then catching (· == .os) (call (unlinkC (e.cs p))) skip fs
  else (fs, .ok ())

/-- `unlinkDir`, pisi/actionsapi/shelltools.py:103-113. -/
def unlinkDir (p : Str) : Act := fun fs =>
  if isDirC fs (e.cs p) || isLinkC fs (e.cs p) then catching (· == .os) (call (rmtreeC (e.cs p))) (error e) fs
  else if isFileC fs (e.cs p) then (fs, .ok ())
  else error e fs

/-- `move`, pisi/actionsapi/shelltools.py:115-124. -/
def move (src dst : Str) : Act := fun fs =>
  each (fun p => fun fs =>
    if isFileC fs (e.cs p) || isLinkC fs (e.cs p) || isDirC fs (e.cs p) then
      catching (· == .os) (shutilMove e.cwd e.limit p dst) (error e) fs
    else error e fs) (glob fs e.cwd src) fs

/-- `s.strip('/')` -/
def stripSlash (s : Str) : Str := Path.rstrip (· = '/') (Path.lstripSlash s)

/-- `copytree`, pisi/actionsapi/shelltools.py:151-166; the number is the recursion limit. -/
def copytreeN : Nat → Str → Str → Bool → Act
  | 0, _, _, _ => fail .recursion
  | n + 1, src, dst, sym => fun fs =>
    if isDirC fs (e.cs src) then
      if existsC fs (e.cs dst) then
        if isDirC fs (e.cs dst) then copytreeN n src (joinPath dst [basename (stripSlash src)]) true fs
        else copytreeN n src (joinPath dst [basename src]) true fs
      else catching (· == .os) (shutilCopytree e.cwd sym n src dst) (error e) fs
    else error e fs

def copytree (src dst : Str) (sym : Bool) : Act := copytreeN e e.limit src dst sym

/-- The body of the loop of `copy`, pisi/actionsapi/shelltools.py:129-149. -/
def copyOne (dst : Str) (sym : Bool) (p : Str) : Act := fun fs =>
  let cp := e.cs p
  match lstat fs cp with
  | some (.link t) =>
    if sym then
      if isDirC fs (e.cs dst) then call (symlinkC t (e.cs (joinPath dst [basename p]))) fs
      else seq (fun fs => if isFileC fs (e.cs dst) then call (unlinkC (e.cs dst)) fs else (fs, .ok ()))
        (call (symlinkC t (e.cs dst))) fs
    else if isDirC fs cp then copytree e p dst true fs
    else shutilCopy e.cwd p dst fs
  | _ =>
    if isFileC fs cp then catching (· == .io) (shutilCopy e.cwd p dst) (error e) fs
    else if isDirC fs cp then copytree e p dst sym fs
    else error e fs

/-- `copy`, pisi/actionsapi/shelltools.py:126-149. -/
def copy (src dst : Str) (sym : Bool) : Act := fun fs => each (copyOne e dst sym) (glob fs e.cwd src) fs

/-! ## pisitools -/

/-- `dodir`, pisi/actionsapi/pisitools.py:50-52. -/
def dodir (d : Str) : Act := makedirs e (joinPath e.inst [d])

/-- `domove`, pisi/actionsapi/pisitools.py:153-164. -/
def domove (src dst dstFile : Str) : Act := seq (makedirs e (joinPath e.inst [dst])) fun fs =>
  each (fun p => move e p (joinPath e.inst [joinPath dst [if dstFile = [] then basename p else dstFile]]))
    (glob fs e.cwd (joinPath e.inst [src])) fs

/-- `rename`, pisi/actionsapi/pisitools.py:166-179. -/
def rename (src dstFile : Str) : Act :=
  catching (· == .os) (call (renameC (e.cs (joinPath e.inst [src])) (e.cs (joinPath e.inst [FS.dirname src, dstFile]))))
    (error e)

/-- `dosym`, pisi/actionsapi/pisitools.py:204-213. -/
def dosym (src dst : Str) : Act := seq (makedirs e (joinPath e.inst [FS.dirname dst]))
  (catching (· == .os) (call (symlinkC src (e.cs (joinPath e.inst [dst])))) (error e))

/-- `insinto`, pisi/actionsapi/pisitools.py:215-224. -/
def insinto (dst src dstFile : Str) (sym : Bool) : Act := seq (makedirs e (joinPath e.inst [dst])) fun fs =>
  if dstFile = [] then
    each (fun p => fun fs =>
      if existsC fs (e.cs p) then copy e p (joinPath e.inst [joinPath dst [basename p]]) sym fs else (fs, .ok ()))
      (glob fs e.cwd src) fs
  else copy e src (joinPath e.inst [joinPath dst [dstFile]]) sym fs

/-- `remove`, pisi/actionsapi/pisitools.py:241-244. -/
def remove (src : Str) : Act := fun fs => each (unlink e) (glob fs e.cwd (joinPath e.inst [src])) fs

/-- `removeDir`, pisi/actionsapi/pisitools.py:246-249. -/
def removeDir (d : Str) : Act := fun fs => each (unlinkDir e) (glob fs e.cwd (joinPath e.inst [d])) fs

/-! ## dosed -/

/-- The lines of a file, with their ends. -/
def linesKeep : Str → List Str
  | [] => []
  | c :: s => if c = '\n' then [c] :: linesKeep s else match linesKeep s with
    | [] => [[c]]
    | l :: ls => (c :: l) :: ls

def bak (s : Str) : Str := s ++ ".bak".toList

/-- `fileinput.input(p, inplace = 1)` and the loop around `re.sub`, pisi/actionsapi/pisitools.py:191-194: the file is renamed, read
and written anew, the renamed one is deleted.  `sub` is `re.sub` with the pattern and the replacement. -/
def sedFile (sub : Str → Str) (p : Str) : Act :=
  seq (catching (· == .os) (call (unlinkC (e.cs (bak p)))) skip) <|
  seq (call (renameC (e.cs p) (e.cs (bak p)))) fun fs =>
    match stat fs (e.cs (bak p)) with
    | some (.file c) =>
      seq (call (writeC (e.cs p) ((linesKeep c).flatMap sub)))
        (catching (· == .os) (call (unlinkC (e.cs (bak p)))) skip) fs
    | _ => (fs, .error .io)

/-- `dosed`, pisi/actionsapi/pisitools.py:181-196. -/
def dosed (sub : Str → Str) (src : Str) : Act := fun fs =>
  each (fun p => fun fs => if existsC fs (e.cs p) then sedFile e sub p fs else (fs, .error .action)) (glob fs e.cwd src) fs

/-! ## Scripts -/

/-- A call of an actions script. -/
inductive Call where
  | dodir (d : Str)
  | domove (src dst dstFile : Str)
  | rename (src dstFile : Str)
  | dosym (src dst : Str)
  | insinto (dst src dstFile : Str) (sym : Bool)
  | remove (src : Str)
  | removeDir (d : Str)

def Call.run : Call → Act
  | .dodir d => Act.dodir e d
  | .domove s d f => Act.domove e s d f
  | .rename s d => Act.rename e s d
  | .dosym s d => Act.dosym e s d
  | .insinto d s f y => Act.insinto e d s f y
  | .remove s => Act.remove e s
  | .removeDir d => Act.removeDir e d

/-- A script; an error ends it. -/
def script (l : List Call) : Act := each (Call.run e) l

end Pisi.Act
