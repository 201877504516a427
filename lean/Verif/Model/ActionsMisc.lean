import Verif.Model.ActionsMan

/-!
# Model of further functions of pisi/actionsapi: translations, config.guess and config.sub, linker scripts, touch and echo

As in `Model/ActionsFS.lean`, modes, owners and times are left out.
-/
namespace Pisi.Act
open Pisi.Path (joinPath)

variable (e : Env)

/-! ## domo -/

def wMsgfmt : Str := ['m', 's', 'g', 'f', 'm', 't']
def messagesMo : Str := ['m', 'e', 's', 's', 'a', 'g', 'e', 's', '.', 'm', 'o']

/-- What the program `msgfmt` does to a text is unknown: `compile` is any function, `none` where it finds an error in the text and
writes nothing.  Other command lines than `msgfmt FILE` have any effect, `other`. -/
structure Msgfmt where
  compile : Str → Option Str
  other : Str → FS → FS

/-- `system('msgfmt …')`, its value thrown away, pisi/actionsapi/pisitools.py:149. -/
def msgfmt (m : Msgfmt) (cmd : Str) : Act := fun fs =>
  match shWords cmd with
  | some [c, f] =>
    if c = wMsgfmt ∧ f.head? ≠ some '-' then
      match stat fs (e.cs f) with
      | some (.file t) => match m.compile t with
        | some o => match writeC (e.cs messagesMo) o fs with
          | .ok fs' => (fs', .ok ())
          | .error _ => (fs, .ok ())
        | none => (fs, .ok ())
      | _ => (fs, .ok ())
    else (m.other cmd fs, .ok ())
  | _ => (m.other cmd fs, .ok ())

/-- `'%s/usr/share/locale/%s/LC_MESSAGES/'`, pisi/actionsapi/pisitools.py:150-151. -/
def localeDir (locale : Str) : Str := e.inst ++ ("/usr/share/locale/".toList ++ (locale ++ "/LC_MESSAGES/".toList))

/-- `domo`, pisi/actionsapi/pisitools.py:144-151. -/
def domo (m : Msgfmt) (src locale dst : Str) : Act :=
  seq (msgfmt e m (squeeze (wMsgfmt ++ ' ' :: src))) <| seq (makedirs e (localeDir e locale)) <|
    move e messagesMo (localeDir e locale ++ dst)

/-! ## gnuconfig_update -/

def configSub : Str := ['c', 'o', 'n', 'f', 'i', 'g', '.', 's', 'u', 'b']
def configGuess : Str := ['c', 'o', 'n', 'f', 'i', 'g', '.', 'g', 'u', 'e', 's', 's']
def gnuconfigDir : Str := ['/', 'u', 's', 'r', '/', 's', 'h', 'a', 'r', 'e', '/', 'g', 'n', 'u', 'c', 'o', 'n', 'f', 'i', 'g', '/']

/-- One file that is found, pisi/actionsapi/libtools.py:46-50. -/
def gnuconfigFile (root f : Str) : Act :=
  if f ∈ [configSub, configGuess] then
    seq (fun fs => if isLinkC fs (e.cs (osJoin root f)) then unlink e (osJoin root f) fs else (fs, .ok ()))
      (copy e (gnuconfigDir ++ f) (joinPath root [f]) true)
  else skip

/-- `gnuconfig_update`, pisi/actionsapi/libtools.py:42-51.  The tree is gone through before the first file is replaced; the program goes
through it meanwhile, which makes no difference, for no directory comes or goes. -/
def gnuconfigUpdate : Act := fun fs =>
  each (fun df => each (gnuconfigFile e df.1) df.2) (osWalk e fs e.limit e.cwd) fs

/-! ## gen_usr_ldscript -/

/-- The beginning of the text, pisi/actionsapi/libtools.py:62-69. -/
def ldscriptHead : Str :=
  ['\n', '/', '*', ' ', 'G', 'N', 'U', ' ', 'l', 'd', ' ', 's', 'c', 'r', 'i', 'p', 't', '\n', ' ', ' ', ' ', ' ', 'S', 'i',
   'n', 'c', 'e', ' ', 'P', 'a', 'r', 'd', 'u', 's', ' ', 'h', 'a', 's', ' ', 'c', 'r', 'i', 't', 'i', 'c', 'a', 'l', ' ', 'd',
   'y', 'n', 'a', 'm', 'i', 'c', ' ', 'l', 'i', 'b', 'r', 'a', 'r', 'i', 'e', 's', '\n', ' ', ' ', ' ', ' ', 'i', 'n', ' ',
   '/', 'l', 'i', 'b', ',', ' ', 'a', 'n', 'd', ' ', 't', 'h', 'e', ' ', 's', 't', 'a', 't', 'i', 'c', ' ', 'v', 'e', 'r', 's',
   'i', 'o', 'n', 's', ' ', 'i', 'n', ' ', '/', 'u', 's', 'r', '/', 'l', 'i', 'b', ',', '\n', ' ', ' ', ' ', ' ', 'w', 'e',
   ' ', 'n', 'e', 'e', 'd', ' ', 't', 'o', ' ', 'h', 'a', 'v', 'e', ' ', 'a', ' ', '"', 'f', 'a', 'k', 'e', '"', ' ', 'd', 'y',
   'n', 'a', 'm', 'i', 'c', ' ', 'l', 'i', 'b', ' ', 'i', 'n', ' ', '/', 'u', 's', 'r', '/', 'l', 'i', 'b', ',', '\n', ' ',
   ' ', ' ', ' ', 'o', 't', 'h', 'e', 'r', 'w', 'i', 's', 'e', ' ', 'w', 'e', ' ', 'r', 'u', 'n', ' ', 'i', 'n', 't', 'o', ' ',
   'l', 'i', 'n', 'k', 'i', 'n', 'g', ' ', 'p', 'r', 'o', 'b', 'l', 'e', 'm', 's', '.', '\n', '*', '/', '\n', 'G', 'R', 'O',
   'U', 'P', ' ', '(', ' ', '/', 'l', 'i', 'b', '/']

/-- The text, pisi/actionsapi/libtools.py:62-70. -/
def ldscript (lib : Str) : Str := ldscriptHead ++ (lib ++ [' ', ')', '\n'])

/-- `gen_usr_ldscript`, pisi/actionsapi/libtools.py:57-75; the error of `open` is not caught. -/
def genLdscript (lib : Str) : Act :=
  seq (makedirs e (e.inst ++ ['/', 'u', 's', 'r', '/', 'l', 'i', 'b'])) (call (writeC (e.cs (e.inst ++ (['/', 'u', 's', 'r', '/', 'l', 'i', 'b', '/'] ++ lib))) (ldscript lib)))

/-! ## shelltools -/

/-- `echo`, pisi/actionsapi/shelltools.py:53-59. -/
def echo (p content : Str) : Act := catching (· == .io)
  (fun fs => call (writeC (e.cs p) ((match stat fs (e.cs p) with
    | some (.file c) => c
    | _ => []) ++ (content ++ ['\n']))) fs) (error e)

/-- `touch`, pisi/actionsapi/shelltools.py:168-179; `os.utime` follows links and its error is not caught. -/
def touch (p : Str) : Act := fun fs =>
  if glob fs e.cwd p ≠ [] then each (fun f fs => if existsC fs (e.cs f) then (fs, .ok ()) else (fs, .error .os)) (glob fs e.cwd p) fs
  else catching (· == .io) (call (writeC (e.cs p) [])) (error e) fs

/-- `sym`, pisi/actionsapi/shelltools.py:84-89. -/
def sym (src dst : Str) : Act := catching (· == .os) (call (symlinkC src (e.cs dst))) skip

/-- `ls`, pisi/actionsapi/shelltools.py:189-194. -/
def ls (p : Str) (fs : FS) : List Str :=
  if isDirC fs (e.cs p) then (listdirC fs (e.cs p)).getD [] else glob fs e.cwd p

end Pisi.Act
