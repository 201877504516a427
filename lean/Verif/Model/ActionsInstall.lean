import Verif.Model.ActionsApi

/-!
# Model of pisi/actionsapi/pisitoolsfunctions.py

The functions put a command line together and give it to the shell, which splits it into words again.  The `install` program is
described as GNU coreutils has it: owners and modes are left out, as in `Model/ActionsFS.lean`.
-/
namespace Pisi.Act
open Pisi.Path (joinPath)

/-- The characters `str.split()` splits at. -/
def blank (c : Char) : Bool := c = ' ' || c = '\t' || c = '\n' || c = '\r' || c = '\x0b' || c = '\x0c'

/-- `str.split()`; `w` is the word read so far. -/
def splitBlank (w : Str) : Str → List Str
  | [] => if w = [] then [] else [w]
  | c :: s => if blank c then (if w = [] then splitBlank [] s else w :: splitBlank [] s) else splitBlank (w ++ [c]) s

/-- `string.join(string.split(command))`, pisi/actionsapi/shelltools.py:224. -/
def squeeze (s : Str) : Str := List.intercalate [' '] (splitBlank [] s)

/-- The characters that mean something to the shell outside of quotes, other than space, tab and the double quote. -/
def shSpecial (c : Char) : Bool := ['|', '&', ';', '<', '>', '(', ')', '$', '`', '\\', '\'', '#', '~', '*', '?', '[', ']', '{', '}', '\n'].contains c

/-- The same between double quotes. -/
def quotedSpecial (c : Char) : Bool := ['$', '`', '\\'].contains c

/-- The words of a command line, as the shell has them.  `none`: there is something the model does not follow, like a variable or a
missing quote.  `w` is the word read so far, `q` tells whether it is between quotes. -/
def shGo (q : Bool) (w : Option Str) : Str → Option (List Str)
  | [] => if q then none else some w.toList
  | c :: s =>
    if q then
      if c = '"' then shGo false w s
      else if quotedSpecial c then none
      else shGo true (some (w.getD [] ++ [c])) s
    else
      if c = '"' then shGo true (some (w.getD [])) s
      else if c = ' ' ∨ c = '\t' then (shGo false none s).map (w.toList ++ ·)
      else if shSpecial c then none
      else shGo false (some (w.getD [] ++ [c])) s

def shWords (s : Str) : Option (List Str) := shGo false none s

/-! The words the commands are made of. -/
def wInstall : Str := ['i', 'n', 's', 't', 'a', 'l', 'l']
def wSudo : Str := ['s', 'u', 'd', 'o']
def wMode (m : Str) : Str := '-' :: 'm' :: m
def wRead : Str := wMode ['0', '6', '4', '4']
def wExec : Str := wMode ['0', '7', '5', '5']
def wRoot : List Str := [['-', 'o'], ['r', 'o', 'o', 't'], ['-', 'g'], ['r', 'o', 'o', 't']]

variable (e : Env)

/-- `install SRC TARGET` for one file: a file or link that is there is replaced. -/
def installFile (src target : List Str) (fs : FS) : FS :=
  match stat fs src with
  | some (.file c) =>
    if sameFile fs src target then fs
    else match lresolve fs target with
      | some p => match look fs p with
        | some .dir => fs
        | _ => fs.put p (.file c)
      | none => fs
  | _ => fs

/-- `install` with its arguments; the last is the destination.  Words that begin with `-` are options: the model leaves them alone
and does nothing. -/
def installArgs (args : List Str) (fs : FS) : FS :=
  if args.any (fun a => a.head? = some '-') then fs
  else match args.reverse with
    | d :: s :: ss =>
      if isDirC fs (e.cs d) then
        (s :: ss).reverse.foldl (fun fs s => installFile (e.cs s) (e.cs (osJoin d (basename s))) fs) fs
      else if ss = [] then installFile (e.cs s) (e.cs d) fs
      else fs
    | _ => fs

/-- A command line is run.  Only `install` does something here; its exit status is given back by the callers' callees and disregarded
by all callers below. -/
def shell (cmd : Str) : Act := fun fs => match shWords cmd with
  | some (c :: m :: args) =>
    if c = wInstall ∧ m.take 2 = wMode [] then (installArgs e args fs, .ok ())
    else if c = wSudo ∧ m = wInstall ∧ args.take 5 = wExec :: wRoot then (installArgs e (args.drop 5) fs, .ok ())
    else (fs, .ok ())
  | _ => (fs, .ok ())

/-- The argument of `system` in `readable_insinto`, pisi/actionsapi/pisitoolsfunctions.py:82. -/
def readableCmd (src dst : Str) : Str := wInstall ++ ' ' :: (wRead ++ ' ' :: ('"' :: src ++ '"' :: ' ' :: dst))

/-- `readable_insinto`, pisi/actionsapi/pisitoolsfunctions.py:68-82; `sd` is `get.sourceDIR()`.  A directory that can be accessed exists,
then `makedirs` does nothing. -/
def readableInsinto (sd dst : Str) (srcs : List Str) : Act :=
  if srcs = [] ∨ dst = [] then fail .action
  else seq (makedirs e dst) <| each (fun s => fun fs =>
    each (fun p => shell e (squeeze (readableCmd p dst))) (glob fs e.cwd (joinPath sd [s])) fs) srcs

/-- The command of `executable_insinto`, pisi/actionsapi/pisitoolsfunctions.py:65-66, with the `sudo` of `run_batch`,
pisi/util/process.py:27-28. -/
def executableCmd (src dst : Str) : Str := wSudo ++ ' ' :: (wInstall ++ ' ' :: (wExec ++ ' ' :: (List.intercalate [' '] wRoot ++ ' ' :: (src ++ ' ' :: dst))))

/-- `executable_insinto`, pisi/actionsapi/pisitoolsfunctions.py:45-66, on systems other than Mac OS. -/
def executableInsinto (sd dst : Str) (srcs : List Str) : Act :=
  if srcs = [] ∨ dst = [] then fail .action
  else seq (makedirs e dst) <| each (fun s => fun fs =>
    each (fun p => shell e (executableCmd p dst)) (glob fs e.cwd (joinPath sd [s])) fs) srcs

/-- `dobin`, `doexe` and `dosbin`, pisi/actionsapi/pisitools.py:41-48, 61-64, 198-202. -/
def dobin (sd src dst : Str) : Act := executableInsinto e sd (joinPath e.inst [dst]) [src]

/-- `doexes`, pisi/actionsapi/pisitools.py:66-69: the list becomes one argument, and a list has no `lstrip`, pisi/util/path.py:85. -/
def doexes (_sd : Str) (_srcs : List Str) (dst : Str) : Act := seq (makedirs e (joinPath e.inst [dst])) (fail .attr)

/-- `dodoc`, pisi/actionsapi/pisitools.py:54-59; `tag` is `get.srcTAG()`. -/
def dodoc (sd tag : Str) (srcs : List Str) : Act :=
  readableInsinto e sd (joinPath e.inst ["/usr/share/doc".toList, tag]) srcs

/-- `os.path.realpath` of something that exists. -/
def realpath (fs : FS) (cs : List Str) : Str := ((resolve fs cs).getD []).flatMap fun c => '/' :: c

/-- `lib_insinto`, pisi/actionsapi/pisitoolsfunctions.py:84-96; `perm` is written as the decimal number it is. -/
def libInsinto (src dst perm : Str) : Act :=
  if src = [] ∨ dst = [] then fail .action
  else seq (makedirs e dst) fun fs =>
    if isLinkC fs (e.cs src) then call (symlinkC (realpath fs (e.cs src)) (e.cs (osJoin dst src))) fs
    else shell e (squeeze (wInstall ++ ' ' :: (wMode perm ++ ' ' :: (src ++ ' ' :: dst)))) fs

/-- `dolib`, `dolib_so` and `dolib_a`, pisi/actionsapi/pisitools.py:97-123. -/
def dolib (src dst perm : Str) : Act := libInsinto e (joinPath e.cwd [src]) (joinPath e.inst [dst]) perm

end Pisi.Act
