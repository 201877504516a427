import Verif.Model.Str

/-!
# Model of the console, pisi/cli/__init__.py, pisi/cli/colors.py and pisi/util/term.py

Streams are texts of characters; that they are written in UTF-8 is not modelled.  The texts of the programs are the English ones.
-/
namespace Pisi.Console

/-- The options and the surroundings: `--no-color`, `--verbose`, `--debug`, whether there is a log (pisi/api.py:58-68) and whether
standard error is a terminal with a title (pisi/util/term.py:22-28). -/
structure Term where
  noColor : Bool
  verbose : Bool
  debug : Bool
  log : Bool
  titled : Bool

/-- The events of `notify`, pisi/ui.py:22-23. -/
inductive Event where
  | installed | upgraded | removed | installing | removing | configuring | configured | extracting | downloading | packagestogo
  deriving DecidableEq

/-- The calls of the user interface. -/
inductive Call where
  | info (msg : Str) (verbose noln : Bool)
  | warning (msg : Str) (verbose : Bool)
  | error (msg : Str)
  | action (msg : Str) (verbose : Bool)
  | status (msg : Str)
  | notify (e : Event) (name : Str)
  | debug (msg : Str)

inductive Level where
  | info | warning | error
  deriving DecidableEq

/-- What was written: to standard output, standard error, the log and the title of the terminal.  The title is written to standard error
in a control sequence that the terminal takes out. -/
structure Written where
  out : Str := []
  err : Str := []
  log : List (Level × Str) := []
  titles : List Str := []

/-- pisi/cli/colors.py:20-59, the colours that are used. -/
inductive Color where
  | red | green | purple | cyan | default

def Color.code : Color → Str
  | .red => "\x1b[31m".toList
  | .green => "\x1b[32m".toList
  | .purple => "\x1b[35m".toList
  | .cyan => "\x1b[36m".toList
  | .default => "\x1b[0m".toList

/-- `colorize`, pisi/cli/colors.py:62-68. -/
def colorize (t : Term) (msg : Str) (c : Color) : Str := if t.noColor then msg else c.code ++ msg ++ Color.default.code

/-- `output`, pisi/cli/__init__.py:56-65. -/
def output (t : Term) (msg : Str) (err verbose : Bool) (w : Written) : Written :=
  if (verbose && t.verbose) || !verbose then
    if err then { w with err := w.err ++ msg } else { w with out := w.out ++ msg }
  else w

/-- `ctx.log.…(msg)` if there is a log. -/
def logged (t : Term) (l : Level) (msg : Str) (w : Written) : Written := if t.log then { w with log := w.log ++ [(l, msg)] } else w

/-- `info`, pisi/cli/__init__.py:67-72. -/
def info (t : Term) (msg : Str) (verbose noln : Bool) (w : Written) : Written :=
  output t (if noln then msg else msg ++ ['\n']) false verbose w

/-- The message of `notify`, pisi/cli/__init__.py:142-154. -/
def Event.text : Event → Str → Option Str
  | .installed, n => some ("Installed ".toList ++ n)
  | .removed, n => some ("Removed ".toList ++ n)
  | .upgraded, n => some ("Upgraded ".toList ++ n)
  | .configured, n => some ("Configured ".toList ++ n)
  | .extracting, n => some ("Extracting the files of ".toList ++ n)
  | _, _ => none

/-- `str(message)` of a unicode text. -/
def asciiOnly (s : Str) : Bool := s.all (fun c => c.toNat < 128)

/-- One call, pisi/cli/__init__.py:74-97, 136-159, pisi/ui.py:67-70; `none` is an exception: the title is converted to a byte string,
pisi/util/term.py:28. -/
def call (t : Term) (w : Written) : Call → Option Written
  | .info msg v n => some (info t msg v n w)
  | .warning msg v =>
    let w := logged t .warning msg w
    some (if t.noColor then output t ("Warning: ".toList ++ msg ++ ['\n']) true v w
      else output t (colorize t (msg ++ ['\n']) .purple) true v w)
  | .error msg =>
    let w := logged t .error msg w
    some (if t.noColor then output t ("Error: ".toList ++ msg ++ ['\n']) true false w
      else output t (colorize t (msg ++ ['\n']) .red) true false w)
  | .action msg _ => some (output t (colorize t (msg ++ ['\n']) .green) false false (logged t .info msg w))
  | .status msg =>
    if msg = [] then some w
    else
      let w := output t (colorize t (msg ++ ['\n']) .purple) false false w
      if t.titled then (if asciiOnly msg then some { w with titles := w.titles ++ [msg] } else none) else some w
  | .notify e n => match e.text n with
    | none => some w
    | some msg => some (logged t .info msg (output t (colorize t (msg ++ ['\n']) .cyan) false false w))
  | .debug msg => some (if t.debug then info t ("DEBUG: ".toList ++ msg) false false w else w)

/-- A sequence of calls. -/
def run (t : Term) (cs : List Call) : Option Written := cs.foldlM (call t) {}

end Pisi.Console
