import Verif.Model.Str

/-!
# Model of the end of pisi-cli

The conversion of the text of an exception to unicode is not modelled: texts are those it gives.
-/
namespace Pisi.Handler

/-- What ends a run of the program, as pisi-cli:38-56 and 69-70 tell apart. -/
inductive Kind where
  /-- `KeyboardInterrupt` -/
  | interrupt
  /-- exactly `pisicli.Error` -/
  | usage
  /-- another `pisi.Error` -/
  | pisi
  /-- `DBRunRecoveryError` -/
  | recovery
  /-- another `pisi.Exception` -/
  | internal
  /-- any other exception -/
  | system
  deriving DecidableEq

/-- What is printed; errors are printed with `ui.error`, the rest with `ui.info`, except for the traceback. -/
inductive Out where
  | interrupted | terminated | aborted | bugReport | systemError
  | reason (text : Str)
  | help
  | traceback
  | useDebug
  deriving DecidableEq

structure Failure where
  kind : Kind
  /-- the name of the class of the exception -/
  cls : Str
  text : Str

/-- `ctx.get_option('debug')`, pisi/context.py:28-29: nothing is known before `pisi.api.init`. -/
def debugOption (initialised debug : Bool) : Bool := initialised && debug

/-- `handle_exception`, pisi-cli:34-72, with the status it exits with, pisi-cli:30-32. -/
def handle (f : Failure) (initialised debug : Bool) : List Out × Nat :=
  match f.kind with
  | .interrupt => ([.interrupted], 1)
  | k =>
    let dbg := debugOption initialised debug
    let first : List Out × Bool := match k with
      | .usage | .pisi => ([.terminated], dbg)
      | .recovery => ([.aborted], false)
      | .internal => ([.bugReport], true)
      | _ => ([.systemError], dbg)
    let text := if dbg then f.cls ++ ": ".toList ++ f.text else f.text
    (first.1 ++ [.reason text, .help] ++
      (if first.2 then [.traceback] else if k ≠ .usage then [.useDebug] else []), 1)

/-- The end of the program, pisi-cli:74-83. -/
inductive End where
  | returned
  | upgraded
  | failed (f : Failure)

/-- What is printed at the end, apart from the output of the command, and the status; `true` is the line "PISI has been upgraded.". -/
def finish (e : End) (initialised debug : Bool) : Bool × List Out × Nat := match e with
  | .returned => (false, [], 0)
  | .upgraded => (true, [], 0)
  | .failed f => (false, handle f initialised debug)

end Pisi.Handler
