/-
Model of the command help, pisi/cli/help.py.
-/
import Verif.Model.Cli

namespace Pisi.Cli

open Pisi

/-- How the command help ends: it has shown the general help, it has shown the help of all words, or it was stopped at a
word by one of the errors of `Command.get_command` (cli/command.py:53-62). -/
inductive HelpEnd where
  | usage
  | done
  | unrecognized (n : Str)
  | broken (e : BuildErr)
  | stopped (s : Stop)
  deriving DecidableEq, Repr

/-- The loop of Help.run, cli/help.py:53-56.  `get_command(arg, True)` makes the command with `args = None`, so that
optparse reads the words of the program, `argv`, with the options of the command named `arg` (cli/command.py:53-57, 66-78).
The commands whose help is shown are kept, not the texts (Command.help, cli/command.py:162-167). -/
def helpLoop (d : List (Str × Cls)) (argv : List Str) : List Str → List Cls × HelpEnd
  | [] => ([], .done)
  | w :: ws => match getCmd d w with
    | none => ([], .unrecognized w)
    | some c => match initCmd c argv with
      | .broken e => ([], .broken e)
      | .stopped s => ([], .stopped s)
      | _ => (c :: (helpLoop d argv ws).1, (helpLoop d argv ws).2)

/-- Help.run, cli/help.py:44-58, on the words `ws` that are left of `argv`; initialisation without databases
(cli/help.py:51, 58) is left out. -/
def helpRun (d : List (Str × Cls)) (argv ws : List Str) : List Cls × HelpEnd :=
  if ws = [] then ([], .usage) else helpLoop d argv ws

end Pisi.Cli
