/-
Model of the command line: the registry of commands, the pre-parser that finds the command, the
options of the commands and the parser of python's optparse that reads them.
-/
import Verif.Model.Str

namespace Pisi.Cli

open Pisi

/-- What an option does when it is met (optparse's actions, as used by cli/*.py): `action="store"`,
the same with `type="int"` (cli/repo.py:48-50), `action="store_true"`, and the help and version
options that optparse adds by itself. -/
inductive Action where
  | store
  | storeInt
  | storeTrue
  | help
  | version
  deriving DecidableEq, Repr

/-- An option (optparse.Option): its short letter if any, its long name without the dashes (every
option of pisi has one), and its action.  Default values and help texts are left out. -/
structure Opt where
  short : Option Char
  long : Str
  act : Action
  deriving DecidableEq, Repr

/-- optparse.Option.takes_value. -/
def Opt.takes (o : Opt) : Bool :=
  match o.act with
  | .store => true
  | .storeInt => true
  | _ => false

/-- The attribute an option is stored in: the long name with `_` for `-`
(optparse.Option._set_dest; cli/command.py:89-90 gives the same name explicitly). -/
def Opt.dest (o : Opt) : Str :=
  o.long.map (fun c => if c = '-' then '_' else c)

/-- One statement of an `options` method: `add_option`, `remove_option` (by long name), and the
use of a name that is not defined in the module (cli/listcmd.py:222, where `buildno_opts` is not
imported: listcmd.py:14-26). -/
inductive OptStep where
  | add (o : Opt)
  | remove (long : Str)
  | undefinedName
  deriving DecidableEq, Repr

/-- Ways in which the construction of a parser fails: optparse.OptionConflictError, ValueError of
`remove_option`, NameError. -/
inductive BuildErr where
  | conflict
  | noSuchOption
  | nameError
  deriving DecidableEq, Repr

/-- optparse.OptionContainer._check_conflict: does the new option share its short or its long
string with one that is there? -/
def conflicts (t : List Opt) (o : Opt) : Bool :=
  t.any (fun p => (o.short.isSome && p.short == o.short) || p.long == o.long)

/-- optparse.OptionContainer.add_option with the default conflict handler "error", and
remove_option. -/
def optStep (t : List Opt) : OptStep → Except BuildErr (List Opt)
  | .add o => if conflicts t o then .error .conflict else .ok (t ++ [o])
  | .remove l => if t.any (fun p => p.long == l) then .ok (t.filter (fun p => p.long != l))
      else .error .noSuchOption
  | .undefinedName => .error .nameError

/-- The statements one after the other. -/
def optSteps : List Opt → List OptStep → Except BuildErr (List Opt)
  | t, [] => .ok t
  | t, s :: ss => match optStep t s with
    | .error e => .error e
    | .ok t' => optSteps t' ss

/-- The options every OptionParser with a version has
(optparse.OptionParser._populate_option_list). -/
def parserOpts : List OptStep :=
  [ .add ⟨none, ['v', 'e', 'r', 's', 'i', 'o', 'n'], .version⟩,
    .add ⟨some 'h', ['h', 'e', 'l', 'p'], .help⟩ ]

/-- Command.commonopts, cli/command.py:80-98. -/
def commonOpts : List OptStep :=
  [
    .add ⟨some 'D', ['d', 'e', 's', 't', 'd', 'i', 'r'], .store⟩,
    .add ⟨some 'y', ['y', 'e', 's', '-', 'a', 'l', 'l'], .storeTrue⟩,
    .add ⟨some 'u', ['u', 's', 'e', 'r', 'n', 'a', 'm', 'e'], .store⟩,
    .add ⟨some 'p', ['p', 'a', 's', 's', 'w', 'o', 'r', 'd'], .store⟩,
    .add ⟨some 'v', ['v', 'e', 'r', 'b', 'o', 's', 'e'], .storeTrue⟩,
    .add ⟨some 'd', ['d', 'e', 'b', 'u', 'g'], .storeTrue⟩,
    .add ⟨some 'N', ['n', 'o', '-', 'c', 'o', 'l', 'o', 'r'], .storeTrue⟩,
    .add ⟨some 'L', ['b', 'a', 'n', 'd', 'w', 'i', 'd', 't', 'h', '-', 'l', 'i', 'm', 'i', 't'], .store⟩
  ]

/-- A command class: its two names (`name = (long, short)`) and the statements of its `options`
method, inherited ones in their place. -/
structure Cls where
  long : Str
  short : Option Str
  opts : List OptStep
  deriving DecidableEq, Repr

/-- The parser of a command (Command.__init__, cli/command.py:66-74): the options of optparse,
then those of the command, then the common ones. -/
def mkParser (c : Cls) : Except BuildErr (List Opt) :=
  match optSteps [] parserOpts with
  | .error e => .error e
  | .ok t => match optSteps t c.opts with
    | .error e => .error e
    | .ok t' => optSteps t' commonOpts

/-! ### The registry -/

/-- `Command.cmd_dict[cmd] = cls` for a command that is not there (autocommand.add_cmd,
cli/command.py:184-188); `none` is the error "Duplicate command". -/
def addCmd (d : List (Str × Cls)) (n : Str) (c : Cls) : Option (List (Str × Cls)) :=
  if d.any (fun e => e.1 == n) then none else some (d ++ [(n, c)])

/-- autocommand.__init__, cli/command.py:176-191: both names of a new command class.  A short name
that is empty counts as none. -/
def register (d : List (Str × Cls)) (c : Cls) : Option (List (Str × Cls)) :=
  match addCmd d c.long c with
  | none => none
  | some d' => match c.short with
    | none => some d'
    | some s => if s = [] then some d' else addCmd d' s c

/-- All command classes in the order in which their modules are read (cli/commands.py). -/
def registerAll : List (Str × Cls) → List Cls → Option (List (Str × Cls))
  | d, [] => some d
  | d, c :: cs => match register d c with
    | none => none
    | some d' => registerAll d' cs

/-- `Command.cmd_dict[cmd]` (cli/command.py:54-57). -/
def getCmd (d : List (Str × Cls)) (n : Str) : Option Cls :=
  (d.find? (fun e => e.1 == n)).map (·.2)

/-- The order of python's strings (by code points). -/
def strLe : Str → Str → Bool
  | [], _ => true
  | _ :: _, [] => false
  | a :: as, b :: bs => if a.toNat < b.toNat then true else
      if b.toNat < a.toNat then false else strLe as bs

/-- `list.insert` into a sorted list; `sortNames` stands for python's `list.sort`. -/
def insertName (n : Str) : List Str → List Str
  | [] => [n]
  | m :: ms => if strLe n m then n :: m :: ms else m :: insertName n ms

/-- `list.sort()` on names. -/
def sortNames : List Str → List Str
  | [] => []
  | n :: ns => insertName n (sortNames ns)

/-- Command.commands_string, cli/command.py:38-51: the commands of the registry by long name,
sorted, each with its short name.  Only the names are kept, not their summaries. -/
def commandsString (cmds : List Cls) (d : List (Str × Cls)) : List (Str × Option Str) :=
  (sortNames (cmds.map (·.long))).filterMap (fun n =>
    (getCmd d n).map (fun c => (c.long, c.short)))

/-- What the modules of the program do when they are read: the module command computes
`usage_text` (cli/command.py:206), a module that defines a command registers it. -/
inductive Load where
  | usageText
  | define (c : Cls)

/-- The state of the modules: the list and the dictionary of the commands, and `usage_text`. -/
structure Mods where
  cmds : List Cls := []
  dict : List (Str × Cls) := []
  usage : List (Str × Option Str) := []

/-- Read one module after the other (cli/command.py:176-191, 206). -/
def load : Mods → List Load → Option Mods
  | m, [] => some m
  | m, .usageText :: ls => load { m with usage := commandsString m.cmds m.dict } ls
  | m, .define c :: ls => match register m.dict c with
    | none => none
    | some d => load { m with cmds := m.cmds ++ [c], dict := d } ls

/-- The order in which things happen for the commands `cs`: a module that defines a command begins
by importing the module command (cli/build.py:25, cli/check.py:25, ..., cli/upgrade.py:25), which is
therefore read to its end before the first class is made, and only once. -/
def program (cs : List Cls) : List Load :=
  .usageText :: cs.map .define

/-! ### optparse -/

/-- Why the parser of a command does not return: it has printed help or the version, or it has
reported an error. -/
inductive Stop where
  | help
  | version
  | badOption
  | ambiguous
  | needsValue
  | noValue
  | badValue
  deriving DecidableEq, Repr

/-- An option that was set: its attribute and its value, `none` for True. -/
abbrev Setting := Str × Option Str

/-- `int(value)` accepts it (optparse.check_builtin): digits after an optional sign.  Surrounding
space and the notations 0x, 0b and 0 for other bases, which python accepts too, are left out. -/
def isInt (v : Str) : Bool :=
  let ds := match v with
    | '-' :: r => r
    | '+' :: r => r
    | r => r
  !ds.isEmpty && ds.all (fun c => '0' ≤ c && c ≤ '9')

/-- optparse.Option.process: check the value and take the action. -/
def process (o : Opt) (v : Str) (vals : List Setting) : Except Stop (List Setting) :=
  match o.act with
  | .store => .ok (vals ++ [(o.dest, some v)])
  | .storeInt => if isInt v then .ok (vals ++ [(o.dest, some v)]) else .error .badValue
  | .storeTrue => .ok (vals ++ [(o.dest, none)])
  | .help => .error .help
  | .version => .error .version

/-- optparse._match_abbrev: the option of that long name, or else the only one whose long name
begins like that. -/
def matchLong (t : List Opt) (n : Str) : Except Stop Opt :=
  match t.find? (fun o => o.long == n) with
  | some o => .ok o
  | none => match t.filter (fun o => n.isPrefixOf o.long) with
    | [] => .error .badOption
    | [o] => .ok o
    | _ => .error .ambiguous

/-- `arg.split("=", 1)` if there is a "=". -/
def splitEq : Str → Str × Option Str
  | [] => ([], none)
  | c :: cs => if c = '=' then ([], some cs) else
      let r := splitEq cs
      (c :: r.1, r.2)

/-- What a cluster of short options leaves: nothing to do, or a last option which takes its value
from the next word. -/
inductive ClusterEnd where
  | done (vals : List Setting)
  | wants (o : Opt) (vals : List Setting)
  deriving DecidableEq, Repr

/-- optparse.OptionParser._process_short_opts on the letters after the dash. -/
def cluster (t : List Opt) : Str → List Setting → Except Stop ClusterEnd
  | [], vals => .ok (.done vals)
  | c :: cs, vals => match t.find? (fun o => o.short == some c) with
    | none => .error .badOption
    | some o =>
      if o.takes then
        match cs with
        | [] => .ok (.wants o vals)
        | _ :: _ => match process o cs vals with
          | .error e => .error e
          | .ok vals' => .ok (.done vals')
      else match process o [] vals with
        | .error e => .error e
        | .ok vals' => cluster t cs vals'

/-- optparse.OptionParser._process_args, with interspersed arguments allowed, and parse_args.
`pend` is an option waiting for its value, which is the next word whatever it looks like; `largs`
are the arguments so far. -/
def parse (t : List Opt) : Option Opt → List Str → List Setting → List Str →
    Except Stop (List Setting × List Str)
  | none, [], vals, largs => .ok (vals, largs)
  | some _, [], _, _ => .error .needsValue
  | some o, v :: rest, vals, largs => match process o v vals with
    | .error e => .error e
    | .ok vals' => parse t none rest vals' largs
  | none, arg :: rest, vals, largs => match arg with
    | ['-', '-'] => .ok (vals, largs ++ rest)
    | '-' :: '-' :: c :: body =>
      match splitEq (c :: body) with
      | (n, ev) => match matchLong t n with
        | .error e => .error e
        | .ok o =>
          if o.takes then
            match ev with
            | none => parse t (some o) rest vals largs
            | some v => match process o v vals with
              | .error e => .error e
              | .ok vals' => parse t none rest vals' largs
          else
            match ev with
            | some _ => .error .noValue
            | none => match process o [] vals with
              | .error e => .error e
              | .ok vals' => parse t none rest vals' largs
    | '-' :: c :: cs => match cluster t (c :: cs) vals with
      | .error e => .error e
      | .ok (.done vals') => parse t none rest vals' largs
      | .ok (.wants o vals') => parse t (some o) rest vals' largs
    | w => parse t none rest vals (largs ++ [w])

/-! ### The pre-parser and the dispatch -/

/-- PreParser._process_args, cli/pisicli.py:48-81: every word that begins with a dash is an option
(kept without its dashes), every other word an argument, until "--", after which nothing is
looked at. -/
def preParse : List Str → List Str × List Str
  | [] => ([], [])
  | arg :: rest => match arg with
    | ['-', '-'] => ([], [])
    | '-' :: '-' :: body => let r := preParse rest; (body :: r.1, r.2)
    | '-' :: c :: cs => let r := preParse rest; ((c :: cs) :: r.1, r.2)
    | w => let r := preParse rest; (r.1, w :: r.2)

/-- What comes of a command line. -/
inductive Outcome where
  /-- the command of that class is run with these options and arguments -/
  | run (c : Cls) (opts : List Setting) (args : List Str)
  /-- the version or the general help was printed -/
  | printedVersion
  | printedUsage
  /-- "No command given", "Unrecognized command" -/
  | noCommand
  | unrecognized (n : Str)
  /-- the parser of the command could not be made -/
  | broken (e : BuildErr)
  /-- the parser of the command stopped the program -/
  | stopped (s : Stop)
  deriving DecidableEq, Repr

/-- Command.__init__, cli/command.py:66-78: make the parser, read the options, and drop the first
argument, which is taken for the name of the command.  `process_opts` is left out. -/
def initCmd (c : Cls) (argv : List Str) : Outcome :=
  match mkParser c with
  | .error e => .broken e
  | .ok t => match parse t none argv [] [] with
    | .error s => .stopped s
    | .ok (vals, args) => .run c vals args.tail

/-- PisiCLI.__init__, cli/pisicli.py:86-105, and run_command (111-112). -/
def pisi (d : List (Str × Cls)) (argv : List Str) : Outcome :=
  match preParse argv with
  | (opts, []) =>
    if opts.contains ['v', 'e', 'r', 's', 'i', 'o', 'n'] then .printedVersion
    else if opts.contains ['h', 'e', 'l', 'p'] || opts.contains ['h'] then .printedUsage
    else .noCommand
  | (_, n :: _) => match getCmd d n with
    | none => .unrecognized n
    | some c => initCmd c argv

/-! ### The commands of pisi -/

/-- PackageOp.options, cli/packageop.py:33-41, with ignoredep_opt, cli/command.py:220-224; here and below buildno_opts,
cli/command.py:210-213, and ignoredep_opt stand written out where they are called. -/
def packageOpOpts : List OptStep :=
  [
    .add ⟨some 'B', ['i', 'g', 'n', 'o', 'r', 'e', '-', 'c', 'o', 'm', 'a', 'r'], .storeTrue⟩,
    .add ⟨some 'S', ['b', 'y', 'p', 'a', 's', 's', '-', 's', 'a', 'f', 'e', 't', 'y'], .storeTrue⟩,
    .add ⟨some 'n', ['d', 'r', 'y', '-', 'r', 'u', 'n'], .storeTrue⟩,
    .add ⟨some 'E', ['i', 'g', 'n', 'o', 'r', 'e', '-', 'd', 'e', 'p', 'e', 'n', 'd', 'e', 'n', 'c', 'y'], .storeTrue⟩
  ]

/-- Build.options, cli/build.py:53-77, with buildno_opts, abandoned_files_opt and ignoredep_opt
(cli/command.py:210-224). -/
def buildOpts : List OptStep :=
  [
    .add ⟨none, ['i', 'g', 'n', 'o', 'r', 'e', '-', 'b', 'u', 'i', 'l', 'd', '-', 'n', 'o'], .storeTrue⟩,
    .add ⟨none, ['s', 'h', 'o', 'w', '-', 'a', 'b', 'a', 'n', 'd', 'o', 'n', 'e', 'd', '-', 'f', 'i', 'l', 'e', 's'], .storeTrue⟩,
    .add ⟨some 'E', ['i', 'g', 'n', 'o', 'r', 'e', '-', 'd', 'e', 'p', 'e', 'n', 'd', 'e', 'n', 'c', 'y'], .storeTrue⟩,
    .add ⟨some 'O', ['o', 'u', 't', 'p', 'u', 't', '-', 'd', 'i', 'r'], .store⟩,
    .add ⟨some 'U', ['u', 'n', 't', 'i', 'l'], .store⟩,
    .add ⟨some 'A', ['i', 'g', 'n', 'o', 'r', 'e', '-', 'a', 'c', 't', 'i', 'o', 'n', '-', 'e', 'r', 'r', 'o', 'r', 's'], .storeTrue⟩,
    .add ⟨some 'S', ['b', 'y', 'p', 'a', 's', 's', '-', 's', 'a', 'f', 'e', 't', 'y'], .storeTrue⟩,
    .add ⟨none, ['i', 'g', 'n', 'o', 'r', 'e', '-', 'f', 'i', 'l', 'e', '-', 'c', 'o', 'n', 'f', 'l', 'i', 'c', 't', 's'], .storeTrue⟩,
    .add ⟨some 'B', ['i', 'g', 'n', 'o', 'r', 'e', '-', 'c', 'o', 'm', 'a', 'r'], .storeTrue⟩,
    .add ⟨none, ['c', 'r', 'e', 'a', 't', 'e', '-', 's', 't', 'a', 't', 'i', 'c'], .storeTrue⟩,
    .add ⟨none, ['n', 'o', '-', 'i', 'n', 's', 't', 'a', 'l', 'l'], .storeTrue⟩,
    .add ⟨some 'F', ['p', 'a', 'c', 'k', 'a', 'g', 'e', '-', 'f', 'o', 'r', 'm', 'a', 't'], .store⟩
  ]

/-- Info.options, cli/info.py:44-54. -/
def infoOpts : List OptStep :=
  [
    .add ⟨some 'f', ['f', 'i', 'l', 'e', 's'], .storeTrue⟩,
    .add ⟨some 'F', ['f', 'i', 'l', 'e', 's', '-', 'p', 'a', 't', 'h'], .storeTrue⟩,
    .add ⟨some 's', ['s', 'h', 'o', 'r', 't'], .storeTrue⟩,
    .add ⟨none, ['x', 'm', 'l'], .storeTrue⟩
  ]

/-- Search.options, cli/search.py:43-49: those of Info, then its own. -/
def searchOpts : List OptStep :=
  infoOpts ++ [
    .add ⟨some 'l', ['l', 'a', 'n', 'g', 'u', 'a', 'g', 'e'], .store⟩,
    .remove ['s', 'h', 'o', 'r', 't'],
    .add ⟨some 'L', ['l', 'o', 'n', 'g'], .storeTrue⟩
  ]

/-- Install.options, cli/install.py:46-53. -/
def installOpts : List OptStep :=
  packageOpOpts ++ [
    .add ⟨none, ['r', 'e', 'i', 'n', 's', 't', 'a', 'l', 'l'], .storeTrue⟩,
    .add ⟨none, ['i', 'g', 'n', 'o', 'r', 'e', '-', 'f', 'i', 'l', 'e', '-', 'c', 'o', 'n', 'f', 'l', 'i', 'c', 't', 's'], .storeTrue⟩,
    .add ⟨none, ['i', 'g', 'n', 'o', 'r', 'e', '-', 'b', 'u', 'i', 'l', 'd', '-', 'n', 'o'], .storeTrue⟩
  ]

/-- Upgrade.options, cli/upgrade.py:54-65. -/
def upgradeOpts : List OptStep :=
  packageOpOpts ++ [
    .add ⟨none, ['i', 'g', 'n', 'o', 'r', 'e', '-', 'b', 'u', 'i', 'l', 'd', '-', 'n', 'o'], .storeTrue⟩,
    .add ⟨none, ['s', 'e', 'c', 'u', 'r', 'i', 't', 'y'], .storeTrue⟩,
    .add ⟨some 'r', ['b', 'y', 'p', 'a', 's', 's', '-', 'u', 'p', 'd', 'a', 't', 'e', '-', 'r', 'e', 'p', 'o'], .storeTrue⟩,
    .add ⟨none, ['i', 'g', 'n', 'o', 'r', 'e', '-', 'f', 'i', 'l', 'e', '-', 'c', 'o', 'n', 'f', 'l', 'i', 'c', 't', 's'], .storeTrue⟩,
    .add ⟨some 'e', ['e', 'a', 'g', 'e', 'r'], .storeTrue⟩
  ]

/-- Graph.options, cli/graph.py:44-56. -/
def graphOpts : List OptStep :=
  [
    .add ⟨some 'r', ['r', 'e', 'p', 'o', 's', 'i', 't', 'o', 'r', 'y'], .store⟩,
    .add ⟨some 'i', ['i', 'n', 's', 't', 'a', 'l', 'l', 'e', 'd'], .storeTrue⟩,
    .add ⟨none, ['i', 'g', 'n', 'o', 'r', 'e', '-', 'i', 'n', 's', 't', 'a', 'l', 'l', 'e', 'd'], .storeTrue⟩,
    .add ⟨some 'o', ['o', 'u', 't', 'p', 'u', 't'], .store⟩
  ]

/-- Index.options, cli/index.py:48-63. -/
def indexOpts : List OptStep :=
  [
    .add ⟨some 'a', ['a', 'b', 's', 'o', 'l', 'u', 't', 'e', '-', 'u', 'r', 'i', 's'], .storeTrue⟩,
    .add ⟨some 'o', ['o', 'u', 't', 'p', 'u', 't'], .store⟩,
    .add ⟨some 'S', ['s', 'k', 'i', 'p', '-', 's', 'o', 'u', 'r', 'c', 'e', 's'], .storeTrue⟩,
    .add ⟨some 'G', ['s', 'k', 'i', 'p', '-', 's', 'i', 'g', 'n', 'i', 'n', 'g'], .storeTrue⟩,
    .add ⟨some 'R', ['n', 'o', 'n', '-', 'r', 'e', 'c', 'u', 'r', 's', 'i', 'v', 'e'], .storeTrue⟩
  ]

/-- ListInstalled.options, cli/listcmd.py:41-45. -/
def listInstalledOpts : List OptStep :=
  [
    .add ⟨some 'l', ['l', 'o', 'n', 'g'], .storeTrue⟩,
    .add ⟨some 'i', ['i', 'n', 's', 't', 'a', 'l', 'l', '-', 'i', 'n', 'f', 'o'], .storeTrue⟩
  ]

/-- ListAvailable.options, cli/listcmd.py:85-89. -/
def listAvailableOpts : List OptStep :=
  [
    .add ⟨some 'l', ['l', 'o', 'n', 'g'], .storeTrue⟩,
    .add ⟨some 'U', ['u', 'n', 'i', 'n', 's', 't', 'a', 'l', 'l', 'e', 'd'], .storeTrue⟩
  ]

/-- The options of ListComponents and ListSources, cli/listcmd.py:143-145, 180-182. -/
def longOpts : List OptStep :=
  [
    .add ⟨some 'l', ['l', 'o', 'n', 'g'], .storeTrue⟩
  ]

/-- ListUpgrades.options, cli/listcmd.py:217-222. -/
def listUpgradesOpts : List OptStep :=
  [
    .add ⟨some 'l', ['l', 'o', 'n', 'g'], .storeTrue⟩,
    .add ⟨some 'i', ['i', 'n', 's', 't', 'a', 'l', 'l', '-', 'i', 'n', 'f', 'o'], .storeTrue⟩,
    .undefinedName
  ]

/-- RebuildDb.options, cli/rebuilddb.py:45-47. -/
def rebuildDbOpts : List OptStep :=
  [
    .add ⟨some 'f', ['f', 'i', 'l', 'e', 's'], .storeTrue⟩
  ]

/-- AddRepo.options, cli/repo.py:47-50. -/
def addRepoOpts : List OptStep :=
  [
    .add ⟨none, ['a', 't'], .storeInt⟩
  ]

/-- UpdateRepo.options, cli/repo.py:111-114. -/
def updateRepoOpts : List OptStep :=
  [
    .add ⟨some 'f', ['f', 'o', 'r', 'c', 'e'], .storeTrue⟩
  ]

/-- SearchFile.options, cli/search.py:90-94. -/
def searchFileOpts : List OptStep :=
  [
    .add ⟨some 'l', ['l', 'o', 'n', 'g'], .storeTrue⟩,
    .add ⟨some 'f', ['f', 'u', 'z', 'z', 'y'], .storeTrue⟩
  ]

/-- class Build, cli/build.py:47. -/
def cBuild : Cls :=
  ⟨['b', 'u', 'i', 'l', 'd'],
    some ['b', 'i'], buildOpts⟩

/-- class Check, cli/check.py:45. -/
def cCheck : Cls :=
  ⟨['c', 'h', 'e', 'c', 'k'],
    none, []⟩

/-- class Clean, cli/clean.py:39. -/
def cClean : Cls :=
  ⟨['c', 'l', 'e', 'a', 'n'],
    none, []⟩

/-- class ConfigurePending, cli/configurepending.py:41. -/
def cConfigurePending : Cls :=
  ⟨['c', 'o', 'n', 'f', 'i', 'g', 'u', 'r', 'e', '-', 'p', 'e', 'n', 'd', 'i', 'n', 'g'],
    some ['c', 'p'], packageOpOpts⟩

/-- class DeleteCache, cli/deletecache.py:40. -/
def cDeleteCache : Cls :=
  ⟨['d', 'e', 'l', 'e', 't', 'e', '-', 'c', 'a', 'c', 'h', 'e'],
    some ['d', 'c'], []⟩

/-- class Emerge, cli/emerge.py:44-47. -/
def cEmerge : Cls :=
  ⟨['e', 'm', 'e', 'r', 'g', 'e'],
    some ['e', 'm'], buildOpts⟩

/-- class Graph, cli/graph.py:58. -/
def cGraph : Cls :=
  ⟨['g', 'r', 'a', 'p', 'h'],
    none, graphOpts⟩

/-- class Help, cli/help.py:42. -/
def cHelp : Cls :=
  ⟨['h', 'e', 'l', 'p'],
    some ['?'], []⟩

/-- class Index, cli/index.py:46. -/
def cIndex : Cls :=
  ⟨['i', 'n', 'd', 'e', 'x'],
    some ['i', 'x'], indexOpts⟩

/-- class Info, cli/info.py:42. -/
def cInfo : Cls :=
  ⟨['i', 'n', 'f', 'o'],
    none, infoOpts⟩

/-- class Install, cli/install.py:44. -/
def cInstall : Cls :=
  ⟨['i', 'n', 's', 't', 'a', 'l', 'l'],
    some ['i', 't'], installOpts⟩

/-- class ListInstalled, cli/listcmd.py:39. -/
def cListInstalled : Cls :=
  ⟨['l', 'i', 's', 't', '-', 'i', 'n', 's', 't', 'a', 'l', 'l', 'e', 'd'],
    some ['l', 'i'], listInstalledOpts⟩

/-- class ListAvailable, cli/listcmd.py:83. -/
def cListAvailable : Cls :=
  ⟨['l', 'i', 's', 't', '-', 'a', 'v', 'a', 'i', 'l', 'a', 'b', 'l', 'e'],
    some ['l', 'a'], listAvailableOpts⟩

/-- class ListComponents, cli/listcmd.py:141. -/
def cListComponents : Cls :=
  ⟨['l', 'i', 's', 't', '-', 'c', 'o', 'm', 'p', 'o', 'n', 'e', 'n', 't', 's'],
    some ['l', 'c'], longOpts⟩

/-- class ListSources, cli/listcmd.py:178. -/
def cListSources : Cls :=
  ⟨['l', 'i', 's', 't', '-', 's', 'o', 'u', 'r', 'c', 'e', 's'],
    some ['l', 's'], longOpts⟩

/-- class ListUpgrades, cli/listcmd.py:215. -/
def cListUpgrades : Cls :=
  ⟨['l', 'i', 's', 't', '-', 'u', 'p', 'g', 'r', 'a', 'd', 'e', 's'],
    some ['l', 'u'], listUpgradesOpts⟩

/-- class ListPending, cli/listcmd.py:257. -/
def cListPending : Cls :=
  ⟨['l', 'i', 's', 't', '-', 'p', 'e', 'n', 'd', 'i', 'n', 'g'],
    some ['l', 'p'], []⟩

/-- class RebuildDb, cli/rebuilddb.py:43. -/
def cRebuildDb : Cls :=
  ⟨['r', 'e', 'b', 'u', 'i', 'l', 'd', '-', 'd', 'b'],
    some ['r', 'd', 'b'], rebuildDbOpts⟩

/-- class Remove, cli/remove.py:42. -/
def cRemove : Cls :=
  ⟨['r', 'e', 'm', 'o', 'v', 'e'],
    some ['r', 'm'], packageOpOpts⟩

/-- class AddRepo, cli/repo.py:45. -/
def cAddRepo : Cls :=
  ⟨['a', 'd', 'd', '-', 'r', 'e', 'p', 'o'],
    some ['a', 'r'], addRepoOpts⟩

/-- class RemoveRepo, cli/repo.py:83. -/
def cRemoveRepo : Cls :=
  ⟨['r', 'e', 'm', 'o', 'v', 'e', '-', 'r', 'e', 'p', 'o'],
    some ['r', 'r'], []⟩

/-- class UpdateRepo, cli/repo.py:109. -/
def cUpdateRepo : Cls :=
  ⟨['u', 'p', 'd', 'a', 't', 'e', '-', 'r', 'e', 'p', 'o'],
    some ['u', 'r'], updateRepoOpts⟩

/-- class ListRepo, cli/repo.py:141. -/
def cListRepo : Cls :=
  ⟨['l', 'i', 's', 't', '-', 'r', 'e', 'p', 'o'],
    some ['l', 'r'], []⟩

/-- class Search, cli/search.py:41. -/
def cSearch : Cls :=
  ⟨['s', 'e', 'a', 'r', 'c', 'h'],
    some ['s', 'r'], searchOpts⟩

/-- class SearchFile, cli/search.py:88. -/
def cSearchFile : Cls :=
  ⟨['s', 'e', 'a', 'r', 'c', 'h', '-', 'f', 'i', 'l', 'e'],
    some ['s', 'f'], searchFileOpts⟩

/-- class Upgrade, cli/upgrade.py:52. -/
def cUpgrade : Cls :=
  ⟨['u', 'p', 'g', 'r', 'a', 'd', 'e'],
    some ['u', 'p'], upgradeOpts⟩

/-- The command classes in the order in which they are registered (cli/commands.py:3-21). -/
def allCmds : List Cls :=
  [cBuild,
   cCheck,
   cClean,
   cConfigurePending,
   cDeleteCache,
   cEmerge,
   cGraph,
   cHelp,
   cIndex,
   cInfo,
   cInstall,
   cListInstalled,
   cListAvailable,
   cListComponents,
   cListSources,
   cListUpgrades,
   cListPending,
   cRebuildDb,
   cRemove,
   cAddRepo,
   cRemoveRepo,
   cUpdateRepo,
   cListRepo,
   cSearch,
   cSearchFile,
   cUpgrade]

end Pisi.Cli
