/-
The environment variables of builds: `pisi/actionsapi/variables.py`, the parts
of `pisi/op/build.py` that write `os.environ`, and `shelltools.export`.

Python keeps two environments.  `os.environ` is a dictionary of the
interpreter, and assigning to an item of it also calls `putenv`, which changes
the environment of the process, the one that programs started by
`os.system` inherit.  Binding the name `os.environ` to another dictionary
changes only what the interpreter sees.

Simplifications: values are characters lists and never `None`; an actions
script touches the environment only by assigning to or deleting items of
`os.environ` (`shelltools.export`), never by `os.putenv` or by binding the
name again; which value it assigns may depend on everything it can read in
`os.environ`, but not on the output of programs.
-/
import Verif.Model.Str

namespace Pisi.BuildEnv

/-- An environment: the value of every variable, `none` when it is not set. -/
abbrev Env := Str → Option Str

/-- The state of the process: what `os.environ` holds, what programs started
by it inherit, and `ctx.config.environ`, the copy of `os.environ` taken when
the configuration was read (pisi/config.py:63-65). -/
structure Proc where
  py : Env
  c : Env
  init : Env

/-- An environment with the variable `k` set to `v`. -/
def put (e : Env) (k : Str) (v : Option Str) : Env :=
  fun x => if x = k then v else e x

/-- `os.environ[k] = v`: `_Environ.__setitem__` of python 2 calls `putenv` and
stores the item (pisi/actionsapi/shelltools.py:195-197). -/
def setItem (s : Proc) (k v : Str) : Proc :=
  { s with py := put s.py k (some v), c := put s.c k (some v) }

/-- `del os.environ[k]`: `_Environ.__delitem__` calls `unsetenv` and deletes
the item, a `KeyError` if the interpreter does not see the variable. -/
def delItem (s : Proc) (k : Str) : Option Proc :=
  match s.py k with
  | none => none
  | some _ => some { s with py := put s.py k none, c := put s.c k none }

/-- `os.environ = deepcopy(ctx.config.environ)`: copying an `_Environ` copies
its dictionary without calling `putenv` (pisi/actionsapi/variables.py:26-28,
pisi/op/build.py:861-866). -/
def reset (s : Proc) : Proc := { s with py := s.init }

/-- What the configuration says of builds, `ctx.config.values.build`. -/
structure Conf where
  host : Str
  cflags : Str
  cxxflags : Str
  ldflags : Str
  jobs : Str
  /-- The directory of the build helper that is configured, ending with a
  colon as it is written in front of `PATH`, if its `gcc` exists. -/
  helper : Option Str

/-- One action of an actions script. -/
inductive Step where
  /-- `shelltools.export(k, f(os.environ))`. -/
  | export (k : Str) (f : Env → Str)
  /-- `del os.environ[k]`. -/
  | unset (k : Str)
  /-- `get.ENV(k)` (pisi/actionsapi/get.py:58-63), and the members of
  `get.env` (pisi/actionsapi/variables.py:61-69), which are `os.getenv`. -/
  | get (k : Str)
  /-- Running a program. -/
  | run

/-- What an actions script and the programs it runs get to see. -/
inductive Obs where
  /-- The script read the variable `k`. -/
  | got (k : Str) (v : Option Str)
  /-- A program was started with this environment. -/
  | ran (e : Env)

/-- A package to build. -/
structure Pkg where
  pkgDir : Str
  workDir : Str
  installDir : Str
  name : Str
  version : Str
  release : Str
  srcDir : Str
  /-- What the actions script does when it is loaded. -/
  top : List Step
  /-- What the functions `setup`, `build` and `install` of it do. -/
  body : List Step

/-- The variables that are set from the configuration and the specification
(pisi/actionsapi/variables.py:33-38, pisi/op/build.py:218-226). -/
def table (cf : Conf) (p : Pkg) : List (Str × Str) :=
  [(['H','O','S','T'], cf.host),
   (['C','F','L','A','G','S'], cf.cflags),
   (['C','X','X','F','L','A','G','S'], cf.cxxflags),
   (['L','D','F','L','A','G','S'], cf.ldflags),
   (['U','S','E','R','_','L','D','F','L','A','G','S'], cf.ldflags),
   (['J','O','B','S'], cf.jobs),
   (['P','K','G','_','D','I','R'], p.pkgDir),
   (['W','O','R','K','_','D','I','R'], p.workDir),
   (['I','N','S','T','A','L','L','_','D','I','R'], p.installDir),
   (['S','R','C','_','N','A','M','E'], p.name),
   (['S','R','C','_','V','E','R','S','I','O','N'], p.version),
   (['S','R','C','_','R','E','L','E','A','S','E'], p.release)]

/-- The name `PATH`. -/
def pathVar : Str := ['P','A','T','H']

/-- The name `SRC_DIR`. -/
def srcDirVar : Str := ['S','R','C','_','D','I','R']

/-- Assigning to the items of a list one after the other. -/
def setAll (s : Proc) (l : List (Str × Str)) : Proc :=
  l.foldl (fun s kv => setItem s kv.1 kv.2) s

/-- `Builder.set_environment_vars` (pisi/op/build.py:210-239): the environment
is reset, the flags and directories are set, and the build helper is put in
front of `PATH`, a `KeyError` if there is no `PATH`. -/
def setEnvironment (cf : Conf) (s : Proc) (p : Pkg) : Option Proc :=
  let s := setAll (reset s) (table cf p)
  match cf.helper with
  | none => some s
  | some d =>
    match s.py pathVar with
    | none => none
    | some v => some (setItem s pathVar (d ++ v))

/-- Running the actions of a script: the state they leave, what was seen, and
`false` if an exception ended them. -/
def exec (s : Proc) : List Step → Proc × List Obs × Bool
  | [] => (s, [], true)
  | .export k f :: l => exec (setItem s k (f s.py)) l
  | .unset k :: l =>
    match delItem s k with
    | none => (s, [], false)
    | some s' => exec s' l
  | .get k :: l =>
    let r := exec s l
    (r.1, .got k (s.py k) :: r.2.1, r.2.2)
  | .run :: l =>
    let r := exec s l
    (r.1, .ran s.c :: r.2.1, r.2.2)

/-- What a build let be seen: at the top of the script, and in its
functions. -/
structure Seen where
  top : List Obs
  body : List Obs

/-- A build: `Builder.__init__` sets the environment (pisi/op/build.py:140),
`compile_action_script` executes the script and then sets `SRC_DIR`
(pisi/op/build.py:372-391), the functions of the script are run, and
`build_packages` resets the environment (pisi/op/build.py:861-866).  An
exception ends the whole run of pisi: there is no state after it. -/
def build (cf : Conf) (s : Proc) (p : Pkg) : Option Proc × Seen :=
  match setEnvironment cf s p with
  | none => (none, ⟨[], []⟩)
  | some s1 =>
    match exec s1 p.top with
    | (_, o, false) => (none, ⟨o, []⟩)
    | (s2, o, true) =>
      match exec (setItem s2 srcDirVar p.srcDir) p.body with
      | (_, o', false) => (none, ⟨o, o'⟩)
      | (s3, o', true) => (some (reset s3), ⟨o, o'⟩)

/-- Building packages one after the other in one run of pisi
(`pisi build a b c`, `pisi emerge`). -/
def builds (cf : Conf) (s : Proc) : List Pkg → Option Proc
  | [] => some s
  | p :: l =>
    match (build cf s p).1 with
    | none => none
    | some s' => builds cf s' l

/-- The state in which pisi starts with an environment. -/
def start (e : Env) : Proc := ⟨e, e, e⟩

end Pisi.BuildEnv
