import Verif.Model.ActionsInstall

/-!
# Model of the helpers of actions scripts that run the build systems

`pisi/actionsapi/autotools.py`, `kde.py`, `perlmodules.py`, `pythonmodules.py`, `scons.py` and the parts of `libtools.py` that run
programs.

What programs do is unknown: a machine is any type of states with any effect of running a command line and any exit status.  The
command lines are those of the code with runs of blanks in the literals written as one blank; `system` makes one blank of them anyway.

Simplifications: `get.HOST()` and the like are strings, never `None`; a signal that ends a program gives a negative exit status, as
`subprocess` has it; `export` (perlmodules.py:52) is left to `Model/BuildEnv.lean`; what error classes print is left out.
-/
namespace Pisi.Tools

/-- What the functions see of the computer. -/
structure Machine (σ : Type) where
  /-- `os.access(p, os.F_OK)`, pisi/actionsapi/shelltools.py:37-39. -/
  access : σ → Str → Bool
  /-- `os.access(p, os.R_OK | os.W_OK | os.X_OK)`, pisi/actionsapi/shelltools.py:41-43. -/
  accessDir : σ → Str → Bool
  /-- A command line is run by the shell: the state after it and the exit status, `p.returncode`, pisi/util/process.py:68-72. -/
  run : σ → Str → σ × Int
  /-- `shelltools.unlink`, pisi/actionsapi/shelltools.py:91-101: it prints messages, but raises nothing. -/
  unlink : σ → Str → σ
  /-- `gnuconfig_update`, pisi/actionsapi/libtools.py:42-51: the state after it, `false` if it raises an error. -/
  gnuconfig : σ → σ × Bool

/-- What ends a function. -/
inductive Err where
  /-- An error of the actions API, `pisi.actionsapi.Error` or one of the classes derived from it. -/
  | action
  /-- `NameError`. -/
  | name
  deriving DecidableEq, Repr

/-- The values of `pisi/actionsapi/get.py` that get into command lines. -/
structure Env where
  inst : Str
  host : Str
  jobs : Str
  cflags : Str
  /-- `get.CC()`, `none` if it raises its error. -/
  cc : Option Str
  kde : Str
  qt : Str
  /-- `get.curPERL()`. -/
  perl : Str
  /-- The default of the parameter `prefix` of `scons.install`: python computes it once, when the module is first imported
  (pisi/actionsapi/scons.py:43). -/
  sconsPrefix : Str

/-- A computation: the state after it, the command lines that were run with their exit statuses, and how it ended. -/
abbrev Prog (σ : Type) := σ → σ × List (Str × Int) × Except Err Unit

section
variable {σ : Type} (m : Machine σ) (e : Env)

def done : Prog σ := fun s => (s, [], .ok ())
def raise (x : Err) : Prog σ := fun s => (s, [], .error x)

/-- One after the other. -/
def andThen (a b : Prog σ) : Prog σ := fun s => match a s with
  | (s', l, .ok ()) => match b s' with
    | (s'', l', r) => (s'', l ++ l', r)
  | (s', l, .error x) => (s', l, .error x)

/-- `if can_access_file(p): a else: b`. -/
def ifFile (p : Str) (a b : Prog σ) : Prog σ := fun s => if m.access s p then a s else b s

/-- `if system(cmd): raise x`, with `system` of pisi/actionsapi/shelltools.py:223-225. -/
def check (cmd : Str) (x : Err) : Prog σ := fun s =>
  match m.run s (Act.squeeze cmd) with
  | (s', rc) => (s', [(Act.squeeze cmd, rc)], if rc = 0 then .ok () else .error x)

/-- `system(cmd)` with its value thrown away. -/
def ignore (cmd : Str) : Prog σ := fun s =>
  match m.run s (Act.squeeze cmd) with
  | (s', rc) => (s', [(Act.squeeze cmd, rc)], .ok ())

/-- A step that runs no program and may raise an error of the actions API. -/
def step (f : σ → σ × Bool) : Prog σ := fun s => match f s with
  | (s', true) => (s', [], .ok ())
  | (s', false) => (s', [], .error .action)

/-- A step that runs no program and raises nothing. -/
def quiet (f : σ → σ) : Prog σ := fun s => (f s, [], .ok ())

/-- Words with a blank between. -/
def line (l : List Str) : Str := List.intercalate [' '] l

/-! ## autotools.py -/

/-- `configure`, pisi/actionsapi/autotools.py:58-79; the directories are those of pisi/actionsapi/variables.py:71-82. -/
def autoConfigure (p : Str) : Prog σ := ifFile m "configure".toList
  (andThen (step m.gnuconfig) (check m (line ["./configure".toList, "--prefix=/usr".toList, "--host=".toList ++ e.host,
    "--mandir=/usr/share/man".toList, "--infodir=/usr/share/info".toList, "--datadir=/usr/share".toList, "--sysconfdir=/etc".toList,
    "--localstatedir=/var/lib".toList, p]) .action))
  (raise .action)

/-- `rawConfigure`, pisi/actionsapi/autotools.py:81-89. -/
def autoRawConfigure (p : Str) : Prog σ := ifFile m "configure".toList
  (andThen (step m.gnuconfig) (check m (line ["./configure".toList, p]) .action)) (raise .action)

/-- `compile`, pisi/actionsapi/autotools.py:91-93. -/
def autoCompile (p : Str) : Prog σ := match e.cc with
  | some cc => ignore m (line [cc, e.cflags, p])
  | none => raise .action

/-- `make`, pisi/actionsapi/autotools.py:95-98, and the same in pisi/actionsapi/kde.py:71-74. -/
def autoMake (p : Str) : Prog σ := check m (line ["make".toList, e.jobs, p]) .action

/-- `fixInfoDir`, pisi/actionsapi/autotools.py:100-103. -/
def fixInfoDir : Prog σ := fun s =>
  ifFile m (e.inst ++ "/usr/share/info/dir".toList) (quiet fun s => m.unlink s (e.inst ++ "/usr/share/info/dir".toList)) done s

/-- The test for a makefile, pisi/actionsapi/autotools.py:107, 134. -/
def ifMakefile (a b : Prog σ) : Prog σ :=
  ifFile m "makefile".toList a (ifFile m "Makefile".toList a (ifFile m "GNUmakefile".toList a b))

/-- The command line of `install`, pisi/actionsapi/autotools.py:108-123. -/
def autoInstallCmd (p a : Str) : Str := line ["make".toList, "prefix=".toList ++ e.inst ++ "/usr".toList,
  "datadir=".toList ++ e.inst ++ "/usr/share".toList, "infodir=".toList ++ e.inst ++ "/usr/share/info".toList,
  "localstatedir=".toList ++ e.inst ++ "/var/lib".toList, "mandir=".toList ++ e.inst ++ "/usr/share/man".toList,
  "sysconfdir=".toList ++ e.inst ++ "/etc".toList, p, a]

/-- `install`, pisi/actionsapi/autotools.py:105-130. -/
def autoInstall (p a : Str) : Prog σ :=
  andThen (ifMakefile m (check m (autoInstallCmd e p a) .action) (raise .action)) (fixInfoDir m e)

/-- `rawInstall`, pisi/actionsapi/autotools.py:132-140. -/
def autoRawInstall (p a : Str) : Prog σ :=
  andThen (ifMakefile m (check m (line ["make".toList, p, a]) .action) (raise .action)) (fixInfoDir m e)

/-- `aclocal`, `autoconf`, `autoreconf`, `automake` and `autoheader`, pisi/actionsapi/autotools.py:142-165, and `libtoolize`,
pisi/actionsapi/libtools.py:53-55; `c` is the name of the program. -/
def auto (c p : Str) : Prog σ := check m (line [c, p]) .action

/-! ## kde.py -/

/-- `configure`, pisi/actionsapi/kde.py:50-69. -/
def kdeConfigure (p : Str) : Prog σ := ifFile m "configure".toList
  (check m (line ["./configure".toList, "--prefix=".toList ++ e.kde, "--host=".toList ++ e.host, "--with-x".toList,
    "--enable-mitshm".toList, "--with-xinerama".toList, "--with-qt-dir=".toList ++ e.qt, "--enable-mt".toList,
    "--with-qt-libraries=".toList ++ e.qt ++ "/lib/".toList, "--disable-dependency-tracking".toList, "--disable-debug".toList, p])
    .action)
  (raise .action)

/-- The command line of `install`, pisi/actionsapi/kde.py:78. -/
def kdeInstallCmd (p : Str) : Str := line ["make".toList, "DESTDIR=".toList ++ e.inst, "destdir=".toList ++ e.inst, p]

/-- `install`, pisi/actionsapi/kde.py:76-83. -/
def kdeInstall (p : Str) : Prog σ :=
  ifFile m "Makefile".toList (check m (kdeInstallCmd e p) .action) (raise .action)

/-! ## perlmodules.py -/

/-- The command lines of `configure`, pisi/actionsapi/perlmodules.py:54, 57. -/
def perlBuildPL : Str := line ["perl".toList, "Build.PL".toList, "installdirs=vendor".toList, "destdir=".toList ++ e.inst]
def perlMakefilePL (p : Str) : Str := line ["perl".toList, "Makefile.PL".toList, p, "PREFIX=/usr".toList, "INSTALLDIRS=vendor".toList,
  "DESTDIR=".toList ++ e.inst]

/-- `configure`, pisi/actionsapi/perlmodules.py:50-58: there is no name `CompileError` in the module. -/
def perlConfigure (p : Str) : Prog σ :=
  ifFile m "Build.PL".toList (check m (perlBuildPL e) .name) (check m (perlMakefilePL e p) .name)

/-- `make`, pisi/actionsapi/perlmodules.py:60-67. -/
def perlMake (p : Str) : Prog σ := ifFile m "Makefile".toList (check m (line ["make".toList, p]) .action)
  (check m "perl Build build".toList .action)

/-- One of the files of `fixLocalPod`, pisi/actionsapi/perlmodules.py:80-87. -/
def fixPod (f : Str) : Prog σ := ifFile m f (quiet fun s => m.unlink s f) done

/-- `fixLocalPod`, pisi/actionsapi/perlmodules.py:80-87. -/
def fixLocalPod : Prog σ :=
  andThen (fixPod m (e.inst ++ "/usr/lib/perl5/vendor_perl/".toList ++ e.perl ++ "/i686-linux/perllocal.pod".toList)) <|
  andThen (fixPod m (e.inst ++ "/usr/lib/perl5/".toList ++ e.perl ++ "/i686-linux/perllocal.pod".toList)) <|
  fixPod m (e.inst ++ "/usr/lib/perl5/site_perl/".toList ++ e.perl ++ "/perllocal.pod".toList)

/-- `install`, pisi/actionsapi/perlmodules.py:69-78. -/
def perlInstall (p : Str) : Prog σ := andThen (ifFile m "Makefile".toList (check m (line ["make".toList, p]) .action)
  (check m "perl Build install".toList .action)) (fixLocalPod m e)

/-! ## pythonmodules.py -/

/-- `compile` and `run`, pisi/actionsapi/pythonmodules.py:48-51, 65-68. -/
def pyCompile (p : Str) : Prog σ := check m (line ["python".toList, "setup.py".toList, "build".toList, p]) .action
def pyRun (p : Str) : Prog σ := check m (line ["python".toList, p]) .action

/-- The command line of `install`, pisi/actionsapi/pythonmodules.py:55. -/
def pyInstallCmd (p : Str) : Str :=
  line ["python".toList, "setup.py".toList, "install".toList, "--root=".toList ++ e.inst, "--no-compile".toList, p]

/-- `DDOCS`, pisi/actionsapi/pythonmodules.py:58-59: one string. -/
def ddocs : Str := ("CHANGELOG COPYRIGHT KNOWN_BUGS MAINTAINERS PKG-INFO " ++
  "             CONTRIBUTORS LICENSE COPYING* Change* MANIFEST* README*").toList

/-- `for doc in DDOCS`, pisi/actionsapi/pythonmodules.py:61-63: a loop over the characters of a string; the name `pisitools` is not
imported. -/
def pyDocs : Str → Prog σ
  | [] => done
  | c :: l => andThen (ifFile m [c] (raise .name) done) (pyDocs l)

/-- `install`, pisi/actionsapi/pythonmodules.py:53-63. -/
def pyInstall (p : Str) : Prog σ := andThen (check m (pyInstallCmd e p) .action) (pyDocs m ddocs)

/-! ## scons.py -/

/-- `make`, pisi/actionsapi/scons.py:39-41. -/
def sconsMake (p : Str) : Prog σ := check m (line ["scons".toList, p]) .action

/-- The command line of `install`, pisi/actionsapi/scons.py:44; `a` is `argument`, `prefix` the parameter if it is given. -/
def sconsInstallCmd (p : Str) (prefix? : Option Str) (a : Str) : Str :=
  line ["scons".toList, a ++ '=' :: prefix?.getD e.sconsPrefix, p]

/-- `install`, pisi/actionsapi/scons.py:43-45. -/
def sconsInstall (p : Str) (prefix? : Option Str) (a : Str) : Prog σ := check m (sconsInstallCmd e p prefix? a) .action

/-! ## libtools.py -/

/-- `preplib`, pisi/actionsapi/libtools.py:36-40; `d` is the directory with `get.installDIR()` in front. -/
def preplib (d : Str) : Prog σ := fun s =>
  if m.accessDir s d then check m (line ["/sbin/ldconfig".toList, "-n".toList, "-N".toList, d]) .action s else done s

/-! ## Actions scripts -/

/-- A call of one of the functions above. -/
inductive Call where
  | autoConfigure (p : Str)
  | autoRawConfigure (p : Str)
  | autoCompile (p : Str)
  | autoMake (p : Str)
  | autoInstall (p a : Str)
  | autoRawInstall (p a : Str)
  | auto (c p : Str)
  | kdeConfigure (p : Str)
  | kdeInstall (p : Str)
  | perlConfigure (p : Str)
  | perlMake (p : Str)
  | perlInstall (p : Str)
  | pyCompile (p : Str)
  | pyInstall (p : Str)
  | pyRun (p : Str)
  | sconsMake (p : Str)
  | sconsInstall (p : Str) (prefix? : Option Str) (a : Str)
  | preplib (d : Str)
  deriving DecidableEq, Repr

/-- The function called. -/
def Call.prog : Call → Prog σ
  | .autoConfigure p => Tools.autoConfigure m e p
  | .autoRawConfigure p => Tools.autoRawConfigure m p
  | .autoCompile p => Tools.autoCompile m e p
  | .autoMake p => Tools.autoMake m e p
  | .autoInstall p a => Tools.autoInstall m e p a
  | .autoRawInstall p a => Tools.autoRawInstall m e p a
  | .auto c p => Tools.auto m c p
  | .kdeConfigure p => Tools.kdeConfigure m e p
  | .kdeInstall p => Tools.kdeInstall m e p
  | .perlConfigure p => Tools.perlConfigure m e p
  | .perlMake p => Tools.perlMake m p
  | .perlInstall p => Tools.perlInstall m e p
  | .pyCompile p => Tools.pyCompile m p
  | .pyInstall p => Tools.pyInstall m e p
  | .pyRun p => Tools.pyRun m p
  | .sconsMake p => Tools.sconsMake m p
  | .sconsInstall p pre a => Tools.sconsInstall m e p pre a
  | .preplib d => Tools.preplib m d

/-- Calls one after the other, as in a function of an actions script. -/
def script : List Call → Prog σ
  | [] => done
  | c :: l => andThen (c.prog m e) (script l)

end

/-! ## Several packages in one run of pisi -/

/-- A package to be built: its install directory and whether its actions script imports `scons`. -/
structure Pkg where
  inst : Str
  imports : Bool
  deriving DecidableEq, Repr

/-- The default of `prefix` after the actions scripts of these packages were loaded one after the other, with `INSTALL_DIR` set before
each (pisi/op/build.py:140, 383): the module is executed at the first import only. -/
def sconsDefault : Option Str → List Pkg → Option Str
  | d, [] => d
  | d, p :: l => sconsDefault (match d with
    | some x => some x
    | none => if p.imports then some p.inst else none) l

end Pisi.Tools
