import Verif.Model.BuildTools

/-! # The programs the helpers run, as their documentation has it -/
namespace Pisi.ToolsSpec
open Pisi.Tools (Err Call Env)

/-- Is there a makefile? -/
def makefile (acc : Str → Bool) : Bool := acc "makefile".toList || acc "Makefile".toList || acc "GNUmakefile".toList

/-- The parts of the command line a call runs, `none` if it runs nothing: `acc` tells which files there are, `dirs` which directories
can be used, `gnu` whether `config.guess` could be renewed. -/
def expected (e : Env) (acc dirs : Str → Bool) (gnu : Bool) : Call → Option (List Str)
  | .autoConfigure p => if acc "configure".toList && gnu then some ["./configure".toList, "--prefix=/usr".toList, "--host=".toList ++ e.host,
      "--mandir=/usr/share/man".toList, "--infodir=/usr/share/info".toList, "--datadir=/usr/share".toList, "--sysconfdir=/etc".toList,
      "--localstatedir=/var/lib".toList, p] else none
  | .autoRawConfigure p => if acc "configure".toList && gnu then some ["./configure".toList, p] else none
  | .autoCompile p => e.cc.map fun cc => [cc, e.cflags, p]
  | .autoMake p => some ["make".toList, e.jobs, p]
  | .autoInstall p a => if makefile acc then some ["make".toList, "prefix=".toList ++ e.inst ++ "/usr".toList,
      "datadir=".toList ++ e.inst ++ "/usr/share".toList, "infodir=".toList ++ e.inst ++ "/usr/share/info".toList,
      "localstatedir=".toList ++ e.inst ++ "/var/lib".toList, "mandir=".toList ++ e.inst ++ "/usr/share/man".toList,
      "sysconfdir=".toList ++ e.inst ++ "/etc".toList, p, a] else none
  | .autoRawInstall p a => if makefile acc then some ["make".toList, p, a] else none
  | .auto c p => some [c, p]
  | .kdeConfigure p => if acc "configure".toList then some ["./configure".toList, "--prefix=".toList ++ e.kde, "--host=".toList ++ e.host,
      "--with-x".toList, "--enable-mitshm".toList, "--with-xinerama".toList, "--with-qt-dir=".toList ++ e.qt, "--enable-mt".toList,
      "--with-qt-libraries=".toList ++ e.qt ++ "/lib/".toList, "--disable-dependency-tracking".toList, "--disable-debug".toList, p] else none
  | .kdeInstall p => if acc "Makefile".toList then some ["make".toList, "DESTDIR=".toList ++ e.inst, "destdir=".toList ++ e.inst, p] else none
  | .perlConfigure p => some (if acc "Build.PL".toList then
      ["perl".toList, "Build.PL".toList, "installdirs=vendor".toList, "destdir=".toList ++ e.inst]
      else ["perl".toList, "Makefile.PL".toList, p, "PREFIX=/usr".toList, "INSTALLDIRS=vendor".toList, "DESTDIR=".toList ++ e.inst])
  | .perlMake p => some (if acc "Makefile".toList then ["make".toList, p] else ["perl".toList, "Build".toList, "build".toList])
  | .perlInstall p => some (if acc "Makefile".toList then ["make".toList, p] else ["perl".toList, "Build".toList, "install".toList])
  | .pyCompile p => some ["python".toList, "setup.py".toList, "build".toList, p]
  | .pyInstall p => some ["python".toList, "setup.py".toList, "install".toList, "--root=".toList ++ e.inst, "--no-compile".toList, p]
  | .pyRun p => some ["python".toList, p]
  | .sconsMake p => some ["scons".toList, p]
  | .sconsInstall p pre a => some ["scons".toList, a ++ '=' :: pre.getD e.sconsPrefix, p]
  | .preplib d => if dirs d then some ["/sbin/ldconfig".toList, "-n".toList, "-N".toList, d] else none

/-- The files of the package that are taken away afterwards if they are there, for every package has them. -/
def removed (e : Env) : Call → List Str
  | .autoInstall _ _ | .autoRawInstall _ _ => [e.inst ++ "/usr/share/info/dir".toList]
  | .perlInstall _ => [e.inst ++ "/usr/lib/perl5/vendor_perl/".toList ++ e.perl ++ "/i686-linux/perllocal.pod".toList,
      e.inst ++ "/usr/lib/perl5/".toList ++ e.perl ++ "/i686-linux/perllocal.pod".toList,
      e.inst ++ "/usr/lib/perl5/site_perl/".toList ++ e.perl ++ "/perllocal.pod".toList]
  | _ => []

end Pisi.ToolsSpec
