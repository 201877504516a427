/-
The commands that pisi hands to the shell with names of files in them.

Every one is a `%` format or a concatenation; all formats consist of fields
with one blank between them.  A field is given with the names put in.
-/
import Verif.Model.Str

namespace Pisi.Shell

/-- A field of a format. -/
inductive Field where
  /-- Text as it is, `%s`. -/
  | plain (s : Str)
  /-- Text between double quotes, `"%s"`. -/
  | quoted (s : Str)
  /-- Text between single quotes. -/
  | single (s : Str)
  /-- The `<` in front of the file to read from. -/
  | less

/-- The text of a field. -/
def Field.text : Field → Str
  | .plain s => s
  | .quoted s => '"' :: (s ++ ['"'])
  | .single s => '\'' :: (s ++ ['\''])
  | .less => ['<']

/-- The command: the fields with blanks between. -/
def render : List Field → Str
  | [] => []
  | [f] => f.text
  | f :: g :: l => f.text ++ ' ' :: render (g :: l)

/-- `'gpg --detach-sig ' + self.localfile` (pisi/file.py:203, 206). -/
def gpgSign (f : Str) : List Field :=
  [.plain ['g','p','g'], .plain ['-','-','d','e','t','a','c','h','-','s','i','g'], .plain f]

/-- `'gpg --verify ' + sigfilename` (pisi/file.py:216). -/
def gpgVerify (f : Str) : List Field :=
  [.plain ['g','p','g'], .plain ['-','-','v','e','r','i','f','y'], .plain f]

/-- `"xdelta patch %s %s %s"` (pisi/util/pkg.py:88-91). -/
def xdelta (patch old new : Str) : List Field :=
  [.plain ['x','d','e','l','t','a'], .plain ['p','a','t','c','h'], .plain patch, .plain old, .plain new]

/-- `"patch -p%d %s < %s"` (pisi/util/fs.py:254-255); the target is empty when
none is given. -/
def patch (level : Nat) (target f : Str) : List Field :=
  [.plain ['p','a','t','c','h'], .plain ('-' :: 'p' :: Nat.toDigits 10 level), .plain target, .less, .plain f]

/-- `"sed -i -e 's~-L/var/tmp/pisi/[[:graph:]]*~~g' %s"`
(pisi/util/fs.py:282); the command on line 283 differs in the expression. -/
def sed (expr f : Str) : List Field :=
  [.plain ['s','e','d'], .plain ['-','i'], .plain ['-','e'], .single expr, .plain f]

/-- `"file \"%s\""` (pisi/util/fs.py:300). -/
def file (f : Str) : List Field := [.plain ['f','i','l','e'], .quoted f]

/-- `"strip %s %s"` (pisi/util/fs.py:304); the flags are `-g`,
`--strip-unneeded` or empty. -/
def strip (flags f : Str) : List Field := [.plain ['s','t','r','i','p'], .plain flags, .plain f]

/-- `.debug` -/
def debugSuffix : Str := ['.','d','e','b','u','g']

/-- `"objcopy --only-keep-debug %s %s%s"` (pisi/util/fs.py:311). -/
def keepDebug (f o : Str) : List Field :=
  [.plain ['o','b','j','c','o','p','y'],
   .plain ['-','-','o','n','l','y','-','k','e','e','p','-','d','e','b','u','g'],
   .plain f, .plain (o ++ debugSuffix)]

/-- `--add-gnu-debuglink=` -/
def addLink : Str :=
  ['-','-','a','d','d','-','g','n','u','-','d','e','b','u','g','l','i','n','k','=']

/-- `"objcopy --add-gnu-debuglink=%s%s %s"` (pisi/util/fs.py:317). -/
def debugLink (o f : Str) : List Field :=
  [.plain ['o','b','j','c','o','p','y'], .plain (addLink ++ (o ++ debugSuffix)), .plain f]

/-- `'sudo install -m0755 -o root -g root %s %s'`
(pisi/actionsapi/pisitoolsfunctions.py:65-66, pisi/util/process.py:27-28). -/
def installExe (source dir : Str) : List Field :=
  [.plain ['s','u','d','o'], .plain ['i','n','s','t','a','l','l'], .plain ['-','m','0','7','5','5'],
   .plain ['-','o'], .plain ['r','o','o','t'], .plain ['-','g'], .plain ['r','o','o','t'],
   .plain source, .plain dir]

/-- `'install -m0644 "%s" %s'` (pisi/actionsapi/pisitoolsfunctions.py:82,
pisi/actionsapi/pisitools.py:85). -/
def installReadable (source dir : Str) : List Field :=
  [.plain ['i','n','s','t','a','l','l'], .plain ['-','m','0','6','4','4'], .quoted source, .plain dir]

/-- `"lzma -d -f " + self.file_path` (pisi/archive.py:96). -/
def unlzma (f : Str) : List Field :=
  [.plain ['l','z','m','a'], .plain ['-','d'], .plain ['-','f'], .plain f]

end Pisi.Shell
