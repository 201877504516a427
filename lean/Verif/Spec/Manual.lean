import Verif.Spec.Cli

/-!
# What the manual says about commands

`readme` is the list of commands in README.md:46-73, `readmeInstall` the list of options in README.md:96-119.  `manual`
adds the options of the other commands, copied from the calls of `add_option` in pisi/cli/*.py, spelled as the help
texts spell them.
-/
namespace Pisi.Cli.Manual
open Pisi.Cli.Spec

inductive Kind where
  | flag
  | value
  | number
  /-- prints something and ends -/
  | stop
  deriving DecidableEq

/-- An option: its letter, or nothing, its name, and its kind. -/
structure Op where
  letter : String
  name : String
  kind : Kind
  deriving DecidableEq

def Op.o (p : Op) : O where
  short := p.letter.toList.head?
  long := p.name.toList
  value := p.kind = .value ∨ p.kind = .number
  good := fun v => match p.kind with
    | .flag => True
    | .value => True
    | .number => IsInt v
    | .stop => False

def flag (l n : String) : Op := ⟨l, n, .flag⟩
def value (l n : String) : Op := ⟨l, n, .value⟩

/-- README.md:46-73 -/
def readme : List (String × String) := [("add-repo", "ar"), ("build", "bi"), ("check", ""), ("clean", ""),
  ("configure-pending", "cp"), ("delete-cache", "dc"), ("emerge", "em"), ("graph", ""), ("help", "?"), ("index", "ix"),
  ("info", ""), ("install", "it"), ("list-available", "la"), ("list-components", "lc"), ("list-installed", "li"),
  ("list-pending", "lp"), ("list-repo", "lr"), ("list-sources", "ls"), ("list-upgrades", "lu"), ("rebuild-db", "rdb"),
  ("remove", "rm"), ("remove-repo", "rr"), ("search", "sr"), ("search-file", "sf"), ("update-repo", "ur"), ("upgrade", "up")]

/-- The first two, README.md:97-98. -/
def every : List Op := [⟨"", "version", .stop⟩, ⟨"h", "help", .stop⟩]

/-- The last eight, README.md:110-119. -/
def common : List Op := [value "D" "destdir", flag "y" "yes-all", value "u" "username", value "p" "password",
  flag "v" "verbose", flag "d" "debug", flag "N" "no-color", value "L" "bandwidth-limit"]

/-- README.md:96-119 -/
def readmeInstall : List Op := [⟨"", "version", .stop⟩, ⟨"h", "help", .stop⟩, flag "B" "ignore-comar", flag "S" "bypass-safety",
  flag "n" "dry-run", flag "E" "ignore-dependency", flag "" "reinstall", flag "" "ignore-file-conflicts",
  flag "" "ignore-build-no", value "D" "destdir", flag "y" "yes-all", value "u" "username", value "p" "password",
  flag "v" "verbose", flag "d" "debug", flag "N" "no-color", value "L" "bandwidth-limit"]

/-- Of the commands that work on packages, pisi/cli/packageop.py. -/
def package : List Op := [flag "B" "ignore-comar", flag "S" "bypass-safety", flag "n" "dry-run", flag "E" "ignore-dependency"]

/-- Of the commands that build, pisi/cli/build.py. -/
def building : List Op := [flag "" "ignore-build-no", flag "" "show-abandoned-files", flag "E" "ignore-dependency",
  value "O" "output-dir", value "U" "until", flag "A" "ignore-action-errors", flag "S" "bypass-safety",
  flag "" "ignore-file-conflicts", flag "B" "ignore-comar", flag "" "create-static", flag "" "no-install",
  value "F" "package-format"]

/-- The own options of the commands. -/
def own : List (String × List Op) := [
  ("add-repo", [⟨"", "at", .number⟩]),
  ("build", building),
  ("check", []),
  ("clean", []),
  ("configure-pending", package),
  ("delete-cache", []),
  ("emerge", building),
  ("graph", [value "r" "repository", flag "i" "installed", flag "" "ignore-installed", value "o" "output"]),
  ("help", []),
  ("index", [flag "a" "absolute-uris", value "o" "output", flag "S" "skip-sources", flag "G" "skip-signing",
    flag "R" "non-recursive"]),
  ("info", [flag "f" "files", flag "F" "files-path", flag "s" "short", flag "" "xml"]),
  ("install", package ++ [flag "" "reinstall", flag "" "ignore-file-conflicts", flag "" "ignore-build-no"]),
  ("list-available", [flag "l" "long", flag "U" "uninstalled"]),
  ("list-components", [flag "l" "long"]),
  ("list-installed", [flag "l" "long", flag "i" "install-info"]),
  ("list-pending", []),
  ("list-repo", []),
  ("list-sources", [flag "l" "long"]),
  ("list-upgrades", [flag "l" "long", flag "i" "install-info", flag "" "ignore-build-no"]),
  ("rebuild-db", [flag "f" "files"]),
  ("remove", package),
  ("remove-repo", []),
  ("search", [flag "f" "files", flag "F" "files-path", flag "" "xml", value "l" "language", flag "L" "long"]),
  ("search-file", [flag "l" "long", flag "f" "fuzzy"]),
  ("update-repo", [flag "f" "force"]),
  ("upgrade", package ++ [flag "" "ignore-build-no", flag "" "security", flag "r" "bypass-update-repo",
    flag "" "ignore-file-conflicts", flag "e" "eager"])]

/-- All options of a command. -/
def options (n : String) (os : List Op) : Prop := ∃ own', (n, own') ∈ own ∧ os = every ++ own' ++ common

/-- `w` is the name or the abbreviation of the command `n`. -/
def Called (n : String) (w : Str) : Prop := ∃ a, (n, a) ∈ readme ∧ (w = n.toList ∨ a ≠ "" ∧ w = a.toList)

end Pisi.Cli.Manual
