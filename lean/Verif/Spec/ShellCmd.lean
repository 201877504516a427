/-
How a shell splits a line into words and operators (POSIX, Shell Command
Language, 2.2 and 2.3), one character at a time.

The reading is `none` where the outcome is not given by the text alone:
parameters, commands put in, patterns, home directories, braces, comments, and
quotes that are not closed.
-/
import Verif.Model.Str

namespace Pisi.ShellSpec

/-- What a line is split into. -/
inductive Tok where
  | word (s : Str)
  | op (c : Char)
  deriving DecidableEq

/-- Inside which quotes. -/
inductive Quote where
  | bare
  | single
  | double
  | bareEsc
  | doubleEsc
  deriving DecidableEq

/-- Characters that separate words. -/
def blank (c : Char) : Bool := c = ' ' || c = '\t'

/-- Characters that are operators. -/
def isOp (c : Char) : Bool :=
  c = '|' || c = '&' || c = ';' || c = '<' || c = '>' || c = '(' || c = ')' || c = '\n'

/-- Characters that make the shell put something else in their place. -/
def expands (c : Char) : Bool :=
  c = '$' || c = '`' || c = '*' || c = '?' || c = '[' || c = '{'

/-- Characters that do so at the beginning of a word. -/
def first (c : Char) : Bool := c = '#' || c = '~'

/-- The word read so far, if one has been begun, in front of the rest. -/
def flush (cur : Option Str) (l : List Tok) : List Tok :=
  match cur with
  | none => l
  | some s => .word s :: l

/-- The word read so far with one more character. -/
def more (cur : Option Str) (c : Char) : Option Str := some (cur.getD [] ++ [c])

/-- Reading a line. -/
def rd : Quote → Option Str → Str → Option (List Tok)
  | .bare, cur, [] => some (flush cur [])
  | _, _, [] => none
  | .bare, cur, c :: s =>
    if blank c then (rd .bare none s).map (flush cur)
    else if isOp c then (rd .bare none s).map (fun l => flush cur (.op c :: l))
    else if c = '\'' then rd .single (some (cur.getD [])) s
    else if c = '"' then rd .double (some (cur.getD [])) s
    else if c = '\\' then rd .bareEsc cur s
    else if expands c then none
    else if first c ∧ cur = none then none
    else rd .bare (more cur c) s
  | .bareEsc, cur, c :: s =>
    if c = '\n' then rd .bare cur s else rd .bare (more cur c) s
  | .single, cur, c :: s =>
    if c = '\'' then rd .bare cur s else rd .single (more cur c) s
  | .double, cur, c :: s =>
    if c = '"' then rd .bare cur s
    else if c = '\\' then rd .doubleEsc cur s
    else if c = '$' ∨ c = '`' then none
    else rd .double (more cur c) s
  | .doubleEsc, cur, c :: s =>
    if c = '\n' then rd .double cur s
    else if c = '"' ∨ c = '\\' ∨ c = '$' ∨ c = '`' then rd .double (more cur c) s
    else rd .double (more (more cur '\\') c) s

/-- What the shell makes of a line. -/
def read (s : Str) : Option (List Tok) := rd .bare none s

/-- A line that runs one program with these arguments. -/
def Runs (s : Str) (args : List Str) : Prop := read s = some (args.map Tok.word)

/-- A line that runs one program with these arguments, reading from a file. -/
def RunsFrom (s : Str) (args : List Str) (f : Str) : Prop :=
  read s = some (args.map Tok.word ++ [.op '<', .word f])

/-- A character that stands for itself anywhere in a word. -/
def safeChar (c : Char) : Bool :=
  !(blank c || isOp c || c = '\'' || c = '"' || c = '\\' || expands c)

/-- Text that is one word, and as it is: no character with a meaning to the
shell, and no `#` or `~` at its beginning. -/
def safe : Str → Bool
  | [] => false
  | c :: l => safeChar c && !first c && l.all safeChar

/-- Text that stands for itself between double quotes. -/
def safeQuoted (s : Str) : Bool :=
  s.all (fun c => !(c = '"' || c = '\\' || c = '$' || c = '`'))

/-- A name of a file as the system allows it. -/
def FileName (s : Str) : Prop := s ≠ [] ∧ Char.ofNat 0 ∉ s

/-- The full statement, for one of the commands: stripping a file runs `strip`
on it, whatever its name. -/
def ShellFull (strip : Str → Str → Str) : Prop :=
  ∀ f, FileName f → Runs (strip ['-','g'] f) [['s','t','r','i','p'], ['-','g'], f]

end Pisi.ShellSpec
