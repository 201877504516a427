/-
The pipes of actions scripts (`pisi/actionsapi/coreutils.py`):
`cat(f) | grep(p) | tr(g) | sort | uniq | printto(out)`.

A sequence is a list; that the elements are produced one by one is not
modelled.  A regular expression is the set of strings it matches, given as a
Boolean function.
-/
import Verif.Model.Str

namespace Pisi.Pipes

/-- The lines of a file with the newlines they end with, as `xreadlines`
yields them. -/
def lines : Str → List Str
  | [] => []
  | c :: s =>
    if c = '\n' then ['\n'] :: lines s
    else match lines s with
      | [] => [[c]]
      | l :: ls => (c :: l) :: ls

/-- `cat` (pisi/actionsapi/coreutils.py:26-27). -/
def cat (content : Str) : List Str := lines content

/-- `re.compile(pat).match`: something at the beginning of the line is
matched. -/
def reMatch (L : Str → Bool) (line : Str) : Bool :=
  (List.range (line.length + 1)).any fun n => L (line.take n)

/-- `grep` (pisi/actionsapi/coreutils.py:29-34). -/
def grep (L : Str → Bool) (input : List Str) : List Str := input.filter (reMatch L)

/-- `tr` (pisi/actionsapi/coreutils.py:36-41). -/
def tr {α β : Type} (f : α → β) (input : List α) : List β := input.map f

/-- What `printto` writes (pisi/actionsapi/coreutils.py:43-49): `print` ends
each element with a newline. -/
def printto (input : List Str) : Str := input.flatMap fun l => l ++ ['\n']

/-- `join` (pisi/actionsapi/coreutils.py:62). -/
def join (input : List Str) : Str := input.flatten

/-- `asdict` (pisi/actionsapi/coreutils.py:60), as a function: the last pair
of a key counts. -/
def asdict {α β : Type} [DecidableEq α] (input : List (α × β)) : α → Option β :=
  input.foldl (fun d e k => if k = e.1 then some e.2 else d k) (fun _ => none)

/-- `enum` (pisi/actionsapi/coreutils.py:63). -/
def enum {α : Type} (input : List α) : List (Nat × α) := (List.range input.length).zip input

/-- `sort` (pisi/actionsapi/coreutils.py:65-70); `le` is the order of the
elements. -/
def sort {α : Type} (le : α → α → Bool) (input : List α) : List α := input.mergeSort le

/-- The loop of `uniq` (pisi/actionsapi/coreutils.py:73-81); `prev` is none
while the name has not been bound. -/
def uniqFrom {α : Type} [DecidableEq α] : Option α → List α → List α
  | _, [] => []
  | prev, i :: l => if some i = prev then uniqFrom prev l else i :: uniqFrom (some i) l

/-- `uniq` (pisi/actionsapi/coreutils.py:72-83). -/
def uniq {α : Type} [DecidableEq α] (input : List α) : List α := uniqFrom none input

end Pisi.Pipes
