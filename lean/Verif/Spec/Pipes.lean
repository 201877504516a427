/-
What the commands `cat`, `grep`, `sort` and `uniq` do.
-/
import Verif.Model.Pipes

namespace Pisi.PipesSpec

/-- A line as it stands in a file: a newline at its end, or none if it is the
last, and none elsewhere. -/
def IsLine (l : Str) : Prop := ∃ b, '\n' ∉ b ∧ (l = b ++ ['\n'] ∨ (l = b ∧ b ≠ []))

/-- The line contains something of the set. -/
def Contains (L : Str → Bool) (l : Str) : Prop := ∃ a b c, l = a ++ b ++ c ∧ L b = true

/-- `l'` is `l` with every run of equal elements replaced by one. -/
inductive Collapsed {α : Type} : List α → List α → Prop
  | nil : Collapsed [] []
  | run (a : α) (n : Nat) (l l' : List α) (h : l.head? ≠ some a) (hl : Collapsed l l') :
      Collapsed (List.replicate (n + 1) a ++ l) (a :: l')

/-- The full statement: `grep` keeps exactly the lines that contain a match,
and printing the lines of a file writes the file. -/
def PipesFull : Prop :=
  (∀ (L : Str → Bool) (content l : Str), l ∈ Pipes.grep L (Pipes.cat content) ↔
    l ∈ Pipes.cat content ∧ Contains L l) ∧
  ∀ content : Str, Pipes.printto (Pipes.cat content) = content

end Pisi.PipesSpec
