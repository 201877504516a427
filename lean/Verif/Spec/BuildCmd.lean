import Verif.Model.BuildCmd

/-!
# What a user expects of build and emerge

The steps and formats are those of the help; with others nothing is done.  Every named package is treated, in the given order and as the
options say, until one fails.
-/
namespace Pisi.BuildCmd

/-- The steps named in the help of build, pisi/cli/build.py:37-39, and the formats there are. -/
def Step (u : Str) : Prop := u = "unpack".toList ∨ u = "setup".toList ∨ u = "build".toList ∨ u = "install".toList ∨ u = "package".toList
def Format (f : Str) : Prop := f = "1.0".toList ∨ f = "1.1".toList

/-- The options make sense. -/
def Sensible (o : Opts) : Prop := (∀ u, o.until_ = some u → Step u) ∧ Format o.format

/-- One after the other until one fails: what is done with the names `xs`, `f x` being what is to be done with `x`. -/
def OneByOne (ok : Act → Bool) (f : Str → Act) (xs : List Str) (r : List Act × End) : Prop :=
  ((∀ x ∈ xs, ok (f x) = true) ∧ r = (xs.map f ++ [.finalize], .done)) ∨
  ∃ pre x post, xs = pre ++ x :: post ∧ (∀ y ∈ pre, ok (f y) = true) ∧ ok (f x) = false ∧ r = (pre.map f ++ [f x], .failed)

/-- An act that makes something. -/
def Act.Makes : Act → Prop
  | .build .. | .buildUntil .. | .emerge .. => True
  | _ => False

/-- **C221, full statement.**  Options that make no sense are refused and nothing is done, not even the databases opened. -/
def BuildCmdFull : Prop := ∀ (ok : Act → Bool) (cache : Str) (o : Opts) (args : List Str), args ≠ [] → ¬ Sensible o →
  (build ok o args).1 = [] ∧ (build ok o args).2 ≠ .done ∧ (emerge ok cache o args).1 = [] ∧ (emerge ok cache o args).2 ≠ .done

end Pisi.BuildCmd
