import Verif.Model.RepoUpdate

/-!
# What is expected of updating a repository
-/
namespace Pisi.Repo
variable {α : Type}

/-- The file has a name for bzip2. -/
def IsBz2 (F : Str) : Prop := ∃ n, F = n ++ ".bz2".toList

/-- The content `c` of the file `F` stands for the text `d`. -/
def Plain (T : Tools α) (F c d : Str) : Prop := (IsBz2 F ∧ T.bunzip c = some d) ∨ (¬ IsBz2 F ∧ d = c)

/-- The file `a` with a hash announces `h`: its first line, with the line end if there is one. -/
def Announces (a h : Str) : Prop := ('\n' ∉ a ∧ h = a) ∨ ∃ l r, a = l ++ '\n' :: r ∧ '\n' ∉ l ∧ h = l ++ ['\n']

/-- The content `c` of the file `F` is an index, `ix`. -/
def IsIndex (T : Tools α) (F c : Str) (ix : α) : Prop := ∃ d, Plain T F c d ∧ T.parse d = some ix

/-- The server announces the hash `h`. -/
def AnnouncesHash (net : Net) (h : Str) : Prop := ∃ a, net.hash = some a ∧ Announces a h

/-- The server has no signature, or a valid one of `c`. -/
def NotForged (T : Tools α) (net : Net) (c : Str) : Prop :=
  net.sig = none ∨ net.sig = some [] ∨ ∃ g, net.sig = some g ∧ T.verify c g = true

end Pisi.Repo
