/-
What a build from a server needs, and where additional files belong.
-/
import Verif.Model.RemoteBuild
import Verif.Spec.Path

namespace Pisi.RemoteBuildSpec
open Pisi.PathSpec Pisi.RemoteBuild

/-- The files next to a specification that a build uses, as names relative to
its directory. -/
def needed (s : Source) : List Str :=
  ['a','c','t','i','o','n','s','.','p','y'] ::
    (s.patches.map (fun p => ['f','i','l','e','s','/'] ++ p) ++
      s.scripts.map (fun c => ['c','o','m','a','r','/'] ++ c) ++
      s.additional.map (fun a => ['f','i','l','e','s','/'] ++ a))

/-- The file of this name in one directory is fetched to the same name in
another. -/
def Fetched (l : List (Str × Str)) (u d name : Str) : Prop :=
  ∃ e ∈ l, segs e.1 = segs u ++ segs name ∧ segs e.2 = segs d ++ segs name

/-- The directory of a specification as an address: a scheme, a host, and no
query or fragment. -/
def Remote (u : Str) : Prop :=
  ∃ s h y, u = s ++ ':' :: '/' :: '/' :: h :: y ∧ s ≠ [] ∧ (∀ c ∈ s, Uri.schemeChar c = true) ∧
    h ≠ '/' ∧ ∀ c ∈ h :: y, c ≠ '?' ∧ c ≠ '#'

/-- A relative name of a file without characters that addresses give a
meaning. -/
def Plain (n : Str) : Prop :=
  Act.basename n ≠ [] ∧ n.head? ≠ some '/' ∧ ∀ c ∈ n, c ≠ '?' ∧ c ≠ '#' ∧ c ≠ ';'

/-- The full statement: everything needed is fetched. -/
def RemoteFull : Prop :=
  ∀ (specuri tmp : Str) (s : Source), Remote (FS.dirname specuri) →
    (∀ n, n ∈ s.patches ∨ n ∈ s.scripts ∨ n ∈ s.additional → Plain n) → ∀ n ∈ needed s,
    Fetched (fetchFiles specuri tmp s) (FS.dirname specuri) (destDir specuri tmp) n

/-- The full statement on additional files: they are put at their target below
the install directory. -/
def AdditionalFull : Prop :=
  ∀ (install target : Str), Act.basename target ≠ [] → install ≠ [] → install.getLast? ≠ some '/' →
    segs (additionalDest install target) = segs install ++ segs target

end Pisi.RemoteBuildSpec
