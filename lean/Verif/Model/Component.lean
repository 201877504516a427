import Verif.Model.PackageDB
import Verif.Model.World

/-!
# Model of the queries of `ComponentDB` and of pisi/op/component.py
-/
namespace Pisi.DB
variable {α : Type} [DecidableEq α]

/-- The loop of `get_union_comp`, pisi/data/component.py:130-133: union of a field over the given stores. -/
def unionField (f : Comp α → List α) (s : Dict RepoId (Comp α)) : List RepoId → List α
  | [] => []
  | r :: rs => match s.get r with
    | some c => f c ++ unionField f s rs
    | none => unionField f s rs

/-- `get_union_comp` with the default `repo` argument, pisi/data/component.py:123-138: packages and sources of all
repositories.  Python sets are lists here, only membership is meaningful.  `AttributeError` when the
name is unknown. -/
def getUnionComp (c : ItemDB α (Comp α)) (repoList : List Str) (name : α) : Except IErr (Comp α) :=
  match c.get name with
  | none => .error .attribute
  | some s =>
    match c.getItem repoList name .repos with
    | .error e => .error e
    | .ok _ => .ok { packages := unionField Comp.packages s (ItemDB.order repoList .repos),
                     sources := unionField Comp.sources s (ItemDB.order repoList .repos) }

/-- `expand_components` (field `packages`), pisi/op/component.py:28-35, and `expand_src_components` (field
`sources`), pisi/op/component.py:38-45; the result is a set. -/
def expandWith (f : Comp α → List α) (c : ItemDB α (Comp α)) (repoList : List Str) : List α → Except IErr (List α)
  | [] => .ok []
  | x :: xs =>
    match (if c.hasKey x .repos then
            match getUnionComp c repoList x with
            | .ok u => Except.ok (f u)
            | .error e => .error e
          else .ok [x]) with
    | .error e => .error e
    | .ok l => match expandWith f c repoList xs with
      | .error e => .error e
      | .ok l' => .ok (l ++ l')

end Pisi.DB
