import Verif.Model.Dict
import Verif.Model.Str

/-!
# Model of pisi/db/itembyrepo.py

The environment is opened without the locking subsystem (pisi/db/lockeddbshelve.py:90-93), so reads made outside a
transaction (`self.d.has_key(name)` in `add_item`, `self.d.keys()` in `remove_repo`) see the writes of the running
transaction; the model has a single current state.  An operation that raises leaves the state unchanged because
`DBShelf.txn_proc` aborts (modelled in `Verif/Model/Txn.lean`).
-/
namespace Pisi.DB

/-- A single store: a repository name, `thirdparty` or `installed`, pisi/db/itembyrepo.py:27. -/
inductive RepoId where
  | repo (name : Str)
  | thirdparty
  | installed
  deriving DecidableEq

/-- The `repo` argument of queries: `repos`, `alldb` or a single store, pisi/db/itembyrepo.py:27 (`None` means `repos`). -/
inductive Query where
  | repos
  | alldb
  | one (r : RepoId)
  deriving DecidableEq

/-- `repo_str`, pisi/db/itembyrepo.py:102-110. -/
def repoStr : RepoId → Str
  | .thirdparty => ['t', 'r', 'd', 'p', 'a', 'r', 't', 'y']
  | .installed => ['i', 'n', 's', 't']
  | .repo n => ['r', 'e', 'p', 'o', '-'] ++ n

/-- `str_repo`, pisi/db/itembyrepo.py:112-120; `none` is `Error('Invalid repository string')`. -/
def strRepo (s : Str) : Option RepoId :=
  if s.take 5 = ['r', 'e', 'p', 'o', '-'] then some (.repo (s.drop 5))
  else if s = ['t', 'r', 'd', 'p', 'a', 'r', 't', 'y'] then some .thirdparty
  else if s = ['i', 'n', 's', 't'] then some .installed
  else none

/-- Errors of the item database. -/
inductive IErr where
  /-- `NotfoundError`, pisi/db/itembyrepo.py:38 -/
  | notFound
  /-- `AttributeError`: `None.has_key` when the name is absent, pisi/db/itembyrepo.py:192-194 -/
  | attribute
  /-- failed `assert` -/
  | assertion
  deriving DecidableEq

/-- `ItemByRepoDB.d`: name → dictionary from store to item, pisi/db/itembyrepo.py:43-44.  The inner
dictionary is keyed by `repo_str(repo)`; the model keys it by the store itself, which is the same thing because
`repo_str` is injective (`repo_str_injective`). -/
abbrev ItemDB (α ν : Type) := Dict α (Dict RepoId ν)

set_option linter.unusedSectionVars false
variable {α ν : Type} [DecidableEq α]

/-- `not_just_tracking`, pisi/db/itembyrepo.py:60-73. -/
def notJustTracking (data : Dict RepoId ν) : Bool :=
  if data.keys.length = 1 then
    if RepoId.thirdparty ∈ data.keys ∨ RepoId.installed ∈ data.keys then false else true
  else if data.keys.length = 2 then
    if RepoId.thirdparty ∈ data.keys ∧ RepoId.installed ∈ data.keys then false else true
  else true

namespace ItemDB

/-- `list`, pisi/db/itembyrepo.py:78-87 (`list_if` 75-76 inlined). -/
def list (d : ItemDB α ν) : Query → List α
  | .one r => (d.filter (fun e => e.2.has r)).map Prod.fst
  | .alldb => d.keys
  | .repos => (d.filter (fun e => notJustTracking e.2)).map Prod.fst

/-- `order`, pisi/db/itembyrepo.py:90-97; `repoList` is `ctx.repodb.list()`. -/
def order (repoList : List Str) : Query → List RepoId
  | .alldb => repoList.map RepoId.repo ++ [.thirdparty, .installed]
  | _ => repoList.map RepoId.repo

/-- `has_key`, pisi/db/itembyrepo.py:122-134. -/
def hasKey (d : ItemDB α ν) (name : α) : Query → Bool
  | .alldb => d.has name
  | .repos => match d.get name with
    | some data => notJustTracking data
    | none => false
  | .one r => match d.get name with
    | some data => data.has r
    | none => false

/-- The loop over `self.order(repo)`, pisi/db/itembyrepo.py:145-147. -/
def firstOf (s : Dict RepoId ν) : List RepoId → Option (ν × RepoId)
  | [] => none
  | r :: rs => match s.get r with
    | some v => some (v, r)
    | none => firstOf s rs

/-- `get_item_repo`, pisi/db/itembyrepo.py:136-155. -/
def getItemRepo (d : ItemDB α ν) (repoList : List Str) (name : α) (q : Query) : Except IErr (ν × RepoId) :=
  match d.get name with
  | none => .error .notFound
  | some s =>
    match q with
    | .one r => match s.get r with
      | some v => .ok (v, r)
      | none => .error .notFound
    | q => match firstOf s (order repoList q) with
      | some x => .ok x
      | none => .error .notFound

/-- `get_item`, pisi/db/itembyrepo.py:157-166. -/
def getItem (d : ItemDB α ν) (repoList : List Str) (name : α) (q : Query) : Except IErr ν :=
  match d.getItemRepo repoList name q with
  | .ok (v, _) => .ok v
  | .error e => .error e

/-- `which_repo`, pisi/db/itembyrepo.py:168-174. -/
def whichRepo (d : ItemDB α ν) (repoList : List Str) (name : α) : Except IErr RepoId :=
  match d.getItemRepo repoList name .repos with
  | .ok (_, r) => .ok r
  | .error e => .error e

/-- `add_item`, pisi/db/itembyrepo.py:176-186 (for a single store; the assertion excludes `repos` and `alldb`). -/
def addItem (d : ItemDB α ν) (name : α) (obj : ν) (r : RepoId) : ItemDB α ν :=
  match d.get name with
  | none => d.put name (Dict.put [] r obj)
  | some s => d.put name (s.put r obj)

/-- `remove_item_repo`, pisi/db/itembyrepo.py:188-200. -/
def removeItemRepo (d : ItemDB α ν) (name : α) (r : RepoId) : Except IErr (ItemDB α ν) :=
  match d.get name with
  | none => .error .attribute
  | some s =>
    let s' := if s.has r then s.del r else s
    if s'.length = 0 then .ok (d.del name) else .ok (d.put name s')

/-- `remove_item_only`, pisi/db/itembyrepo.py:202-206. -/
def removeItemOnly (d : ItemDB α ν) (repoList : List Str) (name : α) : Except IErr (ItemDB α ν) :=
  match d.whichRepo repoList name with
  | .ok r => d.removeItemRepo name r
  | .error e => .error e

/-- `remove_item`, pisi/db/itembyrepo.py:208-214. -/
def removeItem (d : ItemDB α ν) (repoList : List Str) (name : α) : Query → Except IErr (ItemDB α ν)
  | .one r => d.removeItemRepo name r
  | _ => d.removeItemOnly repoList name

/-- The loop of `remove_repo`. -/
def removeKeys (r : RepoId) : List α → ItemDB α ν → Except IErr (ItemDB α ν)
  | [], d => .ok d
  | k :: ks, d => match d.removeItemRepo k r with
    | .ok d' => removeKeys r ks d'
    | .error e => .error e

/-- `remove_repo`, pisi/db/itembyrepo.py:216-220. -/
def removeRepo (d : ItemDB α ν) (r : RepoId) : Except IErr (ItemDB α ν) := removeKeys r d.keys d

end ItemDB

/-- Updating operations; `removeAny` and its `repoList` stand for `remove_item` without a single store. -/
inductive ItemOp (α ν : Type) where
  | add (name : α) (obj : ν) (r : RepoId)
  | remove (name : α) (r : RepoId)
  | removeAny (repoList : List Str) (name : α)
  | removeRepo (r : RepoId)

/-- Run one operation; an error leaves the state unchanged (the transaction is aborted). -/
def ItemOp.step (d : ItemDB α ν) : ItemOp α ν → ItemDB α ν
  | .add n v r => d.addItem n v r
  | .remove n r => match d.removeItem [] n (.one r) with
    | .ok d' => d'
    | .error _ => d
  | .removeAny l n => match d.removeItem l n .repos with
    | .ok d' => d'
    | .error _ => d
  | .removeRepo r => match d.removeRepo r with
    | .ok d' => d'
    | .error _ => d

/-- The state after a history, starting from an empty database. -/
def ItemOp.run (ops : List (ItemOp α ν)) : ItemDB α ν := ops.foldl ItemOp.step []

end Pisi.DB
