import Verif.Model.ItemByRepo
import Verif.Model.World

/-!
# Model of pisi/db/package.py, pisi/db/source.py, the component database of pisi/data/component.py,
pisi/db/repo.py and `Index.update_db`

The search indices updated by `add_package`/`remove_package` (pisi/db/package.py:108-114, 136-141) are modelled in
`Verif/Model/Search.lean`.  An operation that raises leaves the state unchanged (transaction abort).
-/
namespace Pisi.DB

/-- The fields of `metadata.Package` the databases read. -/
structure Meta (α : Type) where
  name : α
  info : PkgInfo α
  /-- `partOf`; `none` is `None` or ''. -/
  partOf : Option α
  /-- `summary`: language → text -/
  summary : Dict Str Str := []
  /-- `description`: language → text -/
  description : Dict Str Str := []
  /-- `packageURI` -/
  uri : Str := []
  deriving DecidableEq

/-- The fields of `Component`, pisi/data/component.py:49-75, that the database maintains. -/
structure Comp (α : Type) where
  packages : List α := []
  sources : List α := []
  deriving DecidableEq

/-- The fields of a spec file that `SourceDB` reads. -/
structure SrcSpec (α : Type) where
  /-- `spec.source.name` -/
  name : α
  /-- names of `spec.packages` -/
  packages : List α
  /-- `spec.source.partOf` -/
  partOf : Option α
  /-- `spec.errors()` is empty -/
  valid : Bool
  /-- `spec.source.sourceURI` -/
  uri : Str := []
  deriving DecidableEq

/-- `PackageDB` (pisi/db/package.py:49-51), `SourceDB` (pisi/db/source.py:43-45), `ComponentDB`
(pisi/data/component.py:96-97). -/
structure Stores (α : Type) where
  /-- `packagedb.d` -/
  pkg : ItemDB α (Meta α) := []
  /-- `packagedb.dr` -/
  rev : ItemDB α (List (α × Dep α)) := []
  /-- `sourcedb.d` -/
  src : ItemDB α (SrcSpec α) := []
  /-- `sourcedb.dpkgtosrc` -/
  p2s : ItemDB α α := []
  /-- `componentdb.d` -/
  comp : ItemDB α (Comp α) := []

/-- Errors. -/
inductive DErr where
  | item (e : IErr)
  /-- `TypeError` of `runtimeDependencies` -/
  | typeErr
  /-- failed `assert` -/
  | assertion
  /-- `Error('Information for component %s not available')`, pisi/data/component.py:166 -/
  | component
  deriving DecidableEq

variable {α : Type} [DecidableEq α]

/-- Lift errors of the item database. -/
def liftI {β : Type} : Except IErr β → Except DErr β
  | .ok x => .ok x
  | .error e => .error (.item e)

/-- `ComponentDB.add_package` (pisi/data/component.py:151-161) and `add_spec` (pisi/data/component.py:176-186); `f`
appends to the list of packages or sources. -/
def compAdd (c : ItemDB α (Comp α)) (name : Option α) (r : RepoId) (f : Comp α → Comp α) :
    Except DErr (ItemDB α (Comp α)) :=
  match name with
  | none => .error .assertion
  | some n =>
    if c.hasKey n (.one r) then
      match c.getItem [] n (.one r) with
      | .ok x => .ok (c.addItem n (f x) r)
      | .error e => .error (.item e)
    else .ok (c.addItem n (f {}) r)

/-- `if not package in component.packages: component.packages.append(package)`, pisi/data/component.py:158-159. -/
def Comp.addPackage (p : α) (c : Comp α) : Comp α :=
  if p ∈ c.packages then c else { c with packages := c.packages ++ [p] }

/-- `if not spec in component.sources: component.sources.append(spec)`, pisi/data/component.py:183-184. -/
def Comp.addSource (p : α) (c : Comp α) : Comp α :=
  if p ∈ c.sources then c else { c with sources := c.sources ++ [p] }

/-- `ComponentDB.remove_package`, pisi/data/component.py:163-174, for a single store. -/
def compRemovePackage (c : ItemDB α (Comp α)) (name : Option α) (p : α) (r : RepoId) :
    Except DErr (ItemDB α (Comp α)) :=
  match name with
  | none => .error .component
  | some n =>
    if c.hasKey n (.one r) then
      match c.getItem [] n (.one r) with
      | .ok x => .ok (c.addItem n { x with packages := x.packages.erase p } r)
      | .error e => .error (.item e)
    else .error .component

/-- `ComponentDB.update_component`, pisi/data/component.py:143-149. -/
def updateComponent (c : ItemDB α (Comp α)) (name : α) (x : Comp α) (r : RepoId) : Except DErr (ItemDB α (Comp α)) :=
  if c.hasKey name (.one r) then
    match c.getItem [] name (.one r) with
    | .ok y => .ok (c.addItem name { x with packages := y.packages } r)
    | .error e => .error (.item e)
  else .ok (c.addItem name x r)

/-- `PackageDB.get_rev_deps` for a single store, pisi/db/package.py:76-80. -/
def getRevDeps (s : Stores α) (name : α) (r : RepoId) : Except DErr (List (α × Dep α)) :=
  if s.rev.hasKey name (.one r) then liftI (s.rev.getItem [] name (.one r)) else .ok []

/-- Body of the loop over dependencies in `add_package`, pisi/db/package.py:97-105. -/
def addRevDep (name : α) (r : RepoId) (rev : ItemDB α (List (α × Dep α))) (d : Dep α) :
    Except DErr (ItemDB α (List (α × Dep α))) :=
  if rev.hasKey d.package (.one r) then
    match rev.getItem [] d.package (.one r) with
    | .ok l => .ok (rev.addItem d.package (l.filter (fun e => e.1 ≠ name) ++ [(name, d)]) r)
    | .error e => .error (.item e)
  else .ok (rev.addItem d.package [(name, d)] r)

/-- Body of the loop over dependencies in `remove_package`, pisi/db/package.py:127-132. -/
def dropRevDep (name : α) (r : RepoId) (rev : ItemDB α (List (α × Dep α))) (d : Dep α) :
    Except DErr (ItemDB α (List (α × Dep α))) :=
  if rev.hasKey d.package (.one r) then
    match rev.getItem [] d.package (.one r) with
    | .ok l => .ok (rev.addItem d.package (l.filter (fun e => e.1 ≠ name)) r)
    | .error e => .error (.item e)
  else .ok rev

/-- A `for` loop with a body that may raise. -/
def forM' {β σ ε : Type} (f : σ → β → Except ε σ) : List β → σ → Except ε σ
  | [], s => .ok s
  | b :: bs, s => match f s b with
    | .ok s' => forM' f bs s'
    | .error e => .error e

/-- `PackageDB.add_package`, pisi/db/package.py:92-116. -/
def addPackage (r : RepoId) (s : Stores α) (m : Meta α) : Except DErr (Stores α) :=
  let pkg := s.pkg.addItem m.name m r
  match m.info.runtimeDeps with
  | .error _ => .error .typeErr
  | .ok deps =>
    match forM' (addRevDep m.name r) deps s.rev with
    | .error e => .error e
    | .ok rev =>
      match compAdd s.comp m.partOf r (Comp.addPackage m.name) with
      | .error e => .error e
      | .ok comp => .ok { s with pkg := pkg, rev := rev, comp := comp }

/-- `PackageDB.remove_package` for a single store, pisi/db/package.py:122-142.  (Called only with the tracking
stores, pisi/db/package.py:152-157.) -/
def removePackage (r : RepoId) (s : Stores α) (name : α) : Except DErr (Stores α) :=
  match s.pkg.getItem [] name (.one r) with
  | .error e => .error (.item e)
  | .ok m =>
    match s.pkg.removeItem [] name (.one r) with
    | .error e => .error (.item e)
    | .ok pkg =>
      match m.info.runtimeDeps with
      | .error _ => .error .typeErr
      | .ok deps =>
        match forM' (dropRevDep name r) deps s.rev with
        | .error e => .error e
        | .ok rev =>
          match (if rev.hasKey name (.one r) then liftI (rev.removeItem [] name (.one r)) else .ok rev) with
          | .error e => .error e
          | .ok rev' =>
            match compRemovePackage s.comp m.partOf m.name r with
            | .error e => .error e
            | .ok comp => .ok { s with pkg := pkg, rev := rev', comp := comp }

/-- `remove_tracking_package`, pisi/db/package.py:152-157. -/
def removeTracking (s : Stores α) (name : α) : Except DErr (Stores α) :=
  let one := fun (r : RepoId) (s : Stores α) =>
    if s.pkg.hasKey name (.one r) then removePackage r s name else .ok s
  match one .installed s with
  | .error e => .error e
  | .ok s' => one .thirdparty s'

/-- `PackageDB.remove_repo`, pisi/db/package.py:144-148. -/
def pkgRemoveRepo (s : Stores α) (r : RepoId) : Except DErr (Stores α) :=
  match s.pkg.removeRepo r with
  | .error e => .error (.item e)
  | .ok p => match s.rev.removeRepo r with
    | .error e => .error (.item e)
    | .ok v => .ok { s with pkg := p, rev := v }

/-- `SourceDB.remove_repo`, pisi/db/source.py:94-98. -/
def srcRemoveRepo (s : Stores α) (r : RepoId) : Except DErr (Stores α) :=
  match s.src.removeRepo r with
  | .error e => .error (.item e)
  | .ok p => match s.p2s.removeRepo r with
    | .error e => .error (.item e)
    | .ok v => .ok { s with src := p, p2s := v }

/-- `ComponentDB.remove_repo`, pisi/data/component.py:208-209. -/
def compRemoveRepo (s : Stores α) (r : RepoId) : Except DErr (Stores α) :=
  match s.comp.removeRepo r with
  | .error e => .error (.item e)
  | .ok c => .ok { s with comp := c }

/-- `SourceDB.add_spec`, pisi/db/source.py:72-80. -/
def addSpec (r : RepoId) (s : Stores α) (sp : SrcSpec α) : Except DErr (Stores α) :=
  if sp.valid then
    match compAdd s.comp sp.partOf r (Comp.addSource sp.name) with
    | .error e => .error e
    | .ok comp => .ok { s with src := s.src.addItem sp.name sp r,
                               p2s := sp.packages.foldl (fun d p => d.addItem p sp.name r) s.p2s, comp := comp }
  else .error .assertion

/-- `Index`, pisi/data/index.py:39-48: the decoded contents. -/
structure Index (α : Type) where
  components : List (α × Comp α) := []
  packages : List (Meta α) := []
  specs : List (SrcSpec α) := []

/-- `Index.update_db`, pisi/data/index.py:102-111. -/
def Index.updateDb (ix : Index α) (r : RepoId) (s : Stores α) : Except DErr (Stores α) :=
  match compRemoveRepo s r with
  | .error e => .error e
  | .ok s1 =>
    match forM' (fun c (x : α × Comp α) => updateComponent c x.1 x.2 r) ix.components s1.comp with
    | .error e => .error e
    | .ok c =>
      match pkgRemoveRepo { s1 with comp := c } r with
      | .error e => .error e
      | .ok s2 =>
        match forM' (addPackage r) ix.packages s2 with
        | .error e => .error e
        | .ok s3 =>
          match srcRemoveRepo s3 r with
          | .error e => .error e
          | .ok s4 => forM' (addSpec r) ix.specs s4

/-! ## pisi/db/repo.py -/

/-- `RepoDB`, pisi/db/repo.py:41-49: entries "repo-"+name and the key "order" (`none` when absent). -/
structure RepoDB (ρ : Type) where
  entries : Dict Str ρ := []
  order : Option (List Str) := some []

/-- Errors of `RepoDB`. -/
inductive RErr where
  /-- `Error('Repository %s already exists')`, pisi/db/repo.py:81 -/
  | present
  /-- `Error("Cannot add repository at position %s")`, pisi/db/repo.py:88 -/
  | position
  /-- `DBNotFoundError` of `delete` -/
  | dbNotFound
  /-- `ValueError` of `list.remove` -/
  | value
  /-- `AttributeError` on a missing "order" -/
  | attribute
  /-- `TypeError` of `decode(None)` -/
  | typeErr
  /-- `NameError`: `txn` is not defined in `swap`, pisi/db/repo.py:58-65 -/
  | name
  /-- from the other databases -/
  | db (e : DErr)
  deriving DecidableEq

namespace RepoDB
variable {ρ : Type}

/-- `RepoDB.__init__`, pisi/db/repo.py:44-49. -/
def init (d : RepoDB ρ) : RepoDB ρ :=
  match d.order with
  | none => { d with order := some [] }
  | some _ => d

/-- `has_repo`, pisi/db/repo.py:67-69. -/
def hasRepo (d : RepoDB ρ) (n : Str) : Bool := d.entries.has n

/-- `get_repo`, pisi/db/repo.py:71-73. -/
def getRepo (d : RepoDB ρ) (n : Str) : Except RErr ρ :=
  match d.entries.get n with
  | some x => .ok x
  | none => .error .typeErr

/-- `list`, pisi/db/repo.py:93-94. -/
def list (d : RepoDB ρ) : Except RErr (List Str) :=
  match d.order with
  | some l => .ok l
  | none => .error .typeErr

/-- `repo_name`, pisi/db/repo.py:54-56, for non-negative indices; `none` is `IndexError`. -/
def repoName (d : RepoDB ρ) (i : Nat) : Except RErr (Option Str) :=
  match d.list with
  | .ok l => .ok l[i]?
  | .error e => .error e

/-- `add_repo`, pisi/db/repo.py:75-91. -/
def addRepo (d : RepoDB ρ) (n : Str) (x : ρ) (pos : Option Int) : Except RErr (RepoDB ρ) :=
  if d.entries.has n then .error .present
  else match d.order with
    | none => .error .attribute
    | some l => match pos with
      | none => .ok { entries := d.entries.put n x, order := some (l ++ [n]) }
      | some i =>
        if i < 0 ∨ i > l.length then .error .position
        else .ok { entries := d.entries.put n x, order := some (l.insertIdx i.toNat n) }

/-- `swap`, pisi/db/repo.py:58-65: `txn` is not a parameter of `swap`. -/
def swap (_ : RepoDB ρ) (_ _ : Nat) : Except RErr (RepoDB ρ) := .error .name

/-- `clear`, pisi/db/repo.py:96-97. -/
def clear (_ : RepoDB ρ) : RepoDB ρ := { entries := [], order := none }

/-- The part of `remove_repo` concerning `RepoDB` itself, pisi/db/repo.py:102-105. -/
def dropRepo (d : RepoDB ρ) (n : Str) : Except RErr (RepoDB ρ) :=
  if d.entries.has n then
    match d.order with
    | none => .error .attribute
    | some l => if n ∈ l then .ok { entries := d.entries.del n, order := some (l.erase n) } else .error .value
  else .error .dbNotFound

end RepoDB

/-! ## All databases together -/

/-- The repository list with the item databases. -/
structure System (α ρ : Type) where
  repos : RepoDB ρ := {}
  stores : Stores α := {}

variable {ρ : Type}

/-- Lift errors of the item databases. -/
def liftD {β : Type} : Except DErr β → Except RErr β
  | .ok x => .ok x
  | .error e => .error (.db e)

/-- `RepoDB.remove_repo`, pisi/db/repo.py:99-109. -/
def System.removeRepo (y : System α ρ) (n : Str) : Except RErr (System α ρ) :=
  match y.repos.dropRepo n with
  | .error e => .error e
  | .ok d => match pkgRemoveRepo y.stores (.repo n) with
    | .error e => .error (.db e)
    | .ok s1 => match srcRemoveRepo s1 (.repo n) with
      | .error e => .error (.db e)
      | .ok s2 => match compRemoveRepo s2 (.repo n) with
        | .error e => .error (.db e)
        | .ok s3 => .ok { repos := d, stores := s3 }

/-- `update_repo`/`rebuild_repo`, pisi/op/repo.py:53-97, once the index has been read: `none` is
`Error('No repository named %s found.')`. -/
def System.updateRepo (y : System α ρ) (n : Str) (ix : Index α) : Option (Except RErr (System α ρ)) :=
  if y.repos.hasRepo n then
    some (match ix.updateDb (.repo n) y.stores with
      | .ok s => .ok { y with stores := s }
      | .error e => .error (.db e))
  else none

/-- Operations on the whole system. -/
inductive SysOp (α ρ : Type) where
  | addRepo (n : Str) (x : ρ) (pos : Option Int)
  | removeRepo (n : Str)
  | updateRepo (n : Str) (ix : Index α)
  /-- `packagedb.add_package(info, installed)` / `(info, thirdparty)` -/
  | track (r : RepoId) (m : Meta α)
  /-- `remove_tracking_package(name)` -/
  | untrack (name : α)

/-- One operation; an error leaves the state unchanged. -/
def SysOp.step (y : System α ρ) : SysOp α ρ → System α ρ
  | .addRepo n x pos => match y.repos.addRepo n x pos with
    | .ok d => { y with repos := d }
    | .error _ => y
  | .removeRepo n => match y.removeRepo n with
    | .ok y' => y'
    | .error _ => y
  | .updateRepo n ix => match y.updateRepo n ix with
    | some (.ok y') => y'
    | _ => y
  | .track (.repo _) _ => y
  | .track r m => match addPackage r y.stores m with
    | .ok s => { y with stores := s }
    | .error _ => y
  | .untrack name => match removeTracking y.stores name with
    | .ok s => { y with stores := s }
    | .error _ => y

/-- The state after a history. -/
def SysOp.run (ops : List (SysOp α ρ)) : System α ρ := ops.foldl SysOp.step {}

end Pisi.DB
