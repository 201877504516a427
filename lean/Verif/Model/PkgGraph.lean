import Verif.Model.Plan

/-!
# The graph of package relations, pisi/op/graph.py and pisi/data/graph.py, and pisi/op/emerge.py
-/
namespace Pisi.Plan
open Pisi.Graph
variable {α : Type} [DecidableEq α]

/-- `ctx.packagedb.get_package(x, repo)` for the repository (or union of repositories, or the
installed packages) `src`, pisi/db/package.py:67-71. -/
def getFrom (src : Dict α (PkgInfo α)) (x : α) : Except (PErr α) (PkgInfo α) :=
  match src.get x with
  | some p => .ok p
  | none => .error (.notFound x)

/-- The loop body of `package_graph`, pisi/op/graph.py:45-57: every dependency, or with
`ignore_installed` those that the installed system does not satisfy. -/
def graphLoop (w : World α) (src : Dict α (PkgInfo α)) (ign : Bool) : Loop α (Dep α) (PErr α) where
  deps x := match getFrom src x with
    | .ok p => p.runtimeDeps
    | .error e => .error e
  keep _ d := if ign then
      match w.installedSatisfies d with
      | .ok b => .ok (!b)
      | .error e => .error e
    else .ok true
  tgt d := d.package
  fetch y := match getFrom src y with
    | .ok _ => .ok ()
    | .error e => .error e
  dir := .fwd

/-- `package_graph(A, repo, ignore_installed)`, pisi/op/graph.py:26-58.  `A` is a list given by the
user (pisi/cli/graph.py:69, 75); `front` resolves the iteration order of the sets.  The data kept
with vertices and edges is left out. -/
def packageGraph (w : World α) (src : Dict α (PkgInfo α)) (ign : Bool) (front : List α → List α)
    (A : List α) : Except (PErr α) (Digraph α) :=
  match addPackages (getFrom src) A Digraph.empty with
  | .error e => .error e
  | .ok g => (graphLoop w src ign).closure .fuel front (src.keys.length + 1) A g

/-! ### Writing the graph for graphviz -/

/-- `string.punctuation`, python 2. -/
def punctuation : List Char :=
  ['!', '"', '#', '$', '%', '&', '\'', '(', ')', '*', '+', ',', '-', '.', '/', ':', ';', '<', '=',
   '>', '?', '@', '[', '\\', ']', '^', '_', '`', '{', '|', '}', '~']

/-- `Digraph.id_str(u)`, pisi/data/graph.py:135-141.  For the empty name `reduce` raises. -/
def idStr (u : Str) : Option Str :=
  if u = [] then none else some (u.map (fun c => if c ∈ punctuation then '_' else c))

/-- A statement of the file that `write_graphviz` writes: a node with its label, or an edge. -/
inductive Stmt where
  | node (id : Str) (label : Str)
  | edge (id1 id2 : Str)
  deriving DecidableEq, Repr

/-- All results, or none. -/
def allSome {β γ : Type} (f : β → Option γ) : List β → Option (List γ)
  | [] => some []
  | b :: bs => match f b with
    | none => none
    | some c => match allSome f bs with
      | none => none
      | some cs => some (c :: cs)

/-- `write_graphviz`, pisi/data/graph.py:143-156, with the labels of PGraph, pisi/data/pgraph.py:81-83,
given by `label`: the statements in order. -/
def writeGraphviz (label : Str → Str) (g : Digraph Str) : Option (List Stmt) :=
  match allSome (fun u => (idStr u).map (fun i => Stmt.node i (label u))) g.verts with
  | none => none
  | some ns =>
    match allSome (fun e : Str × Str => match idStr e.1, idStr e.2 with
        | some i, some j => some (Stmt.edge i j)
        | _, _ => none) (g.verts.flatMap (fun u => (g.adj u).map (fun v => (u, v)))) with
    | none => none
    | some es => some (ns ++ es)

/-! ### emerge -/

/-- What `emerge` does to the system. -/
inductive EmergeEv (α : Type) where
  /-- `install.install_single_name(x)` -/
  | install (x : α)
  /-- `build.build(x)` -/
  | build (x : α)
  /-- `install.install_pkg_files` on the packages just built from `x` -/
  | installBuilt (x : α)
  deriving DecidableEq

/-- Ways in which `emerge` ends. -/
inductive EmergeEnd where
  | done
  /-- "No packages to emerge.", dry run, or the user does not want to go on -/
  | nothing
  /-- AttributeError: there is no `pisi.graph` -/
  | attribute
  /-- an exception of a build or an installation -/
  | failed
  /-- PisiUpgradeException, pisi/op/upgradepisi.py:35-42 -/
  | pisiUpgraded
  deriving DecidableEq

/-- `plan_emerge`, pisi/op/emerge.py:97-160: its first statement (line 102) reads `pisi.graph`,
which does not exist (the module is pisi/data/graph.py); `none` is the AttributeError. -/
def planEmerge (_ : List α) : Option (List α × List α) := none

/-- Perform actions until one raises. -/
def doAll (ok : EmergeEv α → Bool) : List (EmergeEv α) → List (EmergeEv α) × Bool
  | [] => ([], true)
  | e :: es => if ok e then let r := doAll ok es; (e :: r.1, r.2) else ([e], false)

/-- `emerge(A)`, pisi/op/emerge.py:40-95.  `A` is the list after the expansion of components
(line 44), without duplicates; `order` is the order in which the set is iterated over; `ok` says
which builds and installations succeed; `isPisi` recognizes the package pisi, `pisiInst` whether it
is installed. -/
def emerge (ignoreDep dryRun confirm pisiInst : Bool) (isPisi : α → Bool) (order : List α → List α)
    (ok : EmergeEv α → Bool) (A : List α) : List (EmergeEv α) × EmergeEnd :=
  if A = [] then ([], .nothing) else
    match (if ignoreDep then some ([], order A) else planEmerge A) with
    | none => ([], .attribute)
    | some (inst, bld) =>
      if dryRun then ([], .nothing) else
      if inst.length + bld.length > A.length && !confirm then ([], .nothing) else
      let r := doAll ok (inst.map .install ++ bld.flatMap (fun x => [.build x, .installBuilt x]))
      if r.2 then
        if bld.any isPisi || ((bld ++ inst).any isPisi && pisiInst) then (r.1, .pisiUpgraded)
        else (r.1, .done)
      else (r.1, .failed)

end Pisi.Plan
