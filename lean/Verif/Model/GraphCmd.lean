import Verif.Model.PkgGraph
import Verif.Model.PackageDB

/-!
# Model of the command `graph` (pisi/cli/graph.py)
-/
namespace Pisi.Plan
open Pisi.Graph Pisi.DB

/-- The options, pisi/cli/graph.py:44-57, without `--output`. -/
structure GraphOpts where
  repository : Option Str := none
  installed : Bool := false
  ignoreInstalled : Bool := false

/-- What the command reads: `ctx.packagedb.d`, `ctx.repodb.list()`, and the records that
`installdb.list_installed` and `installed_satisfies_dep` read. -/
structure GraphSys where
  pkg : ItemDB Str (Meta Str)
  repos : List Str
  world : World Str

/-- `repo`, pisi/cli/graph.py:63-82; an empty `--repository` is falsy. -/
def GraphOpts.query (o : GraphOpts) : Query :=
  if o.installed then .one .installed else
    match o.repository with
    | none => .repos
    | some r => if r = [] then .repos else .one (.repo r)

/-- `a`, pisi/cli/graph.py:69-81. -/
def GraphOpts.names (o : GraphOpts) (y : GraphSys) (args : List Str) : List Str :=
  if args ≠ [] then args
  else if o.installed then y.world.inst.keys
  else y.pkg.list o.query

/-- `packagedb.get_package(·, repo)` as a dictionary, pisi/db/package.py:64-68. -/
def GraphSys.view (y : GraphSys) (q : Query) : Dict Str (PkgInfo Str) :=
  y.pkg.filterMap (fun e => match y.pkg.getItem y.repos e.1 q with
    | .ok m => some (e.1, m.info)
    | .error _ => none)

/-- `write_graphviz_vlabel`, pisi/data/pgraph.py:81-83, with the data that `add_package` and `add_dep`
(lines 28-30, 44-54) keep for the vertex. -/
def vlabel (src : Dict Str (PkgInfo Str)) (u : Str) : Str :=
  match src.get u with
  | some p => u ++ ['('] ++ p.version ++ [','] ++ p.release ++ [')']
  | none => u

/-- The output file: the statements, or what `write_graphviz` wrote before it raised. -/
inductive DotFile where
  | text (l : List Stmt)
  | cut
  deriving DecidableEq

/-- How the command fails. -/
inductive GErr where
  | plan (e : PErr Str)
  /-- the output file cannot be opened -/
  | io
  /-- `reduce` of an empty name -/
  | typeErr
  deriving DecidableEq

/-- `Graph.run`, pisi/cli/graph.py:61-85.  `out` is what the output file contains before (`none`: it
is not there), `canOpen` whether it can be opened for writing. -/
def graphCmd (front : List Str → List Str) (y : GraphSys) (o : GraphOpts) (canOpen : Bool)
    (args : List Str) (out : Option DotFile) : Option DotFile × Except GErr Unit :=
  match packageGraph y.world (y.view o.query) o.ignoreInstalled front (o.names y args) with
  | .error e => (out, .error (.plan e))
  | .ok g =>
    if canOpen then
      match writeGraphviz (vlabel (y.view o.query)) g with
      | some ss => (some (.text ss), .ok ())
      | none => (some .cut, .error .typeErr)
    else (out, .error .io)

end Pisi.Plan
