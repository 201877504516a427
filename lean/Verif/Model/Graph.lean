/-!
# Model of pisi/data/graph.py (class `Digraph`)

The vertex set and adjacency sets are Python sets: they are represented by lists, in the order in which
a traversal happens to iterate them.  Theorems quantify over all such lists.
Vertex and edge data (`__vdata`, `__edata`), used only for graphviz output, and the time stamps `d`, `f`,
which are never read, are not modelled.
-/

namespace Pisi.Graph

/-- `Digraph`, pisi/data/graph.py:21-27: `__v` and `__adj`. -/
structure Digraph (α : Type) where
  verts : List α
  adj : α → List α

/-- Observable errors of graph operations. -/
inductive Err (α : Type) where
  /-- `CycleException(cycle)`, pisi/data/graph.py:14-16. -/
  | cycle (path : List α)
  /-- `AssertionError` of `add_vertex`, pisi/data/graph.py:48. -/
  | assertion
  /-- The recursion budget of the model is exhausted (proved never to happen). -/
  | fuel
  deriving Repr

variable {α : Type} [DecidableEq α]

/-- `Digraph.__init__`, pisi/data/graph.py:23-27. -/
def Digraph.empty : Digraph α := { verts := [], adj := fun _ => [] }

/-- `Digraph.add_vertex`, pisi/data/graph.py:46-53. -/
def Digraph.addVertex (g : Digraph α) (u : α) : Except (Err α) (Digraph α) :=
  if u ∈ g.verts then .error .assertion
  else .ok { verts := g.verts ++ [u], adj := fun x => if x = u then [] else g.adj x }

/-- `if not u in self.__v: self.add_vertex(u, ...)`, pisi/data/graph.py:57-60. -/
def Digraph.ensure (g : Digraph α) (u : α) : Digraph α :=
  if u ∈ g.verts then g
  else { verts := g.verts ++ [u], adj := fun x => if x = u then [] else g.adj x }

/-- `Digraph.add_edge`, pisi/data/graph.py:55-63 (a set: adding twice has no effect). -/
def Digraph.addEdge (g : Digraph α) (u v : α) : Digraph α :=
  let g := (g.ensure u).ensure v
  { g with adj := fun x => if x = u ∧ v ∉ g.adj u then g.adj u ++ [v] else g.adj x }

/-- `Digraph.from_list`, pisi/data/graph.py:41-44, on an existing graph. -/
def Digraph.fromList (g : Digraph α) (el : List (α × α)) : Digraph α :=
  el.foldl (fun g e => g.addEdge e.1 e.2) g

/-- `Digraph.has_edge`, pisi/data/graph.py:81-85. -/
def Digraph.hasEdge (g : Digraph α) (u v : α) : Bool :=
  if u ∈ g.verts then decide (v ∈ g.adj u) else false

/-- Colours of `dfs`: white, green (discovered), black. -/
inductive Color where
  | w | g | b
  deriving DecidableEq, Repr

/-- The mutable state of a depth-first search, pisi/data/graph.py:90-98, and the list filled
by the finish hook of `topological_sort`. -/
structure DState (α : Type) where
  color : α → Color
  par : α → Option α
  fin : List α

/-- Initial state, pisi/data/graph.py:91-98. -/
def DState.init : DState α := { color := fun _ => .w, par := fun _ => none, fin := [] }

/-- `self.color[u] = c` -/
def DState.paint (s : DState α) (u : α) (c : Color) : DState α :=
  { s with color := fun x => if x = u then c else s.color x }

/-- `self.p[v] = u` -/
def DState.setPar (s : DState α) (v u : α) : DState α :=
  { s with par := fun x => if x = v then some u else s.par x }

/-- The loop of pisi/data/graph.py:111-114, `cycle = [u]; while self.p[u]: u = self.p[u]; cycle.append(u)`.
Vertices are assumed truthy (non-empty names); `none` is an exhausted budget. -/
def parentChain (par : α → Option α) : Nat → α → Option (List α)
  | 0, _ => none
  | n + 1, u =>
    match par u with
    | none => some [u]
    | some v => (parentChain par n v).map (u :: ·)

/-- The loop over `self.adj(u)`, pisi/data/graph.py:106-116.  `rec` is `dfs_visit`, `budget` bounds
the parent chain. -/
def explore (budget : Nat) (rec : α → DState α → Except (Err α) (DState α)) (u : α) :
    List α → DState α → Except (Err α) (DState α)
  | [], s => .ok s
  | v :: vs, s =>
    match s.color v with
    | .w =>
      match rec v (s.setPar v u) with
      | .ok s' => explore budget rec u vs s'
      | .error e => .error e
    | .g =>
      match parentChain s.par budget u with
      | some path => .error (.cycle path.reverse)
      | none => .error .fuel
    | .b => explore budget rec u vs s

/-- `Digraph.dfs_visit`, pisi/data/graph.py:103-120, with a recursion budget. -/
def dfsVisit (g : Digraph α) : Nat → α → DState α → Except (Err α) (DState α)
  | 0, _, _ => .error .fuel
  | n + 1, u, s =>
    match explore (g.verts.length + 1) (dfsVisit g n) u (g.adj u) (s.paint u .g) with
    | .ok s' => .ok { s'.paint u .b with fin := s'.fin ++ [u] }
    | .error e => .error e

/-- The second loop of `Digraph.dfs`, pisi/data/graph.py:99-101. -/
def dfsLoop (g : Digraph α) : List α → DState α → Except (Err α) (DState α)
  | [], s => .ok s
  | u :: us, s =>
    match s.color u with
    | .w =>
      match dfsVisit g g.verts.length u s with
      | .ok s' => dfsLoop g us s'
      | .error e => .error e
    | _ => dfsLoop g us s

/-- `Digraph.dfs`, pisi/data/graph.py:90-101. -/
def dfs (g : Digraph α) : Except (Err α) (DState α) := dfsLoop g g.verts DState.init

/-- `Digraph.topological_sort`, pisi/data/graph.py:129-133. -/
def topologicalSort (g : Digraph α) : Except (Err α) (List α) :=
  match dfs g with
  | .ok s => .ok s.fin.reverse
  | .error e => .error e

/-- `Digraph.cycle_free`, pisi/data/graph.py:122-127; other errors propagate. -/
def cycleFree (g : Digraph α) : Except (Err α) Bool :=
  match dfs g with
  | .ok _ => .ok true
  | .error (.cycle _) => .ok false
  | .error e => .error e

end Pisi.Graph
