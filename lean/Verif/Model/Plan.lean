import Verif.Model.World
import Verif.Model.Graph

/-!
# The closure loop shared by all planners

`plan_install_pkg_names` (pisi/op/install.py:551-581), `install_pkg_files` (pisi/op/install.py:452-474),
`plan_remove` (pisi/op/remove.py:210-240), both loops of `plan_upgrade` (pisi/op/upgrade.py:171-240),
`package_graph` (pisi/op/graph.py:26-58) and `configure_pending` (pisi/op/configurepending.py:36-60) all have the form

    B = A
    while len(B) > 0:
        Bp = set()
        for x in B:
            for d in deps(x):
                if keep(x, d):
                    if not tgt(d) in G_f.vertices(): Bp.add(tgt(d))
                    G_f.add_...(x, tgt(d))
        B = Bp

They are instances of `closure`, with the pieces below.
-/
namespace Pisi.Plan
open Pisi.Graph

/-- Which edge is recorded for a followed dependency of `x` on `y`. -/
inductive Dir where
  /-- `G_f.add_dep(x, dep)` on every followed dependency: edge x → y. -/
  | fwd
  /-- `G_f.add_plain_dep(y, x)` only when `y` is new: edge y → x. -/
  | rev

variable {α δ ε : Type} [DecidableEq α]

/-- The pieces a planner supplies. -/
structure Loop (α δ ε : Type) where
  /-- `for d in deps(x)`; may raise. -/
  deps : α → Except ε (List δ)
  /-- the tests deciding whether `d` is followed; may raise. -/
  keep : α → δ → Except ε Bool
  /-- the package on the other end of `d`. -/
  tgt : δ → α
  /-- `get_package` performed by `add_dep`/`add_plain_dep` for a vertex not yet present,
  pisi/data/pgraph.py:32-54; may raise. -/
  fetch : α → Except ε Unit
  dir : Dir

/-- `G_f.add_dep(x, dep)` / `if not y in vertices: G_f.add_plain_dep(y, x)`. -/
def Dir.link (g : Digraph α) (x y : α) : Dir → Digraph α
  | .fwd => g.addEdge x y
  | .rev => if y ∈ g.verts then g else g.addEdge y x

/-- The inner loop over the dependencies of `x`. -/
def Loop.scan (L : Loop α δ ε) (x : α) : List δ → Digraph α × List α → Except ε (Digraph α × List α)
  | [], s => .ok s
  | d :: ds, (g, bp) =>
    match L.keep x d with
    | .error e => .error e
    | .ok false => L.scan x ds (g, bp)
    | .ok true =>
      if L.tgt d ∈ g.verts then L.scan x ds (L.dir.link g x (L.tgt d), bp)
      else match L.fetch (L.tgt d) with
        | .error e => .error e
        | .ok () => L.scan x ds (L.dir.link g x (L.tgt d), bp ++ [L.tgt d])

/-- The middle loop `for x in B`. -/
def Loop.round (L : Loop α δ ε) : List α → Digraph α × List α → Except ε (Digraph α × List α)
  | [], s => .ok s
  | x :: xs, s =>
    match L.deps x with
    | .error e => .error e
    | .ok ds => match L.scan x ds s with
      | .error e => .error e
      | .ok s' => L.round xs s'

/-- The outer loop `while len(B) > 0`; `sched` is the arbitrary iteration order of the set `B`.
The first argument bounds the number of rounds; `over` is the error reported when it is exhausted. -/
def Loop.closure (L : Loop α δ ε) (over : ε) (sched : List α → List α) :
    Nat → List α → Digraph α → Except ε (Digraph α)
  | _, [], g => .ok g
  | 0, _ :: _, _ => .error over
  | n + 1, b :: bs, g =>
    match L.round (sched (b :: bs)) (g, []) with
    | .error e => .error e
    | .ok (g', bp) => L.closure over sched n bp g'

/-- `for x in A: G_f.add_package(x)`, pisi/data/pgraph.py:28-30. -/
def addPackages (get : α → Except (PErr α) (PkgInfo α)) : List α → Digraph α →
    Except (PErr α) (Digraph α)
  | [], g => .ok g
  | x :: xs, g => match get x with
    | .error e => .error e
    | .ok _ => match g.addVertex x with
      | .error _ => .error .assertion
      | .ok g' => addPackages get xs g'

/-- Translate graph errors. -/
def liftErr : Except (Graph.Err α) (List α) → Except (PErr α) (List α)
  | .ok l => .ok l
  | .error (.cycle p) => .error (.cycle p)
  | .error .assertion => .error .assertion
  | .error .fuel => .error .fuel

/-- The arbitrary choices of Python's set iteration: an order for each frontier and for the graph's sets. -/
structure Sched (α : Type) where
  front : List α → List α
  graph : Digraph α → Digraph α

end Pisi.Plan
