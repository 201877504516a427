/-!
# Specification vocabulary for graphs: independent of the search code.
-/
namespace Pisi.Graph.Spec
variable {α : Type}

/-- One construction call made by a client of the graph class. -/
inductive GOp (α : Type) where
  | vertex (u : α)
  | edge (u v : α)

/-- The vertices mentioned by a construction history. -/
def Mentions : GOp α → α → Prop
  | .vertex u, x => x = u
  | .edge u v, x => x = u ∨ x = v

/-- Vertex set denoted by a history. -/
def V (h : List (GOp α)) (x : α) : Prop := ∃ o ∈ h, Mentions o x

/-- Edge relation denoted by a history. -/
def E (h : List (GOp α)) (u v : α) : Prop := GOp.edge u v ∈ h

/-- `u` occurs strictly before `v` in `l`. -/
def Before (l : List α) (u v : α) : Prop := ∃ a b c, l = a ++ u :: (b ++ v :: c)

/-- `l` lists every vertex exactly once and every edge goes forward. -/
structure IsTopo (V : α → Prop) (E : α → α → Prop) (l : List α) : Prop where
  once : l.Nodup
  all : ∀ x, x ∈ l ↔ V x
  forward : ∀ u v, E u v → Before l u v

/-- There is a directed cycle. -/
def Cyclic (E : α → α → Prop) : Prop := ∃ x, Relation.TransGen E x x

/-- Consecutive elements of `l` are joined by edges. -/
def Walk (E : α → α → Prop) : List α → Prop
  | [] => True
  | [_] => True
  | x :: y :: l => E x y ∧ Walk E (y :: l)

/-- `l` is a cycle: a non-empty walk without repetition whose last vertex has an edge to its first. -/
def IsCycle (E : α → α → Prop) (l : List α) : Prop :=
  l.Nodup ∧ Walk E l ∧ ∃ a b, l.head? = some a ∧ l.getLast? = some b ∧ E b a

end Pisi.Graph.Spec
