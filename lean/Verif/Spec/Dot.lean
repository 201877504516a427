import Verif.Model.Str

/-!
# The language of graphviz, as far as needed: which words name a node, and what statements describe
-/
namespace Pisi.Dot
open Pisi

/-- A letter, digit or underscore. -/
def IdChar (c : Char) : Prop := c.isAlphanum = true ∨ c = '_'

/-- The reserved words (in any case). -/
def keywords : List Str :=
  [['n', 'o', 'd', 'e'], ['e', 'd', 'g', 'e'], ['g', 'r', 'a', 'p', 'h'],
   ['d', 'i', 'g', 'r', 'a', 'p', 'h'], ['s', 'u', 'b', 'g', 'r', 'a', 'p', 'h'],
   ['s', 't', 'r', 'i', 'c', 't']]

/-- A word without quotes that names a node: letters, digits and underscores, not beginning with a
digit (or a whole number), and not a reserved word. -/
def IsId (s : Str) : Prop :=
  s ≠ [] ∧ (∀ c ∈ s, IdChar c) ∧
  ((∀ c, s.head? = some c → c.isDigit = false) ∨ ∀ c ∈ s, c.isDigit = true) ∧
  s.map Char.toLower ∉ keywords

/-- The nodes `ns` (with labels) and edges `es` describe the graph with vertices `V`, edges `E` and
labels `label`: up to other names for the vertices, different ones for different vertices, they are
the same. -/
def Describes {α : Type} (ns : List (Str × Str)) (es : List (Str × Str)) (V : α → Prop)
    (E : α → α → Prop) (label : α → Str) : Prop :=
  (∀ n ∈ ns, IsId n.1) ∧ (∀ e ∈ es, IsId e.1 ∧ IsId e.2) ∧
  ∃ f : α → Str, (∀ u v, V u → V v → f u = f v → u = v) ∧
    (∀ i l, (i, l) ∈ ns ↔ ∃ u, V u ∧ i = f u ∧ l = label u) ∧
    (∀ i j, (i, j) ∈ es ↔ ∃ u v, E u v ∧ i = f u ∧ j = f v)

end Pisi.Dot
