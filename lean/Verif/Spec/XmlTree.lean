import Verif.Model.XmlTree

/-!
# Specification: the nodes at a path of tags
-/
namespace Pisi.Xml

/-- The tag of an element. -/
def tagOf : Xml → Option Str
  | .text _ => none
  | .elem t _ _ => some t

/-- All nodes at the end of the path, in the order of the document. -/
def nodesAt : List Str → Xml → List Xml
  | [], n => [n]
  | t :: ts, n => n.kids.flatMap (fun k => if tagOf k = some t then nodesAt ts k else [])

/-- Along the path no node has two children with the next tag. -/
def NoTwins : List Str → Xml → Prop
  | [], _ => True
  | t :: ts, n => (n.kids.filter (fun k => tagOf k = some t)).length ≤ 1 ∧ ∀ k ∈ n.kids, tagOf k = some t → NoTwins ts k

/-- The second tree is the first with nodes appended to the children of one element. -/
inductive Grown (c : List Xml) : Xml → Xml → Prop where
  | here (t as ks) : Grown c (.elem t as ks) (.elem t as (ks ++ c))
  | there (t as l k k' r) : Grown c k k' → Grown c (.elem t as (l ++ k :: r)) (.elem t as (l ++ k' :: r))

/-- The node that is new at the end of the path. -/
def newNode (ts : List Str) (c : List Xml) : Xml := .elem (ts.getLast?.getD []) [] c

/-- Tags inside each other, and nodes in the innermost. -/
def nested (ts : List Str) (c : List Xml) : List Xml := ts.foldr (fun t l => [.elem t [] l]) c

/-- The second node is the first with more children. -/
def Longer (c : List Xml) (y z : Xml) : Prop := ∃ t as ks, y = .elem t as ks ∧ z = .elem t as (ks ++ c)

/-- The last of the last of … -/
inductive LastAt : List Str → Xml → Xml → Prop where
  | nil (n) : LastAt [] n n
  | cons (t ts u as l k r y) : tagOf k = some t → (∀ x ∈ r, tagOf x ≠ some t) → LastAt ts k y → LastAt (t :: ts) (.elem u as (l ++ k :: r)) y

end Pisi.Xml
