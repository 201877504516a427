import Verif.Model.XmlTree

/-! Adding nodes with minidom: a node is looked for, and then changed where it is.  Nodes are python objects there; here a node in a document
is the list of the positions that lead to it. -/

namespace Pisi.Xml.Mdom

/-- The position of `nodeList[len(nodeList)-1]`, pisi/exml/xmlextmdom.py:183-189: of the last child with the tag. -/
def lastIdx (t : Str) : List Xml → Option Nat
  | [] => none
  | x :: xs => match lastIdx t xs with
    | some i => some (i + 1)
    | none => if named t x then some 0 else none

/-- The loop of `addNode`, pisi/exml/xmlextmdom.py:181-192: where the node is to which is added, and the tags that are left then. -/
def search (rem : Nat) : List Str → Xml → List Nat × List Str
  | [], _ => ([], [])
  | t :: ts, n =>
    if (t :: ts).length > rem then match lastIdx t n.kids with
      | none => ([], t :: ts)
      | some i => match n.kids[i]? with
        | none => ([], t :: ts)
        | some k => (i :: (search rem ts k).1, (search rem ts k).2)
    else ([], t :: ts)

/-- `appendChild` of the node at the place, pisi/exml/xmlextmdom.py:143-158. -/
def appendAt : List Nat → List Xml → Xml → Xml
  | [], c, n => addKids c n
  | _ :: _, _, .text s => .text s
  | i :: is, c, .elem u as ks => .elem u as (ks.modify i (appendAt is c))

/-- `addNode(node, tagpath, newnode, branch)`, pisi/exml/xmlextmdom.py:160-194; the document afterwards. -/
def addNode (n : Xml) (p : Str) (new : Option Xml) (branch : Bool) : Xml :=
  if p = [] then appendAt [] new.toList n
  else appendAt (search (if branch then 1 else 0) (splitOn '/' p) n).1
    (newChain (search (if branch then 1 else 0) (splitOn '/' p) n).2 new.toList) n

/-- `addText(node, tagPath, text, branch)`, pisi/exml/xmlextmdom.py:196-198. -/
def addText (n : Xml) (p s : Str) (branch : Bool) : Xml := addNode n p (some (.text s)) branch

end Pisi.Xml.Mdom
