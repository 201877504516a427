import Verif.Model.Xml

/-!
# Model of finding and adding nodes by a path of tags, pisi/exml/xmlextpiks.py, and of the other two back ends

`tags()` of piksemel gives the child elements in their order.  A tree that is changed in place is a function from the old tree to the
new one; the node that `addNode` returns is the one at the end of the path.
-/
namespace Pisi.Xml

/-- The loop of `getNode`, pisi/exml/xmlextpiks.py:106-116: the first child with the tag, and on from there. -/
def getNodeLoop : List Str → Xml → Option Xml
  | [], n => some n
  | t :: ts, n => (getNode n t).bind (getNodeLoop ts)

/-- `getNode(node, tagpath)`, pisi/exml/xmlextpiks.py:96-118. -/
def getNodePath (n : Xml) (p : Str) : Option Xml := if p = [] then some n else getNodeLoop (splitOn '/' p) n

/-- `getAllNodes(node, tagPath)`, pisi/exml/xmlextpiks.py:39-53. -/
def getAllPath (n : Xml) (p : Str) : List Xml := getAll n (splitOn '/' p)

/-- `getNodeText(node, tagpath)`, pisi/exml/xmlextpiks.py:72-88; the outer `none` is the exception. -/
def nodeTextPath (n : Xml) (p : Str) : Option (Option Str) :=
  if p = [] then nodeText n else match getNodePath n p with
    | none => some none
    | some m => nodeText m

/-- The children of a node with new ones behind them, `insertNode` and `insertData`. -/
def addKids (c : List Xml) : Xml → Xml
  | .text s => .text s
  | .elem t as ks => .elem t as (ks ++ c)

/-- What `addTagPath` appends, pisi/exml/xmlextpiks.py:120-134: a chain of new tags and the new node, if any, at its end. -/
def newChain : List Str → List Xml → List Xml
  | [], c => c
  | t :: ts, c => [.elem t [] (newChain ts c)]

/-- The loop of `addNode`, pisi/exml/xmlextpiks.py:151-168, with `rem` as there: follow the last child with the tag while more than `rem`
tags are left; what is missing is created. -/
def addLoop (rem : Nat) : List Str → List Xml → Xml → Xml
  | [], c, n => addKids c n
  | t :: ts, c, n =>
    if (t :: ts).length > rem then match n with
      | .text s => .text s
      | .elem u as ks => match modLast t (addLoop rem ts c) ks with
        | some ks' => .elem u as ks'
        | none => addKids (newChain (t :: ts) c) n
    else addKids (newChain (t :: ts) c) n

/-- `addNode(node, tagpath, newnode, branch)`, pisi/exml/xmlextpiks.py:136-169. -/
def addNode (n : Xml) (p : Str) (new : Option Xml) (branch : Bool) : Xml :=
  if p = [] then addKids new.toList n else addLoop (if branch then 1 else 0) (splitOn '/' p) new.toList n

/-- `addText(node, tagpath, text)`, pisi/exml/xmlextpiks.py:170-172; texts are not empty. -/
def addText (n : Xml) (p s : Str) : Xml := addNode n p (some (.text s)) true

/-! ## The other back ends -/

namespace Mdom

/-- `x.nodeType == x.ELEMENT_NODE and x.tagName == childName` -/
def named (t : Str) : Xml → Bool
  | .elem u _ _ => u = t
  | .text _ => false

/-- `getTagByName`, pisi/exml/xmlextmdom.py:74-76. -/
def getTagByName (n : Xml) (t : Str) : List Xml := n.kids.filter (named t)

/-- The loop of `getNode`, pisi/exml/xmlextmdom.py:109-119. -/
def getNodeLoop : List Str → Xml → Option Xml
  | [], n => some n
  | t :: ts, n => match n.kids.find? (named t) with
    | none => none
    | some m => getNodeLoop ts m

/-- `getNode`, pisi/exml/xmlextmdom.py:101-119: an empty path is not special. -/
def getNodePath (n : Xml) (p : Str) : Option Xml := getNodeLoop (splitOn '/' p) n

/-- `getAllNodes`, pisi/exml/xmlextmdom.py:121-141. -/
def getAllLoop : List Str → List Xml → List Xml
  | [], l => l
  | t :: ts, l => if l.flatMap (getTagByName · t) = [] then [] else getAllLoop ts (l.flatMap (getTagByName · t))

def getAllPath (n : Xml) (p : Str) : List Xml := getAllLoop (splitOn '/' p) [n]

/-- `getNodeText`, pisi/exml/xmlextmdom.py:78-92. -/
def nodeText (n : Option Xml) : Option (Option Str) := match n with
  | none => some none
  | some m => match m.kids with
    | [] => some none
    | .text s :: _ => some (some (strip s))
    | .elem _ _ _ :: _ => none

def nodeTextPath (n : Xml) (p : Str) : Option (Option Str) := nodeText (if p = [] then some n else getNodePath n p)

end Mdom

/-- The implementations of the XML files; the first that can be imported is used, pisi/exml/xmlfile.py:16-27. -/
inductive Backend where
  | piks | cdom | mdom
  deriving DecidableEq

/-- The names of the parameters of `readxml` after the first: pisi/exml/xmlfilepiks.py:69-70, pisi/exml/xmlfilecdom.py:70,
pisi/exml/xmlfilemdom.py:62. -/
def Backend.readParams : Backend → List String
  | .piks => ["tmpDir", "sha1sum", "compress", "sign", "copylocal"]
  | .cdom => ["tmpDir", "sha1sum", "compress", "sign"]
  | .mdom => ["tmpDir"]

/-- Those of `writexml`: pisi/exml/xmlfilepiks.py:83, pisi/exml/xmlfilecdom.py:81, pisi/exml/xmlfilemdom.py:72. -/
def Backend.writeParams : Backend → List String
  | .piks => ["tmpDir", "sha1sum", "compress", "sign"]
  | .cdom => ["tmpDir", "sha1sum", "compress", "sign"]
  | .mdom => []

/-- The rest of a call of a Python method with the given parameters after the first, `none` for `TypeError`. -/
def call {α : Type} (params given : List String) (body : Option α) : Option α :=
  if given.all (fun g => params.contains g) then body else none

/-- `read` of a record up to the decoding, pisi/exml/autoxml.py:424-428; `parse` is what the library makes of the file. -/
def Backend.read (b : Backend) (parse : Option Xml) : Option Xml :=
  call b.readParams ["tmpDir", "sha1sum", "compress", "sign", "copylocal"] parse

/-- The end of `write`, pisi/exml/autoxml.py:460: the tree that is written. -/
def Backend.write (b : Backend) (doc : Xml) : Option Xml :=
  call b.writeParams ["tmpDir", "sha1sum", "compress", "sign"] (some doc)

end Pisi.Xml
