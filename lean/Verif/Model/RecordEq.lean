import Verif.Model.XmlClasses

/-!
# Equality of records

`equal` and `notequal`, pisi/exml/autoxml.py:405-422.  Values are compared by `!=` of their types: texts and numbers by value,
`LocalText` as the `dict` it is, lists item by item, records by their own `equal`.
-/
namespace Pisi.Xml

/-- `a == b` for texts, numbers and `None`; a byte string equals a unicode string with the same ASCII characters. -/
def basicEq : Val → Val → Bool
  | .none, .none => true
  | .str s, .str t => s = t
  | .uni s, .uni t => s = t
  | .str s, .uni t => ascii s && decide (s = t)
  | .uni s, .str t => ascii t && decide (s = t)
  | .int n, .int m => n = m
  | .long n, .long m => n = m
  | .int n, .long m => n = m
  | .long n, .int m => n = m
  | _, _ => false

/-- `d == e` for dictionaries: as many keys, and the value of every key of the first is that of the second. -/
def dictEq (d e : List (Str × Str)) : Bool :=
  d.length = e.length && d.all (fun p => e.find? (fun q => q.1 = p.1) = some p)

/-- `l == k` for lists. -/
def listEq (f : Val → Val → Bool) : List Val → List Val → Bool
  | [], [] => true
  | v :: l, w :: k => f v w && listEq f l k
  | _, _ => false

/-- `names` in `equal` are the members declared in the class itself (pisi/exml/autoxml.py:272, 302-313): those of a base class
are not among them.  The only class with such a base is `Package` of pisi/data/metadata.py:36; the number is that of the members
it has from its base. -/
def inheritedCount (ms : List Member) : Nat :=
  if ms.any (fun m => m.name = Classes.s "installedSize") then Classes.specPackage.length else 0

mutual
/-- `not (getattr(self, name) != getattr(other, name))`, pisi/exml/autoxml.py:413. -/
def eqM : Member → Val → Val → Bool
  | .attr _ _ _, v, w | .str _ _ _, v, w | .basic _ _ _, v, w => basicEq v w
  | .loc _ _, v, w => match v, w with
    | .loc d, .loc e => dictEq d e
    | v, w => basicEq v w
  | .basics _ _ _ _ _, v, w => match v, w with
    | .list l, .list k => listEq basicEq l k
    | v, w => basicEq v w
  | .cls _ ms _, v, w => match v, w with
    | .obj a, .obj b => eqMs (inheritedCount ms) ms a b
    | v, w => basicEq v w
  | .clss _ _ _ ms _, v, w => match v, w with
    | .list l, .list k => listEq (fun v w => match v, w with
      | .obj a, .obj b => eqMs (inheritedCount ms) ms a b
      | v, w => basicEq v w) l k
    | v, w => basicEq v w

/-- The loop of `equal`, pisi/exml/autoxml.py:411-417, after the first members. -/
def eqMs : Nat → List Member → List (Str × Val) → List (Str × Val) → Bool
  | _, [], _, _ => true
  | n + 1, _ :: ms, a, b => eqMs n ms a b
  | 0, m :: ms, a, b => eqM m (field a m.name) (field b m.name) && eqMs 0 ms a b
end

/-- `equal`, pisi/exml/autoxml.py:407-417, for two records of one class. -/
def eqRec (ms : List Member) (a b : List (Str × Val)) : Bool := eqMs (inheritedCount ms) ms a b

/-- `notequal`, pisi/exml/autoxml.py:418-419. -/
def neRec (ms : List Member) (a b : List (Str × Val)) : Bool := !eqRec ms a b

end Pisi.Xml
