import Verif.Model.Str

/-!
# Model of pisi/version.py
-/

namespace Pisi.Version

open Pisi

/-- The keys of the dictionary `keywords`, pisi/version.py:34-40. -/
inductive Kw where
  | alpha | beta | pre | rc | m | nokey | p
  deriving DecidableEq, Repr

/-- The values of the dictionary `keywords`, pisi/version.py:34-40. -/
def Kw.rank : Kw → Nat
  | .alpha => 0
  | .beta => 1
  | .pre => 2
  | .rc => 3
  | .m => 4
  | .nokey => 5
  | .p => 6

/-- The spelling of the keys, pisi/version.py:34-40. -/
def Kw.str : Kw → Str
  | .alpha => ['a', 'l', 'p', 'h', 'a']
  | .beta => ['b', 'e', 't', 'a']
  | .pre => ['p', 'r', 'e']
  | .rc => ['r', 'c']
  | .m => ['m']
  | .nokey => ['N', 'O', 'K', 'E', 'Y']
  | .p => ['p']

/-- All keys of `keywords`.  `keywords.keys()` has an arbitrary order; `scanKeyword`
below takes the order as a parameter. -/
def Kw.all : List Kw := [.alpha, .beta, .pre, .rc, .m, .nokey, .p]

/-- `VersionItem._value`: an integer or a one-letter string. -/
inductive Val where
  | num (n : Int)
  | letter (c : Char)
  deriving DecidableEq, Repr

/-- Python 2 `<` on `_value`s: a number is smaller than any string. -/
def Val.lt : Val → Val → Bool
  | .num a, .num b => decide (a < b)
  | .num _, .letter _ => true
  | .letter _, .num _ => false
  | .letter a, .letter b => decide (a.toNat < b.toNat)

/-- Python 2 `>` on `_value`s. -/
def Val.gt : Val → Val → Bool
  | .num a, .num b => decide (a > b)
  | .num _, .letter _ => false
  | .letter _, .num _ => true
  | .letter a, .letter b => decide (a.toNat > b.toNat)

/-- A `VersionItem` object, pisi/version.py:50-52. -/
structure Item where
  kw : Kw
  val : Val
  deriving DecidableEq, Repr

/-- The loop of pisi/version.py:63-71, over the keys in the order `ks`,
starting from `_keyword = cur`. -/
def scanKeyword (s : Str) : List Kw → Kw → Kw
  | [], cur => cur
  | k :: ks, cur =>
    if k.str.isPrefixOf s then
      if cur = .nokey then scanKeyword s ks k
      else if k.str.length > cur.str.length then scanKeyword s ks k
      else scanKeyword s ks cur
    else scanKeyword s ks cur

/-- `VersionItem.__init__`, pisi/version.py:54-82, with the keyword dictionary iterated in
the order `ks`.  `none` is `ValueError` (from `int`). -/
def mkItemWith (ks : List Kw) (s : Str) : Option Item :=
  let kw := if s.length > 1 then scanKeyword s ks .nokey else .nokey
  if kw = .nokey then
    match s with
    | [c] => if c.isAlpha then some ⟨kw, .letter c⟩ else (pyInt s).map fun n => ⟨kw, .num n⟩
    | _ => (pyInt s).map fun n => ⟨kw, .num n⟩
  else (pyInt (s.drop kw.str.length)).map fun n => ⟨kw, .num n⟩

/-- `VersionItem.__init__` with a fixed dictionary order. -/
def mkItem (s : Str) : Option Item := mkItemWith Kw.all s

/-- `VersionItem('0')`, pisi/version.py:170,172. -/
def zeroItem : Item := ⟨.nokey, .num 0⟩

/-- `VersionItem.__lt__`, pisi/version.py:87-95. -/
def Item.lt (a b : Item) : Bool :=
  if a.kw.rank < b.kw.rank then true
  else if a.kw.rank = b.kw.rank then a.val.lt b.val
  else false

/-- `VersionItem.__gt__`, pisi/version.py:107-115. -/
def Item.gt (a b : Item) : Bool :=
  if a.kw.rank > b.kw.rank then true
  else if a.kw.rank = b.kw.rank then a.val.gt b.val
  else false

/-- The character class `[a-z-A-Z]` of pisi/version.py:144. -/
def inTailClass (c : Char) : Bool := c.isAlpha || c = '-'

/-- `re.compile("[a-z-A-Z]$").search(i)`, pisi/version.py:144-147: returns `(head, tail)`.
`$` also matches before a final newline. -/
def splitTail (i : Str) : Option (Str × Str) :=
  match i.reverse with
  | [] => none
  | c :: r =>
    if inTailClass c then some (r.reverse, [c])
    else if c = '\n' then
      match r with
      | [] => none
      | d :: r' => if inTailClass d then some (r'.reverse, [d]) else none
    else none

/-- One round of the loop of `Version.__init__`, pisi/version.py:140-151. -/
def parsePiece (i : Str) : Option (List Item) :=
  match splitTail i with
  | some (head, tail) => do
    let a ← mkItem head
    let b ← mkItem tail
    return [a, b]
  | none => do
    let a ← mkItem i
    return [a]

/-- The loop of `Version.__init__`, pisi/version.py:139-151: the first failing piece raises. -/
def parsePieces : List Str → Option (List Item)
  | [] => some []
  | i :: is => do
    let a ← parsePiece i
    let b ← parsePieces is
    return a ++ b

/-- `Version.__init__`, pisi/version.py:138-153: the `comps` of the new object, `none` for
`ValueError`. -/
def parse (s : Str) : Option (List Item) :=
  parsePieces (multisplit s ['.', '-', '_'])

/-- The padding of pisi/version.py:169-172 for one operand. -/
def pad (l : List Item) (n : Nat) : List Item :=
  if l.length < n then l ++ List.replicate (n - l.length) zeroItem else l

/-- The loop of pisi/version.py:174-179. -/
def cmpLoop : List Item → List Item → Int
  | a :: as, b :: bs => if a.lt b then -1 else if a.gt b then 1 else cmpLoop as bs
  | _, _ => 0

/-- `Version.compare`, pisi/version.py:158-179, on the two `comps` lists. -/
def compare (l r : List Item) : Int :=
  cmpLoop (pad l r.length) (pad r l.length)

/-- `Version.__lt__`, pisi/version.py:183-184. -/
def vlt (l r : List Item) : Bool := compare l r < 0
/-- `Version.__le__`, pisi/version.py:186-187. -/
def vle (l r : List Item) : Bool := compare l r ≤ 0
/-- `Version.__gt__`, pisi/version.py:189-190. -/
def vgt (l r : List Item) : Bool := compare l r > 0
/-- `Version.__ge__`, pisi/version.py:192-193. -/
def vge (l r : List Item) : Bool := compare l r ≥ 0
/-- `Version.__eq__`, pisi/version.py:195-196. -/
def veq (l r : List Item) : Bool := compare l r = 0

/-- A store of `Version` objects (their mutable `comps`). -/
abbrev Heap := List (List Item)

/-- `Version.compare` on two live objects `i` and `j` of the store: the result and the
store after the in-place padding of pisi/version.py:169-172.  `none` if there is no such object. -/
def compareObj (h : Heap) (i j : Nat) : Option (Int × Heap) :=
  match h[i]?, h[j]? with
  | some l, some r =>
    let l' := pad l r.length
    let r' := pad r l.length
    some (cmpLoop l' r', (h.set i l').set j r')
  | _, _ => none

/-- Store after a history of comparisons (missing objects: no effect). -/
def compareHist (h : Heap) : List (Nat × Nat) → Heap
  | [] => h
  | (i, j) :: ops =>
    match compareObj h i j with
    | some (_, h') => compareHist h' ops
    | none => compareHist h ops

end Pisi.Version
