import Verif.Model.Path

/-!
# Model of the XML records, pisi/exml/autoxml.py, on the tree functions of pisi/exml/xmlextpiks.py

A class with the metaclass `autoxml` is given by the list of its members in the order of processing: those of the base
classes first, then the own ones with the `s_` member in front (pisi/exml/autoxml.py:277-312, 342-360).  Reading and
writing the file itself is done by the library piksemel and not modelled; what it may add as layout is in
Verif/Spec/Xml.lean.  The hooks of single classes are not modelled here.
-/
namespace Pisi.Xml
open Pisi.Path

/-! ## Trees, pisi/exml/xmlextpiks.py -/

inductive Xml where
  | text (s : Str)
  | elem (tag : Str) (attrs : List (Str × Str)) (kids : List Xml)

def Xml.kids : Xml → List Xml
  | .text _ => []
  | .elem _ _ ks => ks

/-- `node.name() == tag` for an element. -/
def Xml.isTag (t : Str) : Xml → Bool
  | .text _ => false
  | .elem u _ _ => u = t

/-- `getTagByName`, pisi/exml/xmlextpiks.py:69-70. -/
def getTags (n : Xml) (t : Str) : List Xml := n.kids.filter (Xml.isTag t)

/-- `getAllNodes`, pisi/exml/xmlextpiks.py:39-53, on the split path. -/
def getAll (n : Xml) (path : List Str) : List Xml := path.foldl (fun l t => l.flatMap (getTags · t)) [n]

/-- `getNode` for one tag, pisi/exml/xmlextpiks.py:96-118; tokens of members are identifiers, so there is no slash. -/
def getNode (n : Xml) (t : Str) : Option Xml := n.kids.find? (Xml.isTag t)

/-- `getNodeAttribute`, pisi/exml/xmlextpiks.py:55-57. -/
def getAttr : Xml → Str → Option Str
  | .text _, _ => none
  | .elem _ as _, a => (as.find? (fun p => p.1 = a)).map (·.2)

/-- The characters of byte strings that Python converts without an encoding. -/
def ascii (s : Str) : Bool := s.all (fun c => c.toNat < 128)

/-- `setNodeAttribute`, pisi/exml/xmlextpiks.py:59-61; the C function takes the default encoding. -/
def setAttr (n : Xml) (a v : Str) : Option Xml :=
  if ascii v then match n with
    | .text s => some (.text s)
    | .elem t as ks => some (.elem t ((a, v) :: as.filter (fun p => p.1 ≠ a)) ks)
  else none

/-- `c.isspace()` for unicode characters. -/
def uspace (c : Char) : Bool :=
  isSpace c || (28 ≤ c.toNat && c.toNat ≤ 31) || c.toNat = 0x85 || c.toNat = 0xa0 || c.toNat = 0x1680 ||
  c.toNat = 0x180e || (0x2000 ≤ c.toNat && c.toNat ≤ 0x200a) || c.toNat = 0x2028 || c.toNat = 0x2029 ||
  c.toNat = 0x202f || c.toNat = 0x205f || c.toNat = 0x3000

/-- `s.strip()` -/
def strip (s : Str) : Str := rstrip uspace (s.dropWhile uspace)

/-- `getNodeText(node)`, pisi/exml/xmlextpiks.py:72-88: the text of the first child; the outer `none` is the exception
for a first child that is an element. -/
def nodeText (n : Xml) : Option (Option Str) := match n.kids with
  | [] => some none
  | .text s :: _ => some (some (strip s))
  | .elem _ _ _ :: _ => none

/-- `insertData`, `insertNode` -/
def addKid (c : Xml) : Xml → Xml
  | .text s => .text s
  | .elem t as ks => .elem t as (ks ++ [c])

/-- `createTagPath` down to the new child, pisi/exml/xmlextpiks.py:120-134. -/
def chain : List Str → Xml → Xml
  | [], c => c
  | t :: ts, c => .elem t [] [chain ts c]

/-- Change the last child of the tag; `none` if there is none. -/
def modLast (t : Str) (f : Xml → Xml) : List Xml → Option (List Xml)
  | [] => none
  | x :: xs => match modLast t f xs with
    | some ys => some (x :: ys)
    | none => if x.isTag t then some (f x :: xs) else none

/-- `addNode(node, path, branch=False)` and the insertion of a child into the result, pisi/exml/xmlextpiks.py:136-169,
pisi/exml/autoxml.py:752-763: follow the last matching child; what is missing is created. -/
def insertAt : List Str → Xml → Xml → Xml
  | [], c, n => addKid c n
  | t :: ts, c, .elem u as ks => match modLast t (insertAt ts c) ks with
    | some ks' => .elem u as ks'
    | none => .elem u as (ks ++ [chain (t :: ts) c])
  | _ :: _, _, .text s => .text s

/-! ## Values -/

/-- Values of members; `str` is a byte string, `uni` a unicode string, `loc` a `LocalText`, `obj` an object with its
attributes. -/
inductive Val where
  | none
  | str (s : Str)
  | uni (s : Str)
  | int (n : Int)
  | long (n : Int)
  | loc (d : List (Str × Str))
  | list (l : List Val)
  | obj (fs : List (Str × Val))

/-- Python truth of a value. -/
def Val.truthy : Val → Bool
  | .none => false
  | .str s => s ≠ []
  | .uni s => s ≠ []
  | .int n => n ≠ 0
  | .long n => n ≠ 0
  | .loc d => d ≠ []
  | .list l => !l.isEmpty
  | .obj _ => true

/-- The basic types, pisi/exml/autoxml.py:56-60; `Float` is not used by any class. -/
inductive Basic where
  | str | uni | int | long
  deriving DecidableEq

/-- `isinstance(value, token_type)` -/
def isType : Basic → Val → Bool
  | .str, .str _ => true
  | .uni, .uni _ => true
  | .int, .int _ => true
  | .long, .long _ => true
  | _, _ => false

/-- Decimal digits of a number, least significant first. -/
def revDigits (n : Nat) : Str :=
  if n < 10 then [Char.ofNat (48 + n)] else Char.ofNat (48 + n % 10) :: revDigits (n / 10)

/-- `unicode(n)` -/
def decimal : Int → Str
  | .ofNat n => (revDigits n).reverse
  | .negSucc n => '-' :: (revDigits (n + 1)).reverse

/-- `unicode(value)` for basic values; byte strings are decoded as ASCII.  `errors` lets no other truthy value come here. -/
def unicode : Val → Option Str
  | .str s => if ascii s then some s else none
  | .uni s => some s
  | .int n => some (decimal n)
  | .long n => some (decimal n)
  | _ => Option.none

/-- Python 2 `long(s)`: as `int(s)`, but the last digit may be followed by one `l` or `L`. -/
def pyLong (s : Str) : Option Int := match pyInt s with
  | some n => some n
  | Option.none => match s.reverse.dropWhile isSpace with
    | c :: d :: r => if (c = 'l' || c = 'L') && d.isDigit then pyInt (d :: r).reverse else Option.none
    | _ => Option.none

/-- `basic_cons_map[token_type](text)`, pisi/exml/autoxml.py:839-849.  The machine size of `int` is not modelled. -/
def cons : Basic → Str → Option Val
  | .str, s => if ascii s then some (.str s) else Option.none
  | .uni, s => some (.uni s)
  | .int, s => (pyInt s).map .int
  | .long, s => (pyLong s).map .long

/-! ## Members -/

/-- The members of a class: attributes, the string member, and tags of the kinds of `gen_tag`,
pisi/exml/autoxml.py:489-509; lists are of basic types or of classes.  `path` and `comp` are the split path of a list,
`req` tells mandatory members. -/
inductive Member where
  | attr (token : Str) (b : Basic) (req : Bool)
  | str (token : Str) (b : Basic) (req : Bool)
  | basic (token : Str) (b : Basic) (req : Bool)
  | loc (token : Str) (req : Bool)
  | basics (token : Str) (path : List Str) (comp : Str) (b : Basic) (req : Bool)
  | cls (token : Str) (ms : List Member) (req : Bool)
  | clss (token : Str) (path : List Str) (comp : Str) (ms : List Member) (req : Bool)

def Member.token : Member → Str
  | .attr t _ _ | .str t _ _ | .basic t _ _ | .loc t _ | .basics t _ _ _ _ | .cls t _ _ | .clss t _ _ _ _ => t

/-- `mixed_case`, pisi/exml/autoxml.py:573-582. -/
def mixedCase : Str → Str
  | [] => []
  | c :: s => c.toLower :: s

/-- The name of the variable, pisi/exml/autoxml.py:526-527. -/
def Member.name (m : Member) : Str := mixedCase m.token

/-- `getattr(self, name)`, or `None`, pisi/exml/autoxml.py:542-548. -/
def field (fs : List (Str × Val)) (n : Str) : Val := match fs.find? (fun p => p.1 = n) with
  | some p => p.2
  | none => .none

/-! ## Encoding

`none` stands for a write that raises an exception: `write` raises `Error` whenever anything was appended to `errs`. -/

/-- `encode` of `gen_anon_basic`, pisi/exml/autoxml.py:647-653: the text to be written, if any. -/
def encBasic (req : Bool) (v : Val) : Option (Option Str) :=
  if v.truthy then (unicode v).map some else if req then none else some none

/-- `writetext` for a tag, pisi/exml/autoxml.py:497-498. -/
def encItem (t : Str) (o : Option Str) : List Xml := o.toList.map (fun s => .elem t [] [.text s])

def langAttr : Str := "xml:lang".toList

/-- One pass of the loop of `LocalText.encode`, pisi/exml/autoxml.py:100-103. -/
def encLang (t : Str) (p : Str × Str) : Option Xml := setAttr (.elem t [] [.text p.2]) langAttr p.1

/-- `encode` of `gen_insetclass_tag`, pisi/exml/autoxml.py:815-826. -/
def encLoc (t : Str) (req : Bool) : Val → Option (List Xml)
  | .loc (p :: d) => (p :: d).mapM (encLang t)
  | .loc [] => if req then none else some []
  | .none => if req then none else some []
  | _ => none

/-- `encode` of `gen_list_tag`, pisi/exml/autoxml.py:752-763, given that of the items. -/
def encList (req : Bool) (f : Val → Option (List Xml)) : Val → Option (List Xml)
  | .list (x :: l) => ((x :: l).mapM f).map List.flatten
  | .list [] => if req then none else some []
  | .none => if req then none else some []
  | _ => none

/-- What is done with the children made by a tag member, or with an attribute or the text;
pisi/exml/autoxml.py:468-521. -/
def put (m : Member) (its : Option (List Xml)) (v : Val) (n : Xml) : Option Xml := match m with
  | .attr t _ r => (encBasic r v).bind fun o => match o with
    | some s => setAttr n t s
    | none => some n
  | .str _ _ r => (encBasic r v).map fun o => match o with
    | some s => addKid (.text s) n
    | none => n
  | .basics _ path _ _ _ | .clss _ path _ _ _ => its.map fun cs => cs.foldl (fun n c => insertAt path c n) n
  | _ => its.map fun cs => cs.foldl (fun n c => insertAt [] c n) n

mutual
/-- The children that a tag member makes: `gen_anon_basic`, `gen_insetclass_tag`, `gen_list_tag` and `gen_class_tag`,
pisi/exml/autoxml.py:647-653, 694-707, 752-763, 815-826. -/
def items : Member → Val → Option (List Xml)
  | .attr _ _ _, _ => some []
  | .str _ _ _, _ => some []
  | .basic t _ r, v => (encBasic r v).map (encItem t)
  | .loc t r, v => encLoc t r v
  | .basics _ _ comp _ r, v => encList r (fun x => (encBasic true x).map (encItem comp)) v
  | .cls t ms r, v => match v with
    | .obj fs => (encode ms fs (.elem t [] [])).map ([·])
    | .none => if r then none else some []
    | _ => none
  | .clss _ _ comp ms r, v => encList r (fun x => match x with
    | .obj fs => (encode ms fs (.elem comp [] [])).map ([·])
    | _ => none) v

/-- `encode` of a class, pisi/exml/autoxml.py:352-360. -/
def encode : List Member → List (Str × Val) → Xml → Option Xml
  | [], _, n => some n
  | m :: ms, fs, n => (put m (items m (field fs m.name)) (field fs m.name) n).bind (encode ms fs)
end

/-! ## Decoding

`none` stands for a read that raises an exception. -/

/-- `decode` of `gen_anon_basic`, pisi/exml/autoxml.py:628-645, given the text. -/
def decBasic (b : Basic) (req : Bool) : Option Str → Option Val
  | some (c :: s) => cons b (c :: s)
  | _ => if req then none else some .none

/-- `getNodeText(node, token)` decoded, pisi/exml/autoxml.py:494-496. -/
def decTag (t : Str) (b : Basic) (req : Bool) (n : Xml) : Option Val := match getNode n t with
  | some x => (nodeText x).bind (decBasic b req)
  | none => decBasic b req none

/-- `self[lang] = c` -/
def setLang (d : List (Str × Str)) (k c : Str) : List (Str × Str) :=
  if d.any (fun p => p.1 = k) then d.map (fun p => if p.1 = k then (k, c) else p) else d ++ [(k, c)]

/-- The language of a tag, pisi/exml/autoxml.py:86, 92-93. -/
def langOf (x : Xml) : Str := match getAttr x langAttr with
  | some (c :: s) => c :: s
  | _ => "en".toList

/-- The loop of `LocalText.decode`, pisi/exml/autoxml.py:85-94. -/
def decLangs : List Xml → List (Str × Str) → Option (List (Str × Str))
  | [], d => some d
  | x :: xs, d => match nodeText x with
    | some (some (c :: s)) => decLangs xs (setLang d (langOf x) (c :: s))
    | _ => none

/-- `LocalText.decode`, pisi/exml/autoxml.py:77-94. -/
def decLoc (req : Bool) (ns : List Xml) : Option Val :=
  if ns.isEmpty ∧ req then none else (decLangs ns []).map .loc

/-- The node around a list item, pisi/exml/autoxml.py:744-748. -/
def dummy (x : Xml) : Xml := .elem "Dummy".toList [] [x]

/-- `decode` of `gen_list_tag`, pisi/exml/autoxml.py:737-750, given that of the items. -/
def decList (req : Bool) (f : Xml → Option Val) (ns : List Xml) : Option Val :=
  if ns.isEmpty ∧ req then none else (ns.mapM (fun x => f (dummy x))).map .list

mutual
/-- `decode` of a member, pisi/exml/autoxml.py:628-645, 680-692, 737-750, 802-813. -/
def decM : Member → Xml → Option Val
  | .attr t b r, n => decBasic b r (getAttr n t)
  | .str _ b r, n => (nodeText n).bind (decBasic b r)
  | .basic t b r, n => decTag t b r n
  | .loc t r, n => decLoc r (getAll n [t])
  | .basics _ path comp b r, n => decList r (decTag comp b true) (getAll n (path ++ [comp]))
  | .cls t ms r, n => match getNode n t with
    | some x => (decode ms x).map .obj
    | none => if r then none else some .none
  | .clss _ path comp ms r, n => decList r (fun d => match getNode d comp with
    | some x => (decode ms x).map .obj
    | none => none) (getAll n (path ++ [comp]))

/-- `decode` of a class, pisi/exml/autoxml.py:342-350. -/
def decode : List Member → Xml → Option (List (Str × Val))
  | [], _ => some []
  | m :: ms, n => (decM m n).bind fun v => (decode ms n).map ((m.name, v) :: ·)
end

/-! ## Validation -/

/-- `LocalText.get_lang`, pisi/exml/autoxml.py:106-116, given the language of the locale. -/
def getLang : Option Str → Str
  | some l => l.take 2
  | none => "en".toList

def hasLang (d : List (Str × Str)) (l : Str) : Bool := d.any (fun p => p.1 = l)

/-- `LocalText.errors`, pisi/exml/autoxml.py:118-124: no errors. -/
def locValid (lang : Str) (d : List (Str × Str)) : Bool :=
  hasLang d lang || hasLang d "en".toList || hasLang d "tr".toList

mutual
/-- `errors` of a member: there are none, pisi/exml/autoxml.py:550-559, 655-660, 709-710, 765-771, 828-829. -/
def validM (lang : Str) : Member → Val → Bool
  | .attr _ b r, v | .str _ b r, v | .basic _ b r, v => match v with
    | .none => !r
    | v => !v.truthy || isType b v
  | .loc _ r, v => match v with
    | .none => !r
    | .loc d => locValid lang d
    | _ => false
  | .basics _ _ _ b r, v => match v with
    | .none => !r
    | .list l => l.all (fun x => !x.truthy || isType b x)
    | _ => false
  | .cls _ ms r, v => match v with
    | .none => !r
    | .obj fs => valid lang ms fs
    | _ => false
  | .clss _ _ _ ms r, v => match v with
    | .none => !r
    | .list l => l.all (fun x => match x with
      | .obj fs => valid lang ms fs
      | _ => false)
    | _ => false

/-- `errors` of a class, pisi/exml/autoxml.py:362-370. -/
def valid (lang : Str) : List Member → List (Str × Val) → Bool
  | [], _ => true
  | m :: ms, fs => validM lang m (field fs m.name) && valid lang ms fs
end

/-- `write`, pisi/exml/autoxml.py:445-460, up to the tree. -/
def write (lang tag : Str) (ms : List Member) (fs : List (Str × Val)) : Option Xml :=
  if valid lang ms fs then encode ms fs (.elem tag [] []) else none

/-- `read`, pisi/exml/autoxml.py:424-443, from the tree; without `read_hook`. -/
def read (lang : Str) (ms : List Member) (n : Xml) : Option (List (Str × Val)) :=
  match decode ms n with
  | some fs => if valid lang ms fs then some fs else none
  | none => none

/-- `LocalText.__str__`, pisi/exml/autoxml.py:149-160. -/
def locStr (lang : Str) (d : List (Str × Str)) : Str :=
  match d.find? (fun p => p.1 = lang) with
  | some p => p.2
  | none => match d.find? (fun p => p.1 = "en".toList) with
    | some p => p.2
    | none => match d.find? (fun p => p.1 = "tr".toList) with
      | some p => p.2
      | none => []

/-- `LocalText.format`, pisi/exml/autoxml.py:126-138: the text, or an error. -/
def locFormat (lang : Str) (d : List (Str × Str)) : Option Str :=
  if hasLang d lang then (d.find? (fun p => p.1 = lang)).map (·.2)
  else if hasLang d "en".toList then (d.find? (fun p => p.1 = "en".toList)).map (·.2)
  else if hasLang d "tr".toList then (d.find? (fun p => p.1 = "tr".toList)).map (·.2)
  else none

end Pisi.Xml
