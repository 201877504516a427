import Verif.Model.Xml

/-!
# Specification of XML records: well-formed classes, well-typed and safe values, layout
-/
namespace Pisi.Xml

/-! ## Classes -/

/-- Where the tags of a member are, below the element of the class. -/
def Member.tagPath : Member → Option (List Str)
  | .attr _ _ _ | .str _ _ _ => none
  | .basic t _ _ | .loc t _ | .cls t _ _ => some [t]
  | .basics _ path comp _ _ | .clss _ path comp _ _ => some (path ++ [comp])

def Member.IsAttr : Member → Prop
  | .attr _ _ _ => True
  | _ => False

/-- A basic tag declared again, as by a derived class. -/
def Redeclared : Member → Member → Prop
  | .basic s b _, .basic t c _ => s = t ∧ b = c
  | _, _ => False

/-- Text comes before tags, and is there if there are tags. -/
def TextFirst : Member → Member → Prop
  | .str _ _ r, k => k.IsAttr ∨ (r = true ∧ ∀ t b q, k ≠ .str t b q)
  | m, .str _ _ _ => m.IsAttr
  | _, _ => True

/-- Tags are not the same and not above each other. -/
def PathsApart (m k : Member) : Prop := ∀ p q, m.tagPath = some p → k.tagPath = some q → ¬ p <+: q ∧ ¬ q <+: p

/-- Two members, the first of which is processed first, do not get in each other's way. -/
def Apart (m k : Member) : Prop := Redeclared m k ∨ (m.name ≠ k.name ∧ TextFirst m k ∧ PathsApart m k)

mutual
/-- A class is well formed if its members are apart, and the classes of its members are. -/
def WellFormed : List Member → Prop
  | [] => True
  | m :: ms => (∀ k ∈ ms, Apart m k) ∧ WellFormedM m ∧ WellFormed ms

def WellFormedM : Member → Prop
  | .cls _ ms _ => WellFormed ms
  | .clss _ _ _ ms _ => WellFormed ms
  | _ => True
end

/-! ## Values -/

mutual
/-- The value is of the type of the member: `B` tells which basic values are allowed (in attributes or elsewhere), `K`
which localised texts.  Only optional members may be missing. -/
def TypedM (B : Bool → Basic → Val → Prop) (K : List (Str × Str) → Prop) : Member → Val → Prop
  | .attr _ b r, v => (v = .none ∧ r = false) ∨ B true b v
  | .str _ b r, v => (v = .none ∧ r = false) ∨ B false b v
  | .basic _ b r, v => (v = .none ∧ r = false) ∨ B false b v
  | .loc _ r, v => ∃ d, v = .loc d ∧ K d ∧ (r = true → d ≠ [])
  | .basics _ _ _ b r, v => ∃ l, v = .list l ∧ (∀ x ∈ l, B false b x) ∧ (r = true → l ≠ [])
  | .cls _ ms r, v => (v = .none ∧ r = false) ∨ ∃ fs, v = .obj fs ∧ Typed B K ms fs ∧
      ∀ p ∈ fs, ∀ q ∈ fs, p.1 = q.1 → p.2 = q.2
  | .clss _ _ _ ms r, v => ∃ l, v = .list l ∧ (∀ x ∈ l, ∃ fs, x = .obj fs ∧ Typed B K ms fs ∧
      ∀ p ∈ fs, ∀ q ∈ fs, p.1 = q.1 → p.2 = q.2) ∧ (r = true → l ≠ [])

/-- The attributes of an object are the members of the class, with values of their types. -/
def Typed (B : Bool → Basic → Val → Prop) (K : List (Str × Str) → Prop) : List Member → List (Str × Val) → Prop
  | [], fs => fs = []
  | m :: ms, fs => ∃ v rest, fs = (m.name, v) :: rest ∧ TypedM B K m v ∧ Typed B K ms rest
end

/-- An attribute has one value. -/
def Functional (fs : List (Str × Val)) : Prop := ∀ p ∈ fs, ∀ q ∈ fs, p.1 = q.1 → p.2 = q.2

/-- A localised text is a map from languages to texts. -/
def IsMap (d : List (Str × Str)) : Prop := (d.map (·.1)).Nodup

/-- Any value of the type. -/
def Any (_ : Bool) (b : Basic) (v : Val) : Prop := isType b v = true

/-- Text that is neither empty nor begins or ends in white space. -/
def Solid (s : Str) : Prop := s ≠ [] ∧ s.head?.all (fun c => ¬ uspace c) ∧ s.getLast?.all (fun c => ¬ uspace c)

def Ascii (s : Str) : Prop := ∀ c ∈ s, c.toNat < 128

/-- The basic values that survive: non-empty ASCII strings and non-empty unicode strings, without white space around
them unless in an attribute, and numbers other than 0. -/
def Safe (inAttr : Bool) (b : Basic) (v : Val) : Prop := match b, v with
  | .str, .str s => s ≠ [] ∧ Ascii s ∧ (inAttr = false → Solid s)
  | .uni, .uni s => s ≠ [] ∧ (inAttr = true → Ascii s) ∧ (inAttr = false → Solid s)
  | .int, .int n => n ≠ 0
  | .long, .long n => n ≠ 0
  | _, _ => False

/-- The localised texts that survive. -/
def SafeText (d : List (Str × Str)) : Prop := IsMap d ∧ ∀ p ∈ d, p.1 ≠ [] ∧ Ascii p.1 ∧ Solid p.2

/-- There is a text in the language. -/
def InLang (d : List (Str × Str)) (l : Str) : Prop := ∃ x, (l, x) ∈ d

/-- There is an English or Turkish text. -/
def Common (d : List (Str × Str)) : Prop := InLang d "en".toList ∨ InLang d "tr".toList

/-! ## Missing members -/

def Member.req : Member → Bool
  | .attr _ _ r | .str _ _ r | .basic _ _ r | .loc _ r | .basics _ _ _ _ r | .cls _ _ r | .clss _ _ _ _ r => r

/-- There are no nodes along the path. -/
def NoNodes : List Str → Xml → Prop
  | [], _ => False
  | t :: ts, n => ∀ x ∈ n.kids, x.isTag t = true → NoNodes ts x

/-- The member is not in the tree. -/
def Missing : Member → Xml → Prop
  | .attr t _ _, n => getAttr n t = none
  | .str _ _ _, n => n.kids = []
  | m, n => ∀ p, m.tagPath = some p → NoNodes p n

/-! ## Layout -/

/-- Blank text. -/
def Blank (x : Xml) : Prop := ∃ s, x = .text s ∧ ∀ c ∈ s, uspace c = true

mutual
/-- The second tree is the first with white space added between elements and around texts. -/
inductive Laid : Xml → Xml → Prop
  | text (a s b : Str) (ha : ∀ c ∈ a, uspace c = true) (hb : ∀ c ∈ b, uspace c = true) : Laid (.text s) (.text (a ++ s ++ b))
  | elem (t : Str) (as : List (Str × Str)) (ks ks' : List Xml) (h : LaidKids ks ks') : Laid (.elem t as ks) (.elem t as ks')

/-- The same for the children; before a text there is no separate white space. -/
inductive LaidKids : List Xml → List Xml → Prop
  | nil : LaidKids [] []
  | text (s : Str) (x' : Xml) (ks ks' : List Xml) (h : Laid (.text s) x') (hs : LaidKids ks ks') :
      LaidKids (.text s :: ks) (x' :: ks')
  | elem (t : Str) (as : List (Str × Str)) (cs : List Xml) (x' : Xml) (ks ks' : List Xml) (h : Laid (.elem t as cs) x')
      (hs : LaidKids ks ks') : LaidKids (.elem t as cs :: ks) (x' :: ks')
  | blank (b : Xml) (ks ks' : List Xml) (h : Blank b) (hn : ∀ s k, ks ≠ .text s :: k) (hs : LaidKids ks ks') :
      LaidKids ks (b :: ks')
end

end Pisi.Xml
