import Verif.Model.PackageDB

/-!
# Model of pisi/search and pisi/op/search.py

Sets of documents are lists; only membership is used.
-/
namespace Pisi.Search
open Pisi.DB

/-! ## Terms -/

/-- `x in string.whitespace or x in string.punctuation`, pisi/search/tokenize.py:24. -/
def isSep (c : Char) : Bool :=
  c ∈ ['\t', '\n', '\x0b', '\x0c', '\r', ' ',
       '!', '"', '#', '$', '%', '&', '\'', '(', ')', '*', '+', ',', '-', '.', '/', ':', ';', '<', '=', '>', '?', '@',
       '[', '\\', ']', '^', '_', '`', '{', '|', '}', '~']

/-- The loop of `tokenize`, pisi/search/tokenize.py:21-32; `tok` is the token read so far. -/
def tokLoop (tok : Str) : Str → List Str
  | [] => if tok.length > 0 then [tok] else []
  | x :: s =>
    if isSep x then
      if tok.length > 0 then tok :: tokLoop [] s else tokLoop tok s
    else tokLoop (tok ++ [x]) s

/-- `tokenize`, pisi/search/tokenize.py:18-34. -/
def tokenize (s : Str) : List Str := tokLoop [] s

/-- The languages that are indexed, pisi/api.py:95 and pisi/db/package.py:109, 112. -/
def langs : List Str := [['e', 'n'], ['t', 'r']]

/-- `lower`, pisi/search/preprocess.py:29-33.  `low` is `unicode.lower` on a character (Unicode's special casing of single
characters to several is left out).  For Turkish `lowly_python` (16-27) returns the characters it was given. -/
def lower (low : Char → Char) (lang s : Str) : Str := if lang = ['t', 'r'] then s else s.map low

/-- `preprocess`, pisi/search/preprocess.py:35-41. -/
def preprocess (low : Char → Char) (lang s : Str) : List Str := (tokenize s).map (lower low lang)

/-! ## The inverted index -/

variable {α : Type} [DecidableEq α]

/-- `InvertedIndex.d`, pisi/search/invertedindex.py:23-24: term → store → documents. -/
abbrev InvIdx (α : Type) := ItemDB Str (List α)

/-- `get_term` for a single store, pisi/search/invertedindex.py:32-39 (`has_term` 29-30 inlined). -/
def getTerm (i : InvIdx α) (t : Str) (r : RepoId) : Except IErr (List α) :=
  if i.hasKey t (.one r) then i.getItem [] t (.one r) else .ok []

/-- Body of the loop of `add_doc`, pisi/search/invertedindex.py:69-73. -/
def addTerm (doc : α) (r : RepoId) (i : InvIdx α) (t : Str) : Except IErr (InvIdx α) :=
  match getTerm i t r with
  | .ok l => .ok (i.addItem t (if doc ∈ l then l else doc :: l) r)
  | .error e => .error e

/-- `add_doc`, pisi/search/invertedindex.py:67-74. -/
def addDoc (doc : α) (ts : List Str) (r : RepoId) (i : InvIdx α) : Except IErr (InvIdx α) := forM' (addTerm doc r) ts i

/-- Body of the loop of `remove_doc`, pisi/search/invertedindex.py:78-83. -/
def removeTerm (doc : α) (r : RepoId) (i : InvIdx α) (t : Str) : Except IErr (InvIdx α) :=
  match getTerm i t r with
  | .ok l => .ok (i.addItem t (if doc ∈ l then l.filter (· ≠ doc) else l) r)
  | .error e => .error e

/-- `remove_doc`, pisi/search/invertedindex.py:76-84. -/
def removeDoc (doc : α) (ts : List Str) (r : RepoId) (i : InvIdx α) : Except IErr (InvIdx α) :=
  forM' (removeTerm doc r) ts i

/-- The loop of `get_union_term`, pisi/search/invertedindex.py:49-51. -/
def unionOf (s : Dict RepoId (List α)) : List RepoId → List α
  | [] => []
  | r :: rs => match s.get r with
    | some l => l ++ unionOf s rs
    | none => unionOf s rs

/-- `get_union_term`, pisi/search/invertedindex.py:41-53; `order` asserts that no single store is asked for. -/
def getUnionTerm (i : InvIdx α) (repoList : List Str) (t : Str) (q : Query) : Except IErr (List α) :=
  match i.get t with
  | none => .ok []
  | some s => match q with
    | .one _ => .error .assertion
    | q => .ok (unionOf s (ItemDB.order repoList q))

/-- The list comprehension of `query`, pisi/search/invertedindex.py:57. -/
def unionTerms (i : InvIdx α) (repoList : List Str) (q : Query) : List Str → Except IErr (List (List α))
  | [] => .ok []
  | t :: ts => match getUnionTerm i repoList t q with
    | .error e => .error e
    | .ok l => match unionTerms i repoList q ts with
      | .error e => .error e
      | .ok ls => .ok (l :: ls)

/-- `query`, pisi/search/invertedindex.py:55-62. -/
def query (i : InvIdx α) (repoList : List Str) (ts : List Str) (q : Query) : Except IErr (List α) :=
  match unionTerms i repoList q ts with
  | .error e => .error e
  | .ok [] => .ok []
  | .ok (l :: ls) => .ok (ls.foldl (fun x y => x.filter (· ∈ y)) l)

/-- Updates of an index. -/
inductive IdxOp (α : Type) where
  | add (doc : α) (ts : List Str) (r : RepoId)
  | remove (doc : α) (ts : List Str) (r : RepoId)

/-- One update. -/
def IdxOp.step (i : InvIdx α) : IdxOp α → InvIdx α
  | .add d ts r => match addDoc d ts r i with
    | .ok i' => i'
    | .error _ => i
  | .remove d ts r => match removeDoc d ts r i with
    | .ok i' => i'
    | .error _ => i

/-- The index after a history. -/
def IdxOp.run (ops : List (IdxOp α)) : InvIdx α := ops.foldl IdxOp.step []

/-! ## The indices of the packages -/

/-- The indexed fields, pisi/api.py:95. -/
inductive Field where
  | summary
  | description
  deriving DecidableEq

/-- `ctx.invidx`, pisi/search/__init__.py:29-39. -/
abbrev Indices (α : Type) := Field → Str → InvIdx α

/-- Texts of a field. -/
def texts (m : Meta α) : Field → Dict Str Str
  | .summary => m.summary
  | .description => m.description

/-- Set one of the indices. -/
def Indices.set (x : Indices α) (f : Field) (lang : Str) (i : InvIdx α) : Indices α :=
  fun f' l' => if f' = f ∧ l' = lang then i else x f' l'

/-- One of the two loops over the texts of a package, pisi/db/package.py:108-110 with `op` = `add_doc`, and 136-138 with
`op` = `remove_doc`; `pisi.search.add_doc`/`remove_doc`, pisi/search/__init__.py:50-56. -/
def docLoop (low : Char → Char) (op : α → List Str → RepoId → InvIdx α → Except IErr (InvIdx α)) (f : Field) (doc : α)
    (r : RepoId) : Dict Str Str → Indices α → Except IErr (Indices α)
  | [], x => .ok x
  | (lang, s) :: l, x =>
    if lang ∈ langs then
      match op doc (preprocess low lang s) r (x f lang) with
      | .error e => .error e
      | .ok i => docLoop low op f doc r l (x.set f lang i)
    else docLoop low op f doc r l x

/-- Both loops, pisi/db/package.py:108-114 and 136-141. -/
def docLoops (low : Char → Char) (op : α → List Str → RepoId → InvIdx α → Except IErr (InvIdx α)) (m : Meta α) (r : RepoId)
    (x : Indices α) : Except IErr (Indices α) :=
  match docLoop low op .summary m.name r m.summary x with
  | .error e => .error e
  | .ok x => docLoop low op .description m.name r m.description x

/-- The databases with the indices. -/
structure Full (α : Type) where
  stores : Stores α := {}
  idx : Indices α := fun _ _ => []

/-- `PackageDB.add_package`, pisi/db/package.py:92-116. -/
def addPackageF (low : Char → Char) (r : RepoId) (s : Full α) (m : Meta α) : Except DErr (Full α) :=
  match addPackage r s.stores m with
  | .error e => .error e
  | .ok st => match docLoops low addDoc m r s.idx with
    | .error e => .error (.item e)
    | .ok x => .ok ⟨st, x⟩

/-- `PackageDB.remove_package`, pisi/db/package.py:122-142. -/
def removePackageF (low : Char → Char) (r : RepoId) (s : Full α) (name : α) : Except DErr (Full α) :=
  match s.stores.pkg.getItem [] name (.one r) with
  | .error e => .error (.item e)
  | .ok m => match removePackage r s.stores name with
    | .error e => .error e
    | .ok st => match docLoops low removeDoc m r s.idx with
      | .error e => .error (.item e)
      | .ok x => .ok ⟨st, x⟩

/-- `remove_tracking_package`, pisi/db/package.py:152-157. -/
def removeTrackingF (low : Char → Char) (s : Full α) (name : α) : Except DErr (Full α) :=
  let one := fun (r : RepoId) (s : Full α) =>
    if s.stores.pkg.hasKey name (.one r) then removePackageF low r s name else .ok s
  match one .installed s with
  | .error e => .error e
  | .ok s' => one .thirdparty s'

/-- `Index.update_db`, pisi/data/index.py:102-111. -/
def updateDbF (low : Char → Char) (ix : Index α) (r : RepoId) (s : Full α) : Except DErr (Full α) :=
  match compRemoveRepo s.stores r with
  | .error e => .error e
  | .ok s1 =>
    match forM' (fun c (x : α × Comp α) => updateComponent c x.1 x.2 r) ix.components s1.comp with
    | .error e => .error e
    | .ok c =>
      match pkgRemoveRepo { s1 with comp := c } r with
      | .error e => .error e
      | .ok s2 =>
        match forM' (addPackageF low r) ix.packages ⟨s2, s.idx⟩ with
        | .error e => .error e
        | .ok s3 =>
          match srcRemoveRepo s3.stores r with
          | .error e => .error e
          | .ok s4 => match forM' (addSpec r) ix.specs s4 with
            | .error e => .error e
            | .ok s5 => .ok ⟨s5, s3.idx⟩

/-- The repository list with the databases and the indices. -/
structure FullSystem (α ρ : Type) where
  repos : RepoDB ρ := {}
  full : Full α := {}

variable {ρ : Type}

/-- One operation (pisi/db/repo.py:75-109, pisi/op/repo.py:53-97, pisi/op/install.py:332-349, pisi/op/remove.py:146-149);
an error leaves the state unchanged. -/
def fullStep (low : Char → Char) (y : FullSystem α ρ) : SysOp α ρ → FullSystem α ρ
  | .addRepo n x pos => match y.repos.addRepo n x pos with
    | .ok d => { y with repos := d }
    | .error _ => y
  | .removeRepo n => match System.removeRepo ⟨y.repos, y.full.stores⟩ n with
    | .ok y' => ⟨y'.repos, ⟨y'.stores, y.full.idx⟩⟩
    | .error _ => y
  | .updateRepo n ix =>
    if y.repos.hasRepo n then
      match updateDbF low ix (.repo n) y.full with
      | .ok s => { y with full := s }
      | .error _ => y
    else y
  | .track (.repo _) _ => y
  | .track r m => match addPackageF low r y.full m with
    | .ok s => { y with full := s }
    | .error _ => y
  | .untrack name => match removeTrackingF low y.full name with
    | .ok s => { y with full := s }
    | .error _ => y

/-- The state after a history. -/
def fullRun (low : Char → Char) (ops : List (SysOp α ρ)) : FullSystem α ρ := ops.foldl (fullStep low) {}

/-! ## Searching -/

/-- `query in pkgname` for strings. -/
def substr (q s : Str) : Bool := match s with
  | [] => q = []
  | _ :: t => q.isPrefixOf s || substr q t

/-- `search_package_names`, pisi/op/search.py:30-36. -/
def searchNames (s : Stores Str) (q : Str) : List Str := (s.pkg.list .repos).filter (fun n => substr q n)

/-- Errors of a search. -/
inductive SErr where
  | item (e : IErr)
  /-- `KeyError` of `ctx.invidx[id][lang]` -/
  | key
  deriving DecidableEq

/-- `ctx.invidx[id][lang].query(terms)` with `terms` lowered again, pisi/search/__init__.py:58-60 (`query_terms`). -/
def queryTerms (low : Char → Char) (x : Indices Str) (repoList : List Str) (f : Field) (lang : Str) (terms : List Str)
    (q : Query) : Except SErr (List Str) :=
  if lang ∈ langs then
    match query (x f lang) repoList (terms.map (lower low lang)) q with
    | .ok r => .ok r
    | .error e => .error (.item e)
  else .error .key

/-- `search_package_terms`, pisi/op/search.py:38-48, for a given language. -/
def searchTerms (low : Char → Char) (y : Full Str) (repoList : List Str) (terms : List Str) (lang : Str) (names : Bool)
    (q : Query) : Except SErr (List Str) :=
  match queryTerms low y.idx repoList .summary lang terms q with
  | .error e => .error e
  | .ok r1 => match queryTerms low y.idx repoList .description lang terms q with
    | .error e => .error e
    | .ok r2 => .ok (r1 ++ r2 ++ if names then terms.flatMap (searchNames y.stores) else [])

/-- `search_package`, pisi/op/search.py:50-59, for a given language; `pisi.search.query`, pisi/search/__init__.py:62-64. -/
def searchPackage (low : Char → Char) (y : Full Str) (repoList : List Str) (str : Str) (lang : Str) (names : Bool)
    (q : Query) : Except SErr (List Str) :=
  match queryTerms low y.idx repoList .summary lang (preprocess low lang str) q with
  | .error e => .error e
  | .ok r1 => match queryTerms low y.idx repoList .description lang (preprocess low lang str) q with
    | .error e => .error e
    | .ok r2 => .ok (r1 ++ r2 ++ if names then searchNames y.stores str else [])

/-- `Search.get_lang` of the command line, pisi/cli/search.py:51-57; `l` is the option or the language of the locale. -/
def cliLang (l : Str) : Str := if l ∈ langs then l else ['e', 'n']

end Pisi.Search
