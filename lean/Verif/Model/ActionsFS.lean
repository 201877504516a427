import Verif.Model.Dict
import Verif.Model.Path
import Verif.Model.FS

/-!
# The file system as actions scripts see it

Unlike `Model/FS.lean`, path names are resolved component by component, as the operating system does: `..` leads to the
parent directory and symbolic links are followed on the way, at most 40 of them.  Permissions, owners, times, hard links, special
files and errors of the medium are not modelled; a slash at the end of a path matters to `glob.glob` only.
Library functions that pisi calls are described here as Python 2.7 has them.
-/
namespace Pisi.Act
open Pisi.Path (joinPath)

inductive Node where
  | file (content : Str)
  | link (target : Str)
  | dir
  deriving DecidableEq

/-- The place of a node: the names on the way from the root. -/
abbrev Loc := List Str

/-- Place → node; the root is a directory always. -/
abbrev FS := Dict Loc Node

def look (fs : FS) (p : Loc) : Option Node := if p = [] then some .dir else fs.get p

inductive Err where
  /-- `OSError` -/
  | os
  /-- `IOError` -/
  | io
  /-- `shutil.Error` -/
  | shutil
  /-- `pisi.actionsapi.Error` -/
  | action
  /-- `AttributeError` -/
  | attr
  /-- `RuntimeError`: maximum recursion depth exceeded -/
  | recursion
  deriving DecidableEq

/-- A computation: the file system after it, also if it fails, and whether it fails. -/
abbrev Act := FS → FS × Except Err Unit

def skip : Act := fun fs => (fs, .ok ())
def fail (e : Err) : Act := fun fs => (fs, .error e)
def seq (a b : Act) : Act := fun fs => match a fs with
  | (fs', .ok ()) => b fs'
  | r => r
/-- `for x in l: f(x)` -/
def each {α : Type} (f : α → Act) : List α → Act
  | [] => skip
  | x :: l => seq (f x) (each f l)
/-- `try: a except p: b` -/
def catching (p : Err → Bool) (a b : Act) : Act := fun fs => match a fs with
  | (fs', .error e) => if p e then b fs' else (fs', .error e)
  | r => r
/-- A system call: it happens or not. -/
def call (f : FS → Except Err FS) : Act := fun fs => match f fs with
  | .ok fs' => (fs', .ok ())
  | .error e => (fs, .error e)

/-! ## Path names -/

/-- The components of a path name. -/
def comps (s : Str) : List Str := (splitOn '/' s).filter fun c => c ≠ [] ∧ c ≠ ['.']

def dotdot : Str := ['.', '.']

def isAbs (s : Str) : Bool := s.head? = some '/'

/-- The components seen from the root, `cwd` is the working directory. -/
def absComps (cwd s : Str) : List Str := if isAbs s then comps s else comps cwd ++ comps s

/-- `os.path.basename` -/
def basename (s : Str) : Str := (s.reverse.takeWhile (· ≠ '/')).reverse

/-- `os.path.join` -/
def osJoin (a b : Str) : Str :=
  if isAbs b then b else if a = [] ∨ a.getLast? = some '/' then a ++ b else a ++ '/' :: b

/-- Resolution of a path; `follow` says whether a link at the end is followed.  `none`: no such file, not a directory, or too
many links.  The last component need not exist.  `k` goes on from a link. -/
def walkGo (fs : FS) (follow : Bool) (k : Loc → List Str → Option Loc) : Loc → List Str → Option Loc
  | cur, [] => some cur
  | cur, c :: r =>
    if c = dotdot then walkGo fs follow k cur.dropLast r
    else match look fs (cur ++ [c]) with
      | some (.link t) =>
        if r = [] ∧ follow = false then some (cur ++ [c]) else k (if isAbs t then [] else cur) (comps t ++ r)
      | some .dir => walkGo fs follow k (cur ++ [c]) r
      | some (.file _) => if r = [] then some (cur ++ [c]) else none
      | none => if r = [] then some (cur ++ [c]) else none

/-- Resolution following at most so many links. -/
def walk (fs : FS) (follow : Bool) : Nat → Loc → List Str → Option Loc
  | 0 => walkGo fs follow fun _ _ => none
  | n + 1 => walkGo fs follow (walk fs follow n)

def resolve (fs : FS) (cs : List Str) : Option Loc := walk fs true 40 [] cs
def lresolve (fs : FS) (cs : List Str) : Option Loc := walk fs false 40 [] cs

/-- `os.stat` -/
def stat (fs : FS) (cs : List Str) : Option Node := (resolve fs cs).bind (look fs)
/-- `os.lstat` -/
def lstat (fs : FS) (cs : List Str) : Option Node := (lresolve fs cs).bind (look fs)

def existsC (fs : FS) (cs : List Str) : Bool := (stat fs cs).isSome
def lexistsC (fs : FS) (cs : List Str) : Bool := (lstat fs cs).isSome
def isDirC (fs : FS) (cs : List Str) : Bool := stat fs cs = some .dir
def isFileC (fs : FS) (cs : List Str) : Bool := match stat fs cs with
  | some (.file _) => true
  | _ => false
def isLinkC (fs : FS) (cs : List Str) : Bool := match lstat fs cs with
  | some (.link _) => true
  | _ => false

/-- The names in the directory at a place. -/
def namesAt (fs : FS) (p : Loc) : List Str :=
  fs.keys.filterMap fun k => if k ≠ [] ∧ k.dropLast = p then k.getLast? else none

/-- `os.listdir` -/
def listdirC (fs : FS) (cs : List Str) : Option (List Str) := match resolve fs cs with
  | some p => if look fs p = some .dir then some (namesAt fs p) else none
  | none => none

/-! ## System calls -/

/-- `os.mkdir` -/
def mkdirC (cs : List Str) (fs : FS) : Except Err FS := match lresolve fs cs with
  | some p => if (look fs p).isSome then .error .os else .ok (fs.put p .dir)
  | none => .error .os

/-- `os.makedirs`: the missing directories on the way, then the directory itself.  A directory on the way that cannot be made because
there is something already is no error by itself. -/
def makedirsC (pre : List Str) : List Str → FS → FS × Except Err Unit
  | [], fs => (fs, .error .os)
  | [c], fs => call (mkdirC (pre ++ [c])) fs
  | c :: c' :: r, fs =>
    if existsC fs (pre ++ [c]) then makedirsC (pre ++ [c]) (c' :: r) fs
    else match mkdirC (pre ++ [c]) fs with
      | .ok fs' => makedirsC (pre ++ [c]) (c' :: r) fs'
      | .error e => if lexistsC fs (pre ++ [c]) then makedirsC (pre ++ [c]) (c' :: r) fs else (fs, .error e)

/-- `os.unlink` -/
def unlinkC (cs : List Str) (fs : FS) : Except Err FS := match lresolve fs cs with
  | some p => match look fs p with
    | some (.file _) => .ok (fs.del p)
    | some (.link _) => .ok (fs.del p)
    | _ => .error .os
  | none => .error .os

/-- `os.symlink` -/
def symlinkC (target : Str) (cs : List Str) (fs : FS) : Except Err FS := match lresolve fs cs with
  | some p => if (look fs p).isSome then .error .os else .ok (fs.put p (.link target))
  | none => .error .os

/-- Move everything at and below `a` to `b`; what was at `b` is replaced. -/
def moveTree (fs : FS) (a b : Loc) : FS :=
  (fs.filter fun e => a <+: e.1).map (fun e => (b ++ e.1.drop a.length, e.2)) ++
    fs.filter fun e => ¬ a <+: e.1 ∧ e.1 ≠ b

/-- `os.rename` -/
def renameC (ca cb : List Str) (fs : FS) : Except Err FS := match lresolve fs ca, lresolve fs cb with
  | some a, some b =>
    match look fs a with
    | none => .error .os
    | some n =>
      if a = b then .ok fs
      else if a <+: b ∨ b = [] ∨ a = [] then .error .os
      else match n, look fs b with
        | .dir, none => .ok (moveTree fs a b)
        | .dir, some .dir => if namesAt fs b = [] then .ok (moveTree fs a b) else .error .os
        | .dir, some _ => .error .os
        | _, some .dir => .error .os
        | n, _ => .ok ((fs.del a).put b n)
  | _, _ => .error .os

/-- `open(…, 'w')`, writing, closing: follows a link. -/
def writeC (cs : List Str) (c : Str) (fs : FS) : Except Err FS := match resolve fs cs with
  | some p => match look fs p with
    | some .dir => .error .io
    | _ => .ok (fs.put p (.file c))
  | none => .error .io

/-- `shutil.rmtree`: refuses a link; as one step. -/
def rmtreeC (cs : List Str) (fs : FS) : Except Err FS := match lresolve fs cs with
  | some p => if look fs p = some .dir ∧ p ≠ [] then .ok (fs.filter fun e => ¬ p <+: e.1) else .error .os
  | none => .error .os

/-! ## glob -/

/-- `glob.has_magic` -/
def hasMagic (s : Str) : Bool := s.any fun c => c = '*' || c = '?' || c = '['

/-- The rest of a class of `fnmatch` after `[` and `!`: the characters of the class and what follows. -/
def classSplit (r : Str) : Option (Str × Str) :=
  let (b, r) := match r with
    | ']' :: r => ([']'], r)
    | r => ([], r)
  match r.dropWhile (· ≠ ']') with
  | _ :: rest => some (b ++ r.takeWhile (· ≠ ']'), rest)
  | [] => none

/-- Does a class contain the character?  A class with a range whose ends are the wrong way round (`re.error`) has nothing of it. -/
def inClass : Str → Char → Bool
  | a :: '-' :: b :: r, c => (a ≤ c && c ≤ b) || inClass r c
  | a :: r, c => a = c || inClass r c
  | [], _ => false

/-- `fnmatch.fnmatchcase`; the number bounds the recursion, the sum of the lengths is enough. -/
def fnmatchN : Nat → Str → Str → Bool
  | 0, _, _ => false
  | _ + 1, [], s => s = []
  | n + 1, '*' :: p, s => fnmatchN n p s || (match s with
    | [] => false
    | _ :: s => fnmatchN n ('*' :: p) s)
  | n + 1, '?' :: p, s => match s with
    | [] => false
    | _ :: s => fnmatchN n p s
  | n + 1, '[' :: p, s =>
    let (neg, q) := match p with
      | '!' :: q => (true, q)
      | q => (false, q)
    match classSplit q with
    | some (b, rest) => match s with
      | [] => false
      | c :: s => (inClass b c != neg) && fnmatchN n rest s
    | none => match s with
      | [] => false
      | c :: s => c = '[' && fnmatchN n p s
  | n + 1, x :: p, s => match s with
    | [] => false
    | c :: s => c = x && fnmatchN n p s

def fnmatch (p s : Str) : Bool := fnmatchN (p.length + s.length + 1) p s

/-- `glob.glob1`: the names of a directory matching; names with a dot in front are hidden unless the pattern begins with one. -/
def glob1 (fs : FS) (cwd d pat : Str) : List Str :=
  ((listdirC fs (absComps cwd d)).getD []).filter fun n =>
    (pat.head? = some '.' || n.head? ≠ some '.') && fnmatch pat n

/-- `glob.glob0` -/
def glob0 (fs : FS) (cwd d base : Str) : List Str :=
  if base = [] then (if isDirC fs (absComps cwd d) then [base] else [])
  else if lexistsC fs (absComps cwd (osJoin d base)) then [base] else []

/-- `glob.iglob`; the number bounds the recursion, the length of the name is enough. -/
def globN (fs : FS) (cwd : Str) : Nat → Str → List Str
  | 0, _ => []
  | n + 1, s =>
    let d := FS.dirname s
    let b := basename s
    if hasMagic s = false then
      (if b ≠ [] then (if lexistsC fs (absComps cwd s) then [s] else [])
       else if isDirC fs (absComps cwd d) then [s] else [])
    else if d = [] then glob1 fs cwd [] b
    else
      let dirs := if d ≠ s ∧ hasMagic d then globN fs cwd n d else [d]
      dirs.flatMap fun d => (if hasMagic b then glob1 fs cwd d b else glob0 fs cwd d b).map (osJoin d)

/-- `glob.glob` -/
def glob (fs : FS) (cwd s : Str) : List Str := globN fs cwd (s.length + 1) s

/-! ## shutil -/

/-- `os.path.samefile`, false if one of them does not exist. -/
def sameFile (fs : FS) (a b : List Str) : Bool :=
  existsC fs a && existsC fs b && resolve fs a == resolve fs b

/-- `shutil.copyfile` -/
def copyFile (src dst : List Str) (fs : FS) : Except Err FS :=
  if sameFile fs src dst then .error .shutil
  else match stat fs src with
    | some (.file c) => writeC dst c fs
    | _ => .error .io

/-- `shutil.copy`, `shutil.copy2` -/
def shutilCopy (cwd src dst : Str) : Act := fun fs =>
  let dst := if isDirC fs (absComps cwd dst) then osJoin dst (basename src) else dst
  call (copyFile (absComps cwd src) (absComps cwd dst)) fs

/-- The errors `shutil.copytree` collects. -/
def isEnvErr : Err → Bool
  | .os => true
  | .io => true
  | .shutil => true
  | _ => false

/-- The names of a directory, one after the other; failures are collected. -/
def collect (f : Str → Act) : List Str → Bool → FS → FS × Except Err Unit
  | [], failed, fs => (fs, if failed then .error .shutil else .ok ())
  | x :: l, failed, fs => match f x fs with
    | (fs', .ok ()) => collect f l failed fs'
    | (fs', .error e) => if isEnvErr e then collect f l true fs' else (fs', .error e)

/-- `shutil.copytree`; the number is the recursion limit. -/
def shutilCopytree (cwd : Str) (sym : Bool) : Nat → Str → Str → Act
  | 0, _, _ => fail .recursion
  | n + 1, src, dst => fun fs => match listdirC fs (absComps cwd src) with
    | none => (fs, .error .os)
    | some names => match makedirsC [] (absComps cwd dst) fs with
      | (fs', .error e) => (fs', .error e)
      | (fs', .ok ()) => collect (fun name => fun fs =>
          let s := osJoin src name
          let d := osJoin dst name
          match lstat fs (absComps cwd s), sym with
          | some (.link t), true => call (symlinkC t (absComps cwd d)) fs
          | _, _ =>
            if isDirC fs (absComps cwd s) then shutilCopytree cwd sym n s d fs
            else shutilCopy cwd s d fs) names false fs'

/-- `shutil._basename`: a slash at the end is not counted. -/
def trimBasename (s : Str) : Str := basename (Path.rstrip (· = '/') s)

/-- `os.path.abspath`, as components. -/
def normComps (cs : List Str) : List Str :=
  cs.foldl (fun acc c => if c = dotdot then acc.dropLast else acc ++ [c]) []

/-- `shutil.move` -/
def shutilMove (cwd : Str) (limit : Nat) (src dst : Str) : Act := fun fs =>
  let s := absComps cwd src
  let go (real : Str) : Act := catching (· == .os) (call (renameC s (absComps cwd real)))
    (fun fs =>
      if isDirC fs s then
        if normComps s <+: normComps (absComps cwd dst) then (fs, .error .shutil)
        else seq (shutilCopytree cwd true limit src real) (call (rmtreeC s)) fs
      else seq (shutilCopy cwd src real) (call (unlinkC s)) fs)
  if isDirC fs (absComps cwd dst) then
    if sameFile fs s (absComps cwd dst) then call (renameC s (absComps cwd dst)) fs
    else
      let real := osJoin dst (trimBasename src)
      if existsC fs (absComps cwd real) then (fs, .error .shutil) else go real fs
  else go dst fs

end Pisi.Act
