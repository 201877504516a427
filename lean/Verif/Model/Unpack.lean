import Verif.Model.Path

/-!
# Model of the unpacking of zip archives, pisi/archive.py:162-301

The file system here follows links and `..` in every path component (that of `Model/FS.lean` follows links in the last
one only).  A location is the list of the names on the way from the root.
-/
namespace Pisi.Unpack
open Pisi.Path

abbrev Loc := List Str

inductive Node where
  | file (content : Str) (mode : Nat)
  | dir (mode : Nat)
  | link (target : Str)
  deriving DecidableEq

/-- What is at a location; the root is always a directory. -/
abbrev Files := Loc → Option Node

def dot : Str := ['.']
def dotdot : Str := ['.', '.']

/-- The names along a path string. -/
def names (p : Str) : List Str := (splitOn '/' p).filter (· ≠ [])

def isAbs (p : Str) : Bool := p.head? = some '/'

/-- Path resolution by the kernel, from the directory `cur` along the names; links are followed, also the last one.
`none`: no such path, or more than the given number of steps (the kernel limits the number of links). -/
def resolve (fs : Files) : Nat → Loc → List Str → Option Loc
  | 0, _, _ => none
  | _ + 1, cur, [] => some cur
  | n + 1, cur, c :: cs =>
    if c = dot then resolve fs n cur cs
    else if c = dotdot then resolve fs n cur.dropLast cs
    else match fs (cur ++ [c]) with
      | some (.link t) => resolve fs n (if isAbs t then [] else cur) (names t ++ cs)
      | some (.dir _) => resolve fs n (cur ++ [c]) cs
      | some (.file _ _) => if cs = [] then some (cur ++ [c]) else none
      | none => none

/-- `os.stat` of an absolute path. -/
def stat (fs : Files) (n : Nat) (p : List Str) : Option Node := match resolve fs n [] p with
  | some [] => some (.dir 493)
  | some l => fs l
  | none => none

/-- There is a directory at the location. -/
def dirAt (fs : Files) (d : Loc) : Bool := if d = [] then true else match fs d with
  | some (.dir _) => true
  | _ => false

/-- The location that a path names when a last link is not followed, as for `mkdir`, `unlink`, `symlink` and for `open`
of something that is not a link.  `none`: the containing directory does not exist, or the path ends in `.` or `..`, for
which these calls fail. -/
def place (fs : Files) (n : Nat) (p : List Str) : Option Loc := match p.getLast? with
  | none => none
  | some c => if c = dot ∨ c = dotdot then none else match resolve fs n [] p.dropLast with
    | some d => if dirAt fs d then some (d ++ [c]) else none
    | none => none

def isDir (fs : Files) (n : Nat) (p : List Str) : Bool := match stat fs n p with
  | some (.dir _) => true
  | _ => false

def isFile (fs : Files) (n : Nat) (p : List Str) : Bool := match stat fs n p with
  | some (.file _ _) => true
  | _ => false

def isLink (fs : Files) (n : Nat) (p : List Str) : Bool := match place fs n p with
  | some l => match fs l with
    | some (.link _) => true
    | _ => false
  | none => false

/-- The file system and the locations that have been changed. -/
structure St where
  fs : Files
  log : List Loc

/-- Sets what is at a location. -/
def St.set (s : St) (l : Loc) (x : Option Node) : St := ⟨fun m => if m = l then x else s.fs m, s.log ++ [l]⟩

/-- `shutil.rmtree` -/
def St.cut (s : St) (l : Loc) : St := ⟨fun m => if l <+: m then none else s.fs m, s.log ++ [l]⟩

/-- `os.mkdir(p, mode)`; the flag tells whether the call succeeded. -/
def mkdir (n : Nat) (p : List Str) (mode : Nat) (s : St) : St × Bool := match place s.fs n p with
  | some l => if (s.fs l).isSome then (s, false) else (s.set l (some (.dir mode)), true)
  | none => (s, false)

/-- The loop equivalent to the recursion of `os.makedirs`: the missing ones among the directories on the way and then
the last one, which must be missing. -/
def makedirs (n : Nat) : List Str → List Str → Nat → St → St × Bool
  | _, [], _, s => (s, false)
  | done, [c], mode, s => mkdir n (done ++ [c]) mode s
  | done, c :: cs, mode, s =>
    if (stat s.fs n (done ++ [c])).isSome then makedirs n (done ++ [c]) cs mode s
    else match mkdir n (done ++ [c]) 493 s with
      | (s', true) => makedirs n (done ++ [c]) cs mode s'
      | r => r

/-- `dir.strip().rstrip("/")` of `check_dir`, on an absolute path without trailing slash. -/
def stripDir (p : List Str) : List Str := match p.getLast? with
  | none => []
  | some c => if rstrip isSpace c = [] then p.dropLast else p.dropLast ++ [rstrip isSpace c]

/-- `check_dir`, pisi/util/fs.py:38-43.  For the root the argument becomes the empty string and `makedirs` fails. -/
def checkDir (n : Nat) (p : List Str) (s : St) : St × Bool :=
  if stripDir p = [] then (s, false)
  else if (stat s.fs n (stripDir p)).isSome then (s, true)
  else makedirs n [] (stripDir p) 493 s

/-- `perm` of a file, pisi/archive.py:277-280. -/
def filePerm (attr : Nat) : Nat := (attr &&& 0x08FF0000) >>> 16 ||| 0x100

/-- `perm` of a directory, pisi/archive.py:256-259. -/
def dirPerm (attr : Nat) : Nat := (attr &&& 0xFFFF0000) >>> 16 ||| 0x100

/-- `symmagic`, pisi/archive.py:169. -/
def symmagic : Nat := 0xA1ED0000

/-- A member of the archive: name, external attributes, content. -/
structure Member where
  name : Str
  attr : Nat
  content : Str
  deriving DecidableEq

/-- `info.filename.endswith('/')` -/
def Member.isDir (m : Member) : Bool := m.name.getLast? = some '/'

/-- `outpath`, pisi/archive.py:240-248; `none`: the member is skipped. -/
def outpath (root : Str) (name : Str) : Option Str :=
  if root = [] then some name
  else if subpath root name then match removepathprefix root name with
    | .ok r => some r
    | .error _ => none
  else none

/-- `os.path.join(target_dir, outpath)`; the target is an absolute path. -/
def ofile (T : Loc) (out : Str) : List Str := if isAbs out then names out else T ++ names out

/-- `os.remove(ofile)` if it is a file or a link, pisi/archive.py:266-269. -/
def clearOld (n : Nat) (p : List Str) (s : St) : St × Bool :=
  if isFile s.fs n p ∨ isLink s.fs n p then match place s.fs n p with
    | some l => (s.set l none, true)
    | none => (s, false)
  else (s, true)

/-- `shutil.rmtree(ofile)` if it is a directory, pisi/archive.py:272-273. -/
def clearDir (n : Nat) (p : List Str) (s : St) : St × Bool :=
  if isDir s.fs n p then match place s.fs n p with
    | some l => (s.cut l, true)
    | none => (s, false)
  else (s, true)

/-- `os.symlink(target, ofile)` -/
def symlink (n : Nat) (p : List Str) (target : Str) (s : St) : St × Bool := match place s.fs n p with
  | some l => if (s.fs l).isSome then (s, false) else (s.set l (some (.link target)), true)
  | none => (s, false)

/-- `open(ofile, 'wb')`, the writing, and `os.chmod`, for a path that is not a link.  The partly written file and the
file before `chmod` are not states of the model; they are at the same location. -/
def writeFile (n : Nat) (p : List Str) (content : Str) (mode : Nat) (s : St) : St × Bool := match place s.fs n p with
  | some l => match s.fs l with
    | none => (s.set l (some (.file content mode)), true)
    | some (.file _ _) => (s.set l (some (.file content mode)), true)
    | some _ => (s, false)
  | none => (s, false)

/-- Doing one thing after another, stopping at an error. -/
def andThen (r : St × Bool) (f : St → St × Bool) : St × Bool := if r.2 then f r.1 else r

/-- A member that is a directory, pisi/archive.py:252-261. -/
def unpackDirMember (n : Nat) (p : List Str) (m : Member) (s : St) : St × Bool :=
  if isDir s.fs n p then (s, true) else makedirs n [] p (dirPerm m.attr) s

/-- A member that is a file or a link, pisi/archive.py:263-285. -/
def unpackFileMember (n : Nat) (p : List Str) (m : Member) (s : St) : St × Bool :=
  andThen (checkDir n p.dropLast s) fun s =>
  andThen (clearOld n p s) fun s =>
  if m.attr = symmagic then andThen (clearDir n p s) fun s => symlink n p m.content s
  else writeFile n p m.content (filePerm m.attr) s

/-- One iteration of the loop of `unpack_file_cond`, pisi/archive.py:233-285. -/
def unpackMember (n : Nat) (pred : Str → Bool) (root : Str) (T : Loc) (m : Member) (s : St) : St × Bool :=
  if pred m.name then match outpath root m.name with
    | none => (s, true)
    | some out => if m.isDir then unpackDirMember n (ofile T out) m s else unpackFileMember n (ofile T out) m s
  else (s, true)

/-- `unpack_file_cond(pred, target_dir, archive_root)`, pisi/archive.py:227-285. -/
def unpackCond (n : Nat) (pred : Str → Bool) (root : Str) (T : Loc) : List Member → St → St × Bool
  | [], s => (s, true)
  | m :: ms, s => andThen (unpackMember n pred root T m s) (unpackCond n pred root T ms)

/-- `unpack` after the target directory was made, pisi/archive.py:296-301. -/
def unpackAll (n : Nat) (T : Loc) (ms : List Member) (s : St) : St × Bool := unpackCond n (fun _ => true) [] T ms s

/-- `unpack_dir_flat(path, target_dir)`, pisi/archive.py:293-294. -/
def unpackDirFlat (n : Nat) (path : Str) (T : Loc) (ms : List Member) (s : St) : St × Bool :=
  unpackCond n (subpath path) path T ms s

/-- The external attributes that `add_to_archive` stores (pisi/archive.py:183-205, `zipfile.write` and `S_IMODE`) for a
file or a directory with the given `st_mode`. -/
def storedAttr (isDir : Bool) (mode : Nat) : Nat :=
  if isDir then (mode &&& 0o7777) <<< 16 else (mode &&& 0xFFFF) <<< 16

end Pisi.Unpack
