import Verif.Model.Path
import Verif.Model.Dict

/-!
# Updating a repository

pisi/op/repo.py:53-97, pisi/data/index.py:53-84, pisi/file.py:70-218 and pisi/op/index.py:31-47.

One repository that is in the database of repositories, with a remote URI whose last part is the file name `F`.  The hash
function, bzip2, reading and checking of the XML file, and gpg are arbitrary functions.  Fetching a file replaces it atomically
by what arrives, unless that is empty (C36); a server may answer every request differently.  Entering an index in the database is
one transaction (C28, C29).  A process may be killed in any state that is listed.
-/
namespace Pisi.Repo
open Pisi.Path

/-- The functions of other programs. -/
structure Tools (α : Type) where
  /-- `sha1_file`, pisi/util/fs.py:201-211, on the content -/
  sha : Str → Str
  /-- `bz2.BZ2File(..).read()` -/
  bunzip : Str → Option Str
  /-- writing through `bz2.BZ2File` -/
  bzip : Str → Str
  /-- `autoxml.read` after the download, pisi/exml/autoxml.py:429-443, on the content -/
  parse : Str → Option α
  /-- `gpg --verify x.sig` on the contents of `x` and of `x.sig` -/
  verify : Str → Str → Bool
  /-- `gpg --detach-sig` -/
  sign : Str → Str

/-- The directory of the repository under `index_dir`, and the index in the database. -/
structure St (α : Type) where
  disk : Dict Str Str
  db : Option α

/-- What the server answers in the course of one command. -/
structure Net where
  /-- `F.sha1sum` -/
  hash : Option Str
  /-- `F` -/
  idx : Option Str
  /-- `F.sig` -/
  sig : Option Str

/-- Exceptions. -/
inductive UErr where
  | fetch | alreadyHave | integrity | io | gzip | xml | invalidSignature
  deriving DecidableEq

/-- What the command tells. -/
inductive Told where
  | updated | noUpdates
  deriving DecidableEq

/-- Steps of a command: the states it goes through, and a result or an exception. -/
def M (α β : Type) : Type := St α → List (St α) × Except UErr β

/-- The state at the end. -/
def lastOf {σ : Type} (s : σ) (l : List σ) : σ := l.getLast?.getD s

/-- Nothing else to do. -/
def M.ret {α β : Type} (b : β) : M α β := fun _ => ([], .ok b)
/-- Raise an exception. -/
def M.throw {α β : Type} (e : UErr) : M α β := fun _ => ([], .error e)
/-- Change the state at once. -/
def M.step {α : Type} (f : St α → St α) : M α Unit := fun s => ([f s], .ok ())
/-- One after the other. -/
def M.bind {α β γ : Type} (x : M α β) (f : β → M α γ) : M α γ := fun s => match x s with
  | (l, .error e) => (l, .error e)
  | (l, .ok b) => (l ++ (f b (lastOf s l)).1, (f b (lastOf s l)).2)
/-- `try: x except e: y`. -/
def M.catch {α β : Type} (x : M α β) (e : UErr) (y : M α β) : M α β := fun s => match x s with
  | (l, .ok b) => (l, .ok b)
  | (l, .error e') => if e' = e then (l ++ (y (lastOf s l)).1, (y (lastOf s l)).2) else (l, .error e')
/-- Continue with the current state. -/
def M.look {α β : Type} (f : St α → M α β) : M α β := fun s => f s s

/-- Put a file at once. -/
def put {α : Type} (n c : Str) (s : St α) : St α := { s with disk := s.disk.put n c }

/-- `open(n, "w").write(c)`: first empty, then growing. -/
def writeFile {α : Type} (n c : Str) : M α Unit := fun s =>
  ((List.range (c.length + 1)).map (fun k => put n (c.take k) s), .ok ())

/-- `fetch_url` into the directory, pisi/fetcher.py:131-180. -/
def fetch {α : Type} (n : Str) : Option Str → M α Unit
  | none => M.throw .fetch
  | some [] => M.throw .fetch
  | some c => M.step (put n c)

/-- `readlines()[0]` of a file that is not empty. -/
def firstLine (c : Str) : Str := c.takeWhile (· ≠ '\n') ++ (if '\n' ∈ c then ['\n'] else [])

/-- Suffixes. -/
def dotBz2 : Str := ['.', 'b', 'z', '2']
/-- Suffixes. -/
def dotGz : Str := ['.', 'g', 'z']
/-- Suffixes. -/
def dotSha : Str := ['.', 's', 'h', 'a', '1', 's', 'u', 'm']
/-- Suffixes. -/
def dotSig : Str := ['.', 's', 'i', 'g']
/-- The file with the address, pisi/data/index.py:66. -/
def uriFile : Str := ['u', 'r', 'i']

/-- `localfile[:-4]`. -/
def dropBz2 (F : Str) : Str := F.take (F.length - 4)

/-- `File.decompress(F, File.auto)`, pisi/file.py:70-91: the name of the resulting file.  The output is opened before the input is
read. -/
def decompress {α : Type} (T : Tools α) (F : Str) : M α Str :=
  if suffix dotBz2 F then
    if dropBz2 F = [] then M.throw .io
    else M.look fun s => match (s.disk.get F).bind T.bunzip with
      | none => M.bind (M.step (put (dropBz2 F) [])) fun _ => M.throw .io
      | some c => M.bind (writeFile (dropBz2 F) c) fun _ => M.ret (dropBz2 F)
  else if suffix dotGz F then M.throw .gzip
  else M.ret F

/-- Fetching of the file and the test of its hash, pisi/file.py:117-136. -/
def fetchChecked {α : Type} (T : Tools α) (net : Net) (F : Str) (newsha : Option Str) : M α Unit :=
  M.bind (fetch F net.idx) fun _ => M.look fun s => match newsha with
    | none => M.ret ()
    | some h => if (s.disk.get F).map T.sha = some h then M.ret () else M.throw .integrity

/-- `File.download` with `compress=File.auto`, pisi/file.py:93-140. -/
def download {α : Type} (T : Tools α) (net : Net) (F : Str) (sha1sum : Bool) : M α Str :=
  if sha1sum then
    M.bind (fetch (F ++ dotSha) net.hash) fun _ => M.look fun s =>
      let newsha := firstLine ((s.disk.get (F ++ dotSha)).getD [])
      if (s.disk.get F).map T.sha = some newsha then M.throw .alreadyHave
      else M.bind (fetchChecked T net F (some newsha)) fun _ => decompress T F
  else M.bind (fetchChecked T net F none) fun _ => decompress T F

/-- `read_uri_of_repo`, pisi/data/index.py:58-79, with `autoxml.read`. -/
def readUri {α : Type} (T : Tools α) (net : Net) (F uri : Str) (force : Bool) : M α α :=
  M.bind (writeFile uriFile uri) fun _ => M.bind (download T net F !force) fun n => M.look fun s =>
    match (s.disk.get n).bind T.parse with
    | some ix => M.ret ix
    | none => M.throw .xml

/-- `check_signature`, pisi/file.py:210-218, and its call, pisi/op/repo.py:68-71: any failure to get the signature is only a
warning. -/
def checkSignature {α : Type} (T : Tools α) (net : Net) (F : Str) : M α Unit :=
  M.bind (M.catch (M.bind (fetch (F ++ dotSig) net.sig) fun _ => M.ret true) .fetch (M.ret false)) fun got =>
    M.look fun s => if got && !T.verify ((s.disk.get F).getD []) ((s.disk.get (F ++ dotSig)).getD []) then M.throw .invalidSignature else M.ret ()

/-- The rest of `update_repo` when the index has been read, pisi/op/repo.py:68-74. -/
def enter {α : Type} (T : Tools α) (net : Net) (F : Str) (ix : α) : M α Told :=
  M.bind (checkSignature T net F) fun _ => M.bind (M.step fun s => { s with db := some ix }) fun _ => M.ret .updated

/-- `update_repo(repo, force)`, pisi/op/repo.py:53-76. -/
def updateRepo {α : Type} (T : Tools α) (net : Net) (F uri : Str) (force : Bool) : M α Told :=
  M.bind (M.catch (M.bind (readUri T net F uri false) fun ix => M.ret (some ix)) .alreadyHave
      (if force then M.bind (readUri T net F uri true) fun ix => M.ret (some ix) else M.ret none)) fun r => match r with
    | none => M.ret .noUpdates
    | some ix => enter T net F ix

/-- `rebuild_repo(repo)`, pisi/op/repo.py:78-97: the index is read from a copy of the file in the directory; `IOError` is only a
warning. -/
def rebuildRepo {α : Type} (T : Tools α) (F : Str) : M α Unit := M.look fun s =>
  let c := if suffix dotBz2 F then (if dropBz2 F = [] then none else (s.disk.get F).bind T.bunzip) else s.disk.get F
  if suffix dotBz2 F = false ∧ suffix dotGz F then M.throw .gzip
  else match c with
    | none => M.ret ()
    | some c => match T.parse c with
      | none => M.throw .xml
      | some ix => M.step fun s => { s with db := some ix }

/-! ## Histories -/

/-- A command: what the server answers, the option, and where it was killed (after so many states). -/
structure Cmd where
  net : Net
  force : Bool
  cut : Option Nat

/-- The states and the result. -/
def Cmd.run {α : Type} (T : Tools α) (F uri : Str) (c : Cmd) (s : St α) : List (St α) × Except UErr Told :=
  updateRepo T c.net F uri c.force s

/-- The state afterwards. -/
def Cmd.after {α : Type} (T : Tools α) (F uri : Str) (c : Cmd) (s : St α) : St α := match c.cut with
  | none => lastOf s (c.run T F uri s).1
  | some k => lastOf s ((c.run T F uri s).1.take k)

/-- A history. -/
def hist {α : Type} (T : Tools α) (F uri : Str) (cs : List Cmd) (s : St α) : St α := cs.foldl (fun s c => c.after T F uri s) s

/-! ## Publishing -/

/-- `File(out, File.write, sha1sum=True, compress=File.bz2, sign)` with `write(x)` and `close()`, pisi/file.py:142-207, as used
by `index`, pisi/op/index.py:43-46: the files of the server.  (`signing`: gpg succeeds.) -/
def publish {α : Type} (T : Tools α) (out x : Str) (signing : Bool) (srv : Dict Str Str) : Dict Str Str :=
  let bz := out ++ dotBz2
  let srv := (srv.put out x).put bz (T.bzip x)
  let srv := (srv.put (out ++ dotSha) (T.sha x)).put (bz ++ dotSha) (T.sha (T.bzip x))
  if signing then (srv.put (out ++ dotSig) (T.sign x)).put (bz ++ dotSig) (T.sign (T.bzip x)) else srv

/-- A server with these files. -/
def serve (srv : Dict Str Str) (F : Str) : Net := ⟨srv.get (F ++ dotSha), srv.get F, srv.get (F ++ dotSig)⟩

end Pisi.Repo
