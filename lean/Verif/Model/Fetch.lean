import Verif.Model.FS

/-!
# Model of pisi/fetcher.py, pisi/mirrors.py, and pisi/sourcearchive.py

The network is a function from URLs to servers; what a server sends is arbitrary.  The behaviour of `urlgrab` that is assumed:
without `reget` it requests the whole file and then opens the target for writing; with `reget='simple'` it requests the
file from the size of the target onward and opens the target for appending; an error is raised as `URLGrabError`, with what has
been written up to then left in place.  Permissions are not modelled, nor are the progress display, proxies, authentication and
the bandwidth limit.  URLs have no parameters, queries or fragments.
-/
namespace Pisi.Fetch
open Pisi.FS

/-- What `urllib2.urlopen` does in `_test_range_support`. -/
inductive Probe where
  /-- raises `URLError` -/
  | urlError
  /-- raises something else -/
  | other
  /-- answers, with or without `Content-Length` -/
  | answers (length : Bool)
  deriving DecidableEq

/-- A URL on the network: the answer to the probe, and the answer to a request from an offset on: none, or the data that arrive
and whether the transfer ends regularly. -/
structure Server where
  probe : Probe
  serve : Nat → Option (Str × Bool)

/-- The network during one fetch. -/
abbrev Net := Str → Server

/-- Append data to a file of content `c`; may be cut off anywhere by a crash. -/
def appendFile (fs : FS) (p c data : Str) : Tr FS :=
  if isDir fs (dirname p) then
    ((List.range (data.length + 1)).map (fun k => fs.put p (.file (c ++ data.take k))), .ok (fs.put p (.file (c ++ data))))
  else ([], .error .os)

/-- `urlgrab` into `p`, continuing content `c` that is already there. -/
def grab (sv : Server) (fs : FS) (p c : Str) : Tr FS := match sv.serve c.length with
  | none => ([], .error .fetch)
  | some (data, done) => Tr.bind (appendFile fs p c data) (fun fs => if done then ([], .ok fs) else ([], .error .fetch))

/-- `fetchRemoteFile`, pisi/fetcher.py:241-255, with `_test_range_support`, 293-313. -/
def fetchRemote (sv : Server) (fs : FS) (p : Str) : Tr FS := match stat fs p with
  | none => grab sv fs p []
  | some node => match sv.probe with
    | .other => ([], .error .other)
    | .urlError => Tr.bind (Tr.atomic (unlink fs p)) (fun fs => grab sv fs p [])
    | .answers false => Tr.bind (Tr.atomic (unlink fs p)) (fun fs => grab sv fs p [])
    | .answers true => match node with
      | .file c => grab sv fs p c
      | _ => ([], .error .os)

/-- `fetchLocalFile`, pisi/fetcher.py:230-239, with `_do_grab`, 182-224. -/
def fetchLocal (fs : FS) (src p : Str) : Tr FS :=
  if existsP fs src then
    Tr.bind (writeFile fs p []) (fun fs => match stat fs src with
      | some (.file c) => writeFile fs p c
      | _ => ([], .error .os))
  else ([], .error .fetch)

/-- The last part of `fetch`, pisi/fetcher.py:174-178.  A directory in the place of the destination makes `move` fail. -/
def finish (fs : FS) (p dest : Str) : Tr FS := match stat fs p with
  | none => ([], .error .os)
  | some (.file []) => Tr.bind (Tr.atomic (unlink fs p)) (fun _ => ([], .error .fetch))
  | some _ => Tr.atomic (rename fs p dest)

/-- `archive_file + '.part'`, pisi/fetcher.py:164. -/
def part (dest : Str) : Str := dest ++ ['.', 'p', 'a', 'r', 't']

/-! ## URLs and mirrors -/

/-- The kinds of URL that `fetch` distinguishes. -/
inductive Kind where
  | mirror (name archive : Str)
  | loc (path : Str)
  | remote
  deriving DecidableEq

/-- The part of `s` behind the prefix `p`. -/
def after : Str → Str → Option Str
  | [], s => some s
  | _ :: _, [] => none
  | a :: p, c :: s => if a = c then after p s else none

/-- `URI.is_mirror` and `is_local_file`, pisi/uri.py:64-74, and the splitting of mirror URLs, pisi/fetcher.py:364-367.  A URL is
local when it has the scheme `file` (and no host) or no scheme. -/
def kind (u : Str) : Kind := match after "mirrors://".toList u with
  | some r => .mirror (r.takeWhile (· ≠ '/')) ((r.dropWhile (· ≠ '/')).drop 1)
  | none => match after "file://".toList u with
    | some r => .loc r
    | none => if ':' ∈ u then .remote else .loc u

/-- `URI.filename`: `basename(path)`, pisi/uri.py:56. -/
def filename (u : Str) : Str := (u.reverse.takeWhile (· ≠ '/')).reverse

/-- `str.split()`; `w` is the word read so far. -/
def splitLoop (w : Str) : Str → List Str
  | [] => if w = [] then [] else [w]
  | c :: s => if isSpace c then (if w = [] then splitLoop [] s else w :: splitLoop [] s) else splitLoop (w ++ [c]) s

/-- One line of the mirrors file, pisi/mirrors.py:44-48, with `_add_mirror`, 34-38. -/
def addLine (d : Dict Str (List Str)) (line : Str) : Dict Str (List Str) :=
  if line.head? = some '#' then d else match splitLoop [] line with
  | [name, url] => d.put name ((d.get name).getD [] ++ [url])
  | _ => d

/-- `Mirrors._parse`, pisi/mirrors.py:41-51; the lines are given without the line ends, which `strip` removes. -/
def parseMirrors (lines : List Str) : Dict Str (List Str) := lines.foldl addLine []

/-- `Mirrors().get_mirrors(name)`, pisi/mirrors.py:28-32; `conf` is the mirrors file, if there is one. -/
def getMirrors (conf : Option (List Str)) (name : Str) : Except FErr (Option (List Str)) := match conf with
  | none => .error .pisi
  | some lines => .ok ((parseMirrors lines).get name)

/-- The state in which a computation ends. -/
def final {β : Type} (fs : FS) (x : Tr β) : FS := x.1.getLast?.getD fs

/-- The loop of `fetchFromMirror`, pisi/fetcher.py:373-382, over the URLs to be tried. -/
def mirrorLoop (f : FS → Str → Tr FS) : FS → List Str → Tr FS
  | _, [] => ([], .error .fetch)
  | fs, u :: us => match (f fs u).2 with
    | .ok fs' => ((f fs u).1, .ok fs')
    | .error .fetch => ((f fs u).1 ++ (mirrorLoop f (final fs (f fs u)) us).1, (mirrorLoop f (final fs (f fs u)) us).2)
    | .error e => ((f fs u).1, .error e)

/-- `fetchFromMirror`, pisi/fetcher.py:363-382.  Without mirrors of the name, line 371 raises `Error`, which is not defined. -/
def fetchMirror (conf : Option (List Str)) (f : FS → Str → Tr FS) (fs : FS) (name archive : Str) : Tr FS :=
  match getMirrors conf name with
  | .error e => ([], .error e)
  | .ok none => ([], .error .nameErr)
  | .ok (some []) => ([], .error .nameErr)
  | .ok (some ms) => mirrorLoop f fs (ms.map (fun m => Path.joinPath m [archive]))

/-- `os.path.join(destdir, filename)`, pisi/fetcher.py:159, for a directory that does not end in a slash. -/
def target (destdir u : Str) : Str := destdir ++ '/' :: filename u

/-- `Fetcher(u, destdir).fetch()`, pisi/fetcher.py:131-180.  A mirror may itself be given as a mirror URL; `n` bounds the depth,
beyond which Python's recursion limit is reached.  The directory given to the mirrors is `destdir` (line 378). -/
def fetch (net : Net) (conf : Option (List Str)) (destdir : Str) : Nat → FS → Str → Tr FS
  | 0, _, _ => ([], .error .other)
  | n + 1, fs, u =>
    Tr.bind (checkDir fs destdir) (fun fs =>
      if filename u = [] then ([], .error .fetch)
      else match kind u with
        | .mirror name archive => fetchMirror conf (fetch net conf destdir n) fs name archive
        | .loc src => Tr.bind (fetchLocal fs src (part (target destdir u))) (fun fs =>
            finish fs (part (target destdir u)) (target destdir u))
        | .remote => Tr.bind (fetchRemote (net u) fs (part (target destdir u))) (fun fs =>
            finish fs (part (target destdir u)) (target destdir u)))

/-! ## Source archives -/

/-- `SourceArchive.is_cached`, pisi/sourcearchive.py:52-63, with `check_file_hash`, pisi/util/fs.py:197-199. -/
def isCached (sha : Str → Str) (fs : FS) (file sum : Str) : Except FErr Bool :=
  if existsP fs file then match sha1File sha fs file with
    | none => .error .file
    | some h => .ok (h = sum)
  else .ok false

/-- `SourceArchive.fetch`, pisi/sourcearchive.py:44-50; `get` is `fetch_url`. -/
def fetchSource (sha : Str → Str) (get : FS → Tr FS) (fs : FS) (file sum : Str) : Tr FS := match isCached sha fs file sum with
  | .error e => ([], .error e)
  | .ok true => ([], .ok fs)
  | .ok false => get fs

/-- `SourceArchive.unpack`, pisi/sourcearchive.py:65-77; `go` is what follows the check, given the archive. -/
def unpackSource (sha : Str → Str) (go : FS → Tr FS) (fs : FS) (file sum : Str) : Tr FS := match sha1File sha fs file with
  | none => ([], .error .file)
  | some h => if h = sum then go fs else ([], .error .pisi)

end Pisi.Fetch
