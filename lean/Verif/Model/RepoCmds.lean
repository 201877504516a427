import Verif.Model.PackageDB
import Verif.Model.ActionsFS

/-!
# Model of the commands add-repo, remove-repo, update-repo and list-repo (pisi/cli/repo.py, pisi/op/repo.py)

What reading the index of one repository does (files, hashes, signatures) is the subject of `Verif/Model/RepoUpdate.lean`; here it is an
answer that may be anything.  The messages are left out, and so is what reading an index writes into the directory of the repository.
-/
namespace Pisi.RepoCmd
open Pisi.DB
variable {α ρ : Type} [DecidableEq α]

/-- What comes of `index.read_uri_of_repo` and `index.check_signature` for one repository, pisi/op/repo.py:59-73: an index, and
whether the signature is fine or missing; `AlreadyHaveException`, and what comes of reading with `force`; any other exception. -/
inductive Answer (α : Type) where
  | got (ix : Index α) (signed : Bool)
  | already (again : Option (Index α × Bool))
  | fails

/-- Errors that end a command. -/
inductive CErr where
  /-- the index could not be read -/
  | read
  /-- the signature is not valid -/
  | signature
  /-- `Error('No repository named %s found.')`, pisi/op/repo.py:78 -/
  | noRepo
  /-- `Error('Repo %s already present.')`, pisi/op/repo.py:35 -/
  | present
  /-- from the databases -/
  | db (e : RErr)

/-- pisi/op/repo.py:70-75: the signature is checked and the index put into the databases. -/
def enter (y : System α ρ) (n : Str) (ix : Index α) (signed : Bool) : Except CErr (System α ρ) :=
  if signed then match y.updateRepo n ix with
    | some (.ok y') => .ok y'
    | some (.error e) => .error (.db e)
    | none => .error .noRepo
  else .error .signature

/-- `update_repo`, pisi/op/repo.py:53-78. -/
def updateOne (force : Bool) (y : System α ρ) (n : Str) (a : Answer α) : Except CErr (System α ρ) :=
  if y.repos.hasRepo n then match a with
    | .got ix signed => enter y n ix signed
    | .already again =>
      if force then match again with
        | some (ix, signed) => enter y n ix signed
        | none => .error .read
      else .ok y
    | .fails => .error .read
  else .error .noRepo

/-- The loop of `update-repo`, pisi/cli/repo.py:124-126: an exception ends it; what has been done stays. -/
def updateLoop (force : Bool) : List (Str × Answer α) → System α ρ → System α ρ × Option CErr
  | [], y => (y, none)
  | (n, a) :: l, y => match updateOne force y n a with
    | .ok y' => updateLoop force l y'
    | .error e => (y, some e)

/-- The names `update-repo` goes through, pisi/cli/repo.py:119-122. -/
def updateNames (args : List Str) (y : System α ρ) : List Str :=
  if args = [] then y.repos.order.getD [] else args

/-- `update-repo`, pisi/cli/repo.py:116-127; `net` has the answers, the repository and how many have been asked before decide. -/
def updateCmd (force : Bool) (net : Nat → Str → Answer α) (args : List Str) (y : System α ρ) : System α ρ × Option CErr :=
  updateLoop force ((updateNames args y).zipIdx.map fun x => (x.1, net x.2 x.1)) y

/-- The databases and the places of all files and directories; no links. -/
structure State (α ρ : Type) where
  sys : System α ρ
  disk : List (List Str)

/-- Where a path leads to, `..` goes up. -/
def place (s : Str) : List Str := (Act.comps s).foldl (fun l c => if c = Act.dotdot then l.dropLast else l ++ [c]) []

/-- `clean_dir`, pisi/util/fs.py:45-49 -/
def cleanDir (p : Str) (disk : List (List Str)) : List (List Str) := disk.filter fun x => ¬ (place p).isPrefixOf x

/-- `remove_repo`, pisi/op/repo.py:41-48; `dir` is `ctx.config.index_dir()`.  An unknown name gives a message only. -/
def removeOne (dir : Str) (s : State α ρ) (n : Str) : Except CErr (State α ρ) :=
  if s.sys.repos.hasRepo n then match s.sys.removeRepo n with
    | .ok y => .ok ⟨y, cleanDir (Act.osJoin dir n) s.disk⟩
    | .error e => .error (.db e)
  else .ok s

/-- `remove-repo`, pisi/cli/repo.py:85-92. -/
def removeCmd (dir : Str) (names : List Str) (s : State α ρ) : Except CErr (State α ρ) := forM' (removeOne dir) names s

/-- `add-repo`, pisi/cli/repo.py:52-67 with `add_repo`, pisi/op/repo.py:33-39: `yes` is the answer to the question whether to update. -/
def addCmd (net : Answer α) (yes : Bool) (n : Str) (uri : ρ) (pos : Option Int) (y : System α ρ) : System α ρ × Option CErr :=
  if y.repos.hasRepo n then (y, some .present)
  else match y.repos.addRepo n uri pos with
    | .error e => (y, some (.db e))
    | .ok d =>
      let y' := { y with repos := d }
      if yes then match updateOne false y' n net with
        | .ok y'' => (y'', none)
        | .error e => (y', some e)
      else (y', none)

/-- `list-repo`, pisi/cli/repo.py:143-149: the lines that are shown. -/
def listCmd (y : System α ρ) : Except RErr (List (Str × ρ)) :=
  match y.repos.list with
  | .error e => .error e
  | .ok l => l.mapM fun n => match y.repos.getRepo n with
    | .ok x => .ok (n, x)
    | .error e => .error e

end Pisi.RepoCmd
