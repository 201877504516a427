import Verif.Model.FS

/-!
# Several processes at the databases

pisi/db/lockeddbshelve.py:37-177, pisi/api.py:85-130, pisi/op/rebuilddb.py:117-129, 147-162 and pisi/util/fs.py:348-354.

A process is the list of the atomic actions it still has to do; an execution is a list of events in which any process may do
its next action, start, be killed or fork.  The kernel's part is modelled as documented in flock(2): a lock belongs to an open
file, that is to an inode and to all processes sharing the descriptor; it is given back when the last of them closes it or ends.

Simplifications: the database directory is readable and writable; an exception ends the process (the command line exits);
versions are numbers, as only their order matters; the contents of a database are reduced to the version of the program that
created it; removing one database and opening one database are atomic.
-/
namespace Pisi.DbEnv

/-- A process number. -/
abbrev Pid := Nat

/-- The two version files, `dbversion` and `filesdbversion`. -/
inductive Grp where
  | main
  | files
  deriving DecidableEq

/-- The lock files: `dbenv.lock`, pisi/db/lockeddbshelve.py:71, and `<database>.bdb.lock`, line 161. -/
inductive Lk where
  | env
  | db (d : Str)
  deriving DecidableEq

/-- Atomic actions. -/
inductive Act where
  /-- is `filesdbversion` current? pisi/op/rebuilddb.py:148-151 -/
  | probe
  /-- the tests of `check_dbversion`, pisi/db/lockeddbshelve.py:40-59 -/
  | check (g : Grp) (write update : Bool)
  /-- `file(verfn, 'w')`, line 62 -/
  | trunc (g : Grp)
  /-- `write(ver)` and `close()`, lines 63-64 -/
  | writeVer (g : Grp)
  /-- `file(name, 'w')`, lines 71 and 161 -/
  | openLk (l : Lk)
  /-- `fcntl.flock(f, LOCK_EX | LOCK_NB)`, lines 73 and 163 -/
  | flock (l : Lk)
  /-- `f.close()`, line 176 and pisi/api.py:130 -/
  | closeLk (l : Lk)
  /-- `os.unlink(name)`, line 177 -/
  | unlinkLk (l : Lk)
  /-- `dbenv.open`, line 98 -/
  | openEnv
  /-- `dbenv.close()`, pisi/api.py:129 -/
  | closeEnv
  /-- `db.open`, line 158, read-only or not -/
  | openDb (d : Str) (ro : Bool)
  /-- `db.close()`, line 170 -/
  | closeDb (d : Str)
  /-- `dbenv.dbremove`, pisi/op/rebuilddb.py:117-129 -/
  | destroy (d : Str)
  /-- what the command does with the open databases -/
  | work
  deriving DecidableEq

/-- A process. -/
structure Proc where
  alive : Bool := false
  /-- what it still has to do -/
  prog : List Act := []
  /-- `pisi.__dbversion__` and `pisi.__filesdbversion__` -/
  ver : Grp → Nat := fun _ => 0
  /-- the flag `files` of `rebuild_db` -/
  files : Bool := false
  /-- the lock files it has opened: their inodes -/
  fds : Lk → Option Nat := fun _ => none
  /-- it has the environment open -/
  envOpen : Bool := false
  /-- the databases it has open for writing -/
  dbOpen : List Str := []

/-- The machine. -/
structure Sys where
  /-- a version file: missing, empty or with a version -/
  verFile : Grp → Option (Option Nat) := fun _ => none
  /-- a database: missing, or the version of the program that created it -/
  fmt : Str → Option Nat := fun _ => none
  /-- the inodes of the lock files -/
  names : Lk → Option Nat := fun _ => none
  /-- the next inode -/
  next : Nat := 0
  /-- the processes sharing the descriptor that has the lock of an inode -/
  lockedBy : Nat → List Pid := fun _ => []
  procs : Pid → Proc := fun _ => {}
  /-- whenever a database was opened: the version of the program and of the database -/
  log : List (Nat × Nat) := []

/-- Change of a function at one place. -/
def upd {α β : Type} [DecidableEq α] (f : α → β) (a : α) (b : β) : α → β := fun x => if x = a then b else f x

/-- Change of a process. -/
def Sys.setProc (s : Sys) (p : Pid) (q : Proc) : Sys := { s with procs := upd s.procs p q }

/-- The end of a process: the kernel closes its files. -/
def Sys.die (s : Sys) (p : Pid) : Sys :=
  { s with procs := upd s.procs p {}, lockedBy := fun i => (s.lockedBy i).filter (· ≠ p) }

/-- What `check_dbversion(versionfile, ver, write, update)` decides, pisi/db/lockeddbshelve.py:40-68: `none` is an exception,
otherwise whether the version is to be written. -/
def checkVersion (f : Option (Option Nat)) (v : Nat) (write update : Bool) : Option Bool := match f with
  | some none => none
  | some (some c) =>
    if c < v then (if update && write then some true else none)
    else if v < c then none
    else if !update then some false
    else if write then some true else none
  | none => if write then some true else none

variable (grp : Str → Grp)

/-- One action of process `p`, whose remaining actions afterwards are `rest`. -/
def act (s : Sys) (p : Pid) (a : Act) (rest : List Act) : Sys :=
  let q := { s.procs p with prog := rest }
  match a with
  | .probe => s.setProc p { q with files := q.files || checkVersion (s.verFile .files) (q.ver .files) false false != some false }
  | .check g w u => match checkVersion (s.verFile g) (q.ver g) w u with
    | none => s.die p
    | some false => s.setProc p q
    | some true => s.setProc p { q with prog := .trunc g :: .writeVer g :: rest }
  | .trunc g => { s.setProc p q with verFile := upd s.verFile g (some none) }
  | .writeVer g => { s.setProc p q with verFile := upd s.verFile g (some (some (q.ver g))) }
  | .openLk l => match s.names l with
    | some i => s.setProc p { q with fds := upd q.fds l (some i) }
    | none =>
      { s.setProc p { q with fds := upd q.fds l (some s.next) } with names := upd s.names l (some s.next), next := s.next + 1 }
  | .flock l => match q.fds l with
    | none => s.die p
    | some i => if s.lockedBy i = [] then { s.setProc p q with lockedBy := upd s.lockedBy i [p] } else s.die p
  | .closeLk l => match q.fds l with
    | none => s.die p
    | some i =>
      { s.setProc p { q with fds := upd q.fds l none } with lockedBy := upd s.lockedBy i ((s.lockedBy i).filter (· ≠ p)) }
  | .unlinkLk l => match s.names l with
    | none => s.die p
    | some _ => { s.setProc p q with names := upd s.names l none }
  | .openEnv => s.setProc p { q with envOpen := true }
  | .closeEnv => s.setProc p { q with envOpen := false }
  | .openDb d true => match s.fmt d with
    | none => s.die p
    | some f => { s.setProc p q with log := s.log ++ [(q.ver (grp d), f)] }
  | .openDb d false =>
    let f := (s.fmt d).getD (q.ver (grp d))
    { s.setProc p { q with dbOpen := d :: q.dbOpen } with fmt := upd s.fmt d (some f), log := s.log ++ [(q.ver (grp d), f)] }
  | .closeDb d => s.setProc p { q with dbOpen := q.dbOpen.filter (· ≠ d) }
  | .destroy d =>
    if grp d = .files ∧ q.files = false then s.setProc p q
    else { s.setProc p q with fmt := upd s.fmt d none }
  | .work => s.setProc p q

/-- What a process does. -/
inductive Kind where
  /-- `api.init(write=False)` … `api.finalize()` -/
  | read
  /-- `api.init(write=True)` … `api.finalize()` -/
  | write
  /-- `rebuild_db(files)` -/
  | rebuild (files : Bool)

variable (dbs : List Str)

/-- A command that only reads, pisi/db/lockeddbshelve.py:79-102, 120-124. -/
def readProg : List Act :=
  [.check .main false false, .check .files false false] ++ dbs.map (fun d => .openDb d true) ++ [.work]

/-- Opening the databases, `LockedDBShelf.open`, pisi/db/lockeddbshelve.py:135-165. -/
def openDbs : List Act := dbs.flatMap fun d => [.openLk (.db d), .flock (.db d), .openDb d false]

/-- Closing the databases, `LockedDBShelf.close`, pisi/db/lockeddbshelve.py:167-177. -/
def closeDbs : List Act := dbs.flatMap fun d => [.closeDb d, .closeLk (.db d), .unlinkLk (.db d)]

/-- A command that writes: `init`, pisi/api.py:85-95, and `finalize`, lines 113-130. -/
def writeProg : List Act :=
  [.check .main true false, .check .files true false, .openLk .env, .flock .env, .openEnv] ++
    (openDbs dbs ++ (.work :: (closeDbs dbs ++ [.closeEnv, .closeLk .env])))

/-- `rebuild_db`, pisi/op/rebuilddb.py:147-162: the versions are written, the databases destroyed, PiSi shut down and started
again.  (What the reconstruction does then is the subject of `Model/Rebuild.lean`.) -/
def rebuildProg : List Act :=
  [.probe, .check .main true true, .check .files true true, .openLk .env, .flock .env, .openEnv] ++
    (dbs.map .destroy ++ (.closeEnv :: .closeLk .env :: writeProg dbs))

/-- The program of a command. -/
def Kind.prog : Kind → List Act
  | .read => readProg dbs
  | .write => writeProg dbs
  | .rebuild _ => rebuildProg dbs

/-- The option `--files`. -/
def Kind.files : Kind → Bool
  | .rebuild f => f
  | _ => false

/-- What may happen next. -/
inductive Ev where
  /-- process `p`, not busy with PiSi, starts a command of a PiSi of the given versions -/
  | start (p : Pid) (k : Kind) (ver : Grp → Nat)
  /-- process `p` does its next action -/
  | run (p : Pid)
  /-- process `p` ends or is killed, at any time -/
  | exit (p : Pid)
  /-- `p` starts another program as process `c`; the open files are inherited, pisi/util/process.py:30, 68 -/
  | fork (p c : Pid)
  /-- `pisi clean` in the database directory, pisi/util/fs.py:348-354 -/
  | clean

/-- What an event does to the machine; impossible events do nothing. -/
def step (s : Sys) : Ev → Sys
  | .start p k ver =>
    if (s.procs p).prog = [] then
      s.setProc p { s.procs p with alive := true, prog := k.prog dbs, ver := ver, files := k.files }
    else s
  | .run p => match (s.procs p).prog with
    | [] => s
    | a :: rest => act grp s p a rest
  | .exit p => s.die p
  | .fork p c =>
    if (s.procs p).alive = true ∧ (s.procs c).alive = false then
      { s.setProc c { alive := true } with lockedBy := fun i => if p ∈ s.lockedBy i then c :: s.lockedBy i else s.lockedBy i }
    else s
  | .clean => { s with names := fun _ => none }

/-- An execution. -/
def exec (s : Sys) (es : List Ev) : Sys := es.foldl (step grp dbs) s

end Pisi.DbEnv
