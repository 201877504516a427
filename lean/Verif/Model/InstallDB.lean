import Verif.Model.Dict

/-!
# Model of pisi/db/install.py

Calls `self.d.get(pkg, txn)` pass the transaction as the *default* argument of Berkeley DB's `get`
(pisi/db/dbshelve.py:199-209), so a missing key yields the transaction object: assigning to its `state`
raises `AttributeError` and pickling it raises `TypeError`.  An operation that raises leaves the state unchanged
(`DBShelf.txn_proc` aborts, see `Verif/Model/Txn.lean`).
-/
namespace Pisi.DB

/-- `InstallInfo.state`, pisi/db/install.py:59-60 ('p' is never stored). -/
inductive InstState where
  /-- 'i' -/
  | i
  /-- 'ip' -/
  | ip
  /-- 'r' -/
  | r
  deriving DecidableEq

/-- `InstallInfo`, pisi/db/install.py:38-50: state and the recorded version, release, build and distribution (`ν`). The
time stamp is left out. -/
structure InstInfo (ν : Type) where
  state : InstState
  ver : ν
  deriving DecidableEq

/-- `InstallDB`, pisi/db/install.py:75-78: `d` and `dp` ('configpending', value always `True`). -/
structure InstallDB (α ν : Type) where
  d : Dict α (InstInfo ν) := []
  dp : Dict α Unit := []

/-- Errors of the install database. -/
inductive InstErr where
  /-- `InstallDBError("Already installed")`, pisi/db/install.py:155 -/
  | already
  /-- `AttributeError` on the transaction object, pisi/db/install.py:191 -/
  | attribute
  /-- failed `assert`, pisi/db/install.py:181 -/
  | assertion
  /-- `TypeError`: `decode(None)` in `__getitem__` (pisi/db/dbshelve.py:130-134), or pickling the transaction -/
  | typeErr
  /-- `DBNotFoundError` of Berkeley DB's `delete` -/
  | dbNotFound
  deriving DecidableEq

namespace InstallDB
variable {α ν : Type} [DecidableEq α]

/-- `is_recorded`, pisi/db/install.py:99-103. -/
def isRecorded (s : InstallDB α ν) (p : α) : Bool := s.d.has p

/-- `info.state=='i' or info.state=='ip'`, pisi/db/install.py:110,119. -/
def counts (x : InstInfo ν) : Bool := x.state = .i || x.state = .ip

/-- `is_installed`, pisi/db/install.py:105-113. -/
def isInstalled (s : InstallDB α ν) (p : α) : Bool :=
  match s.d.get p with
  | some x => counts x
  | none => false

/-- `list_installed`, pisi/db/install.py:115-122. -/
def listInstalled (s : InstallDB α ν) : List α := (s.d.filter (fun e => counts e.2)).map Prod.fst

/-- `self.d[pkg]`, pisi/db/dbshelve.py:130-134. -/
def getItem (s : InstallDB α ν) (p : α) : Except InstErr (InstInfo ν) :=
  match s.d.get p with
  | some x => .ok x
  | none => .error .typeErr

/-- The loop of `list_pending`. -/
def collect (s : InstallDB α ν) : List α → Except InstErr (Dict α (InstInfo ν))
  | [] => .ok []
  | p :: ps => match s.getItem p with
    | .error e => .error e
    | .ok x => match collect s ps with
      | .error e => .error e
      | .ok l => .ok ((p, x) :: l)

/-- `list_pending`, pisi/db/install.py:124-130. -/
def listPending (s : InstallDB α ν) : Except InstErr (Dict α (InstInfo ν)) := s.collect s.dp.keys

/-- `get_info`, pisi/db/install.py:132-134. -/
def getInfo (s : InstallDB α ν) (p : α) : Except InstErr (InstInfo ν) := s.getItem p

/-- `get_version`, pisi/db/install.py:136-139. -/
def getVersion (s : InstallDB α ν) (p : α) : Except InstErr ν :=
  match s.getItem p with
  | .ok x => .ok x.ver
  | .error e => .error e

/-- `is_removed`, pisi/db/install.py:141-147. -/
def isRemoved (s : InstallDB α ν) (p : α) : Bool :=
  match s.d.get p with
  | some x => x.state = .r
  | none => false

/-- `install`, pisi/db/install.py:149-174. -/
def install (s : InstallDB α ν) (p : α) (v : ν) (configLater : Bool) : Except InstErr (InstallDB α ν) :=
  if s.isInstalled p then .error .already
  else if configLater then .ok { d := s.d.put p ⟨.ip, v⟩, dp := s.dp.put p () }
  else .ok { s with d := s.d.put p ⟨.i, v⟩ }

/-- `clear_pending`, pisi/db/install.py:176-185. -/
def clearPending (s : InstallDB α ν) (p : α) : Except InstErr (InstallDB α ν) :=
  match s.d.get p with
  | none => .error .typeErr
  | some x =>
    if s.isInstalled p then
      if x.state = .ip then
        if s.dp.has p then .ok { d := s.d.put p ⟨.i, x.ver⟩, dp := s.dp.del p } else .error .dbNotFound
      else .error .assertion
    else if s.dp.has p then .ok { d := s.d.put p x, dp := s.dp.del p } else .error .dbNotFound

/-- `remove`, pisi/db/install.py:187-193. -/
def remove (s : InstallDB α ν) (p : α) : Except InstErr (InstallDB α ν) :=
  match s.d.get p with
  | none => .error .attribute
  | some x => .ok { s with d := s.d.put p ⟨.r, x.ver⟩ }

/-- `purge`, pisi/db/install.py:195-200. -/
def purge (s : InstallDB α ν) (p : α) : Except InstErr (InstallDB α ν) :=
  if s.d.has p then .ok { s with d := s.d.del p } else .ok s

end InstallDB

/-- Updating operations of the install database. -/
inductive InstOp (α ν : Type) where
  | install (p : α) (v : ν) (later : Bool)
  | clear (p : α)
  | remove (p : α)
  | purge (p : α)

variable {α ν : Type} [DecidableEq α]

/-- The operation itself. -/
def InstOp.apply (s : InstallDB α ν) : InstOp α ν → Except InstErr (InstallDB α ν)
  | .install p v l => s.install p v l
  | .clear p => s.clearPending p
  | .remove p => s.remove p
  | .purge p => s.purge p

/-- An operation that raises leaves the state unchanged. -/
def InstOp.step (s : InstallDB α ν) (op : InstOp α ν) : InstallDB α ν :=
  match op.apply s with
  | .ok s' => s'
  | .error _ => s

/-- The state after a history. -/
def InstOp.run (ops : List (InstOp α ν)) : InstallDB α ν := ops.foldl InstOp.step {}

end Pisi.DB
