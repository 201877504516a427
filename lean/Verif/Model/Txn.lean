import Verif.Model.Dict

/-!
# Transactions

The Berkeley DB environment as the transaction helpers see it.  All databases of the environment are one `Dict` of keys
(database, record) to values.  The environment is opened with transactions but without locking (pisi/db/lockeddbshelve.py:90-98),
so the updates of a running transaction are visible at once; the transaction keeps the previous values in its log, and
aborting it writes them back.  A transaction that is neither committed nor aborted therefore stays visible while its object
exists.  Not modelled: errors of `commit` and `abort` themselves, several processes (the lock file excludes them), the page
structure of the databases (two transactions open at a time undo records, not pages).
-/
namespace Pisi.Txn

/-- What the body of a transaction can raise. -/
inductive Exc where
  /-- `bsddb3.db.DBError` -/
  | db (n : Nat)
  /-- any other instance of `Exception` -/
  | exc (n : Nat)
  /-- `NameError`, an instance of `Exception` -/
  | name
  /-- instance of `BaseException` only, such as `KeyboardInterrupt` -/
  | base (n : Nat)
  deriving DecidableEq

/-- `isinstance(e, Exception)`; `DBError` is an `Exception` as well. -/
def Exc.isException : Exc → Bool
  | .base _ => false
  | _ => true

/-- The helpers that run a procedure in a transaction. -/
inductive Helper where
  /-- `DBShelf.txn_proc`, pisi/db/dbshelve.py:75-94 -/
  | shelf
  /-- `ctx.txn_proc`, pisi/context.py:63-81 -/
  | context
  /-- `Install.install`, pisi/op/install.py:105-111, and `Remove.run`, pisi/op/remove.py:73-79, around their updates of the
  databases -/
  | operation
  deriving DecidableEq

section
variable (κ ν ρ : Type)

/-- A procedure that uses the databases.  Every step may depend on what was read before; `fail` is an error raised at that
point, by the databases or by anything else.  `call h pass p` calls the helper `h` with the body `p`; `pass` tells if the
procedure hands on the transaction it was given. -/
inductive Prog where
  | ret (r : ρ)
  | fail (e : Exc)
  | get (k : κ) (c : Option ν → Prog)
  | put (k : κ) (v : ν) (c : Prog)
  | del (k : κ) (c : Prog)
  | call (h : Helper) (pass : Bool) (body : Prog) (c : ρ → Prog)
end

variable {κ ν ρ : Type} [DecidableEq κ]

/-- Undo log: the keys a transaction wrote, latest first, with the values before. -/
abbrev Log (κ ν : Type) := List (κ × Option ν)

/-- `txn.abort()` -/
def undo : Log κ ν → Dict κ ν → Dict κ ν
  | [], s => s
  | (k, some v) :: l, s => undo l (s.put k v)
  | (k, none) :: l, s => undo l (s.del k)

/-- What a helper does with the transaction it began when the body raises `e`, and the error that leaves the helper.

* `DBShelf.txn_proc`, pisi/db/dbshelve.py:81-88: abort and raise again, for instances of `DBError` and of `Exception`.
* `ctx.txn_proc`, pisi/context.py:69-74: the clause `except db.DBError` is evaluated for every exception, and `db` is not
  defined in the module (line 58 is commented out): `NameError`, and the transaction is left alone.
* `Install.install` and `Remove.run` abort for instances of `DBError` only; `txn.commit()` is inside the `try`. -/
def onError (h : Helper) (e : Exc) (log : Log κ ν) (s : Dict κ ν) : Dict κ ν × Exc := match h with
  | .shelf => if e.isException then (undo log s, e) else (s, e)
  | .context => (s, .name)
  | .operation => match e with
    | .db _ => (undo log s, e)
    | _ => (s, e)

/-- Run a procedure.  `env` tells if there is an environment (`dbenv`; there is none in read-only mode,
pisi/db/lockeddbshelve.py:101-102), `log` is the log of the transaction the procedure was given, `none` without one.  Result: the
databases, the log, and the value or error. -/
def exec (env : Bool) : Prog κ ν ρ → Option (Log κ ν) → Dict κ ν → Dict κ ν × Option (Log κ ν) × Except Exc ρ
  | .ret r, log, s => (s, log, .ok r)
  | .fail e, log, s => (s, log, .error e)
  | .get k c, log, s => exec env (c (s.get k)) log s
  | .put k v c, log, s => exec env c (log.map ((k, s.get k) :: ·)) (s.put k v)
  | .del k c, log, s => exec env c (log.map ((k, s.get k) :: ·)) (s.del k)
  | .call h pass body c, log, s =>
    if pass && log.isSome then
      match exec env body log s with
      | (s', log', .ok r) => exec env (c r) log' s'
      | (s', log', .error e) => (s', log', .error e)
    else if env then
      match exec env body (some []) s with
      | (s', _, .ok r) => exec env (c r) log s'
      | (s', log', .error e) => ((onError h e (log'.getD []) s').1, log, .error (onError h e (log'.getD []) s').2)
    else
      match exec env body none s with
      | (s', _, .ok r) => exec env (c r) log s'
      | (s', _, .error e) => (s', log, .error e)

/-- Calling a helper from outside any transaction: `txn_proc(body, None)`. -/
def txnProc (env : Bool) (h : Helper) (body : Prog κ ν ρ) (s : Dict κ ν) : Dict κ ν × Except Exc ρ :=
  ((exec env (.call h false body .ret) none s).1, (exec env (.call h false body .ret) none s).2.2)

end Pisi.Txn
