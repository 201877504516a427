import Verif.Model.Str

/-!
# Several processes fetch the same file, pisi/fetcher.py

Commands that only read the databases take no lock (pisi/cli/info.py:58, pisi/data/package.py:87-90), so several may fetch one
address into one directory at the same time.  Here the file system has inodes: a file that was removed or renamed is still
written by who has it open.  What `urlgrab` does is assumed as in `Model/Fetch.lean`: with `reget` it takes the size of the target, asks
for what follows and opens the target for appending; without, it opens the target for writing.
-/
namespace Pisi.FetchPar

/-- The content of an inode: its length, and what was written at each place; a place below the length where nothing was written
reads as NUL. -/
structure Blob where
  len : Nat
  at_ : Nat → Option Char

/-- After opening for writing. -/
def Blob.empty : Blob := ⟨0, fun _ => none⟩

/-- Write `t` at `off`. -/
def Blob.write (b : Blob) (off : Nat) (t : Str) : Blob :=
  ⟨max b.len (off + t.length), fun p => if off ≤ p ∧ p < off + t.length then t[p - off]? else b.at_ p⟩

/-- How far a process has got. -/
inductive Phase where
  | idle
  /-- the target will be opened for writing, pisi/fetcher.py:297-298 -/
  | fresh
  /-- a partial file is to be removed, pisi/fetcher.py:303-305, 311-313 -/
  | drop
  /-- `reget = 'simple'`, pisi/fetcher.py:309-310 -/
  | resume
  /-- the server was asked for what follows the first `n` characters -/
  | asked (n : Nat)
  /-- inode `i` is open, for appending or for writing; `off` characters of the file have been received or were there -/
  | writing (i off : Nat) (app : Bool)
  /-- all is written, pisi/fetcher.py:174 is next -/
  | grabbed (i : Nat)
  /-- the partial file was there and was not empty, pisi/fetcher.py:178 is next -/
  | checked (i : Nat)
  /-- the fetch returned, or failed after all was written -/
  | ended (i : Nat)
  /-- killed, or the connection broke, while writing -/
  | broken (i off : Nat)
  /-- failed or killed without the target being open -/
  | failed
  deriving DecidableEq

/-- The two paths, the inodes and the processes. -/
structure State where
  part : Option Nat
  dest : Option Nat
  ino : Nat → Blob
  /-- inodes from here on are unused -/
  next : Nat
  ph : Nat → Phase

/-- Replace the value at `i`. -/
def upd {β : Type} (f : Nat → β) (i : Nat) (v : β) : Nat → β := fun j => if j = i then v else f j

/-- Process `q` gets to phase `x`. -/
def State.go (s : State) (q : Nat) (x : Phase) : State := { s with ph := upd s.ph q x }

/-- `open(target, 'wb')` by process `q`. -/
def State.openW (s : State) (q : Nat) : State := match s.part with
  | some i => { s with ino := upd s.ino i .empty, ph := upd s.ph q (.writing i 0 false) }
  | none => { s with part := some s.next, ino := upd s.ino s.next .empty, next := s.next + 1,
                     ph := upd s.ph q (.writing s.next 0 false) }

/-- `open(target, 'ab')` by process `q`, for what follows the first `n` characters. -/
def State.openA (s : State) (q n : Nat) : State := match s.part with
  | some i => s.go q (.writing i n true)
  | none => { s with part := some s.next, ino := upd s.ino s.next .empty, next := s.next + 1,
                     ph := upd s.ph q (.writing s.next n true) }

/-- One step of process `q`; the server has the file `c`, and says how long it is if `lens`. -/
inductive Step (c : Str) (lens : Bool) (q : Nat) : State → State → Prop
  /-- pisi/fetcher.py:297-298 -/
  | none (s) : s.ph q = .idle → s.part = none → Step c lens q s (s.go q .fresh)
  /-- pisi/fetcher.py:300-310 -/
  | length (s i) : s.ph q = .idle → s.part = some i → lens = true → Step c lens q s (s.go q .resume)
  /-- pisi/fetcher.py:303-305, also for a server that cannot be reached at first, and 311-313 -/
  | noLength (s i) : s.ph q = .idle → s.part = some i → Step c lens q s (s.go q .drop)
  /-- `os.remove` -/
  | drop (s i) : s.ph q = .drop → s.part = some i → Step c lens q s ({ s with part := .none }.go q .fresh)
  /-- the file has gone: `OSError` -/
  | dropGone (s) : s.ph q = .drop → s.part = none → Step c lens q s (s.go q .failed)
  /-- `urlgrab` takes the size of the target -/
  | size (s i) : s.ph q = .resume → s.part = some i → (s.ino i).len < c.length →
      Step c lens q s (s.go q (.asked (s.ino i).len))
  /-- the server rejects a request for what is not in the file -/
  | sizeBad (s i) : s.ph q = .resume → s.part = some i → c.length ≤ (s.ino i).len → Step c lens q s (s.go q .failed)
  /-- the target has gone: the whole file is requested -/
  | sizeGone (s) : s.ph q = .resume → s.part = none → Step c lens q s (s.go q .fresh)
  | openW (s) : s.ph q = .fresh → Step c lens q s (s.openW q)
  | openA (s n) : s.ph q = .asked n → Step c lens q s (s.openA q n)
  /-- a block arrives and is written -/
  | write (s i off app m) : s.ph q = .writing i off app → 0 < m → off + m ≤ c.length →
      Step c lens q s ({ s with ino := upd s.ino i ((s.ino i).write (if app then (s.ino i).len else off) ((c.drop off).take m)) }.go q
        (.writing i (off + m) app))
  /-- the transfer ends regularly -/
  | grabbed (s i off app) : s.ph q = .writing i off app → off = c.length → Step c lens q s (s.go q (.grabbed i))
  /-- pisi/fetcher.py:174-176, with a partial file that is not empty -/
  | check (s i j) : s.ph q = .grabbed i → s.part = some j → (s.ino j).len ≠ 0 → Step c lens q s (s.go q (.checked i))
  /-- pisi/fetcher.py:174-176: an empty partial file is removed -/
  | checkEmpty (s i j) : s.ph q = .grabbed i → s.part = some j → (s.ino j).len = 0 →
      Step c lens q s ({ s with part := .none }.go q (.ended i))
  /-- pisi/fetcher.py:174: the partial file has gone, `OSError` -/
  | checkGone (s i) : s.ph q = .grabbed i → s.part = none → Step c lens q s (s.go q (.ended i))
  /-- `move`, pisi/fetcher.py:178 -/
  | move (s i j) : s.ph q = .checked i → s.part = some j →
      Step c lens q s ({ s with part := .none, dest := some j }.go q (.ended i))
  /-- `move` fails: the partial file has gone -/
  | moveGone (s i) : s.ph q = .checked i → s.part = none → Step c lens q s (s.go q (.ended i))
  /-- killed, or the connection breaks -/
  | kill (s i off app) : s.ph q = .writing i off app → Step c lens q s (s.go q (.broken i off))
  /-- killed at another time -/
  | killEarly (s) : s.ph q = .fresh ∨ s.ph q = .drop ∨ s.ph q = .resume ∨ (∃ n, s.ph q = .asked n) →
      Step c lens q s (s.go q .failed)
  /-- killed after all was written -/
  | killLate (s i) : s.ph q = .grabbed i ∨ s.ph q = .checked i → Step c lens q s (s.go q (.ended i))

/-- `pisi delete-cache`, which takes no lock (pisi/cli/deletecache.py:43, pisi/api.py:138-141), removes one of the two files. -/
inductive Wipe : State → State → Prop
  | part (s) : Wipe s { s with part := none }
  | dest (s) : Wipe s { s with dest := none }

end Pisi.FetchPar
