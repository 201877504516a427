/-
Talking to the configuration manager COMAR, `pisi/comariface.py`.

The server is any machine that changes its state on a request and sends
replies; the link keeps the replies that have not been read.  Simplifications:
`comar.Link` (not part of pisi) delivers replies in the order in which they
were sent; waiting longer than the server needs is not modelled, a read with
nothing left to read is a link that was closed; notifications and other replies
that `wait_for_result` skips are one constructor.
-/
import Verif.Model.Str

namespace Pisi.Comar

/-- What `reply[0]` of a reply can be. -/
inductive Reply where
  | result
  | none
  | resultStart
  | resultEnd
  | fail
  | error
  | denied
  | other
  deriving DecidableEq

/-- How waiting ends: `return`, or `raise Error`. -/
inductive End where
  | ok
  | failed
  deriving DecidableEq

/-- `wait_for_result(com, package_name)` (pisi/comariface.py:57-95) with the
unread replies: how it ends and the replies that are left.  `comar` is
`package_name == "comar"`, `back` is `wait_comar()`, that the server can be
reached again. -/
def waitLoop (comar back : Bool) (multiple : Bool) : List Reply → End × List Reply
  | [] => (if comar && back then .ok else .failed, [])
  | r :: l =>
    match r with
    | .result => if multiple then waitLoop comar back multiple l else (.ok, l)
    | .none => if multiple then waitLoop comar back multiple l else (.ok, l)
    | .resultStart => waitLoop comar back true l
    | .resultEnd => (.ok, l)
    | .fail => (.failed, l)
    | .error => (.failed, l)
    | .denied => (.failed, l)
    | .other => waitLoop comar back multiple l

/-- `wait_for_result`: `multiple` is false at first. -/
def wait (comar back : Bool) (l : List Reply) : End × List Reply := waitLoop comar back false l

/-- The requests that pisi sends. -/
inductive Request where
  /-- `com.register(om, package, script)`. -/
  | register (om : Str) (package : Str) (script : Str)
  /-- `com.call("System.PackageHandler.setupPackage", ...)`. -/
  | setup (package : Str)
  /-- `com.call_package("System.Package.postInstall", package)`. -/
  | postInstall (package : Str)
  /-- `com.call_package("System.Package.preRemove", package)`. -/
  | preRemove (package : Str)
  /-- `com.call("System.PackageHandler.cleanupPackage", ...)`. -/
  | cleanup (package : Str)
  /-- `com.remove(package)`. -/
  | unregister (package : Str)
  deriving DecidableEq

/-- The server: its state after a request and the replies it sends. -/
structure Server (σ : Type) where
  handle : σ → Request → σ × List Reply
  /-- Whether it can be reached again after it closed the link. -/
  back : σ → Bool

/-- A link: the server behind it, the replies not yet read, and the requests
sent, the latest first. -/
structure Link (σ : Type) where
  srv : σ
  unread : List Reply
  sent : List Request

variable {σ : Type}

/-- Sending a request and `wait_for_result`. -/
def ask (S : Server σ) (comar : Bool) (l : Link σ) (r : Request) : End × Link σ :=
  let h := S.handle l.srv r
  let w := wait comar (S.back h.1) (l.unread ++ h.2)
  (w.1, ⟨h.1, w.2, r :: l.sent⟩)

/-- Sending requests one after the other until one fails. -/
def askAll (S : Server σ) (l : Link σ) : List Request → End × Link σ
  | [] => (.ok, l)
  | r :: rs =>
    match ask S false l r with
    | (.failed, l') => (.failed, l')
    | (.ok, l') => askAll S l' rs

/-- `comar` -/
def comarName : Str := ['c','o','m','a','r']

/-- `System.Package` -/
def systemPackage : Str :=
  ['S','y','s','t','e','m','.','P','a','c','k','a','g','e']

/-- A script that a package provides: the object model and the file. -/
structure Script where
  om : Str
  file : Str
  deriving DecidableEq

/-- `post_install` (pisi/comariface.py:97-118). -/
def postInstall (S : Server σ) (l : Link σ) (p : Str) (scripts : List Script) : End × Link σ :=
  match askAll S l (scripts.map (fun s => Request.register s.om p s.file)) with
  | (.failed, l1) => (.failed, l1)
  | (.ok, l1) =>
    match ask S false l1 (.setup p) with
    | (.failed, l2) => (.failed, l2)
    | (.ok, l2) =>
      if scripts.any (fun s => decide (s.om = systemPackage)) then
        ask S (decide (p = comarName)) l2 (.postInstall p)
      else (.ok, l2)

/-- `pre_remove` (pisi/comariface.py:120-134). -/
def preRemove (S : Server σ) (l : Link σ) (p : Str) : End × Link σ :=
  askAll S l [.preRemove p, .cleanup p, .unregister p]

/-- `make_com()` (pisi/comariface.py:29-39) when the server can be reached: a
new link. -/
def connect (s : σ) : Link σ := ⟨s, [], []⟩

end Pisi.Comar
