import Verif.Model.Fetch
import Verif.Spec.Search

/-!
# What a download is to guarantee
-/
namespace Pisi.Fetch
open Pisi.FS

/-- The server has the file `c`: what it sends from an offset on is from `c`, and is all of it when the transfer ends
regularly. -/
def Honest (sv : Server) (c : Str) : Prop := ∀ n data done, sv.serve n = some (data, done) →
  data <+: c.drop n ∧ (done = true → data = c.drop n)

/-- The server delivers the file `c`, from any offset within it; it rejects requests for what is not in the file. -/
def Reliable (sv : Server) (c : Str) : Prop := sv.probe = .answers true ∧
  ∀ n, sv.serve n = if n < c.length then some (c.drop n, true) else none

/-- At `p` there is nothing or an initial part of `c`. -/
def Part (fs : FS) (p c : Str) : Prop := fs.get p = none ∨ ∃ d, d <+: c ∧ fs.get p = some (.file d)

/-- The URLs that fetching `u` may lead to. -/
inductive Leads (conf : Option (List Str)) (u : Str) : Str → Prop
  | refl : Leads conf u u
  | mirror (v name archive : Str) (ms : List Str) (m : Str) : Leads conf u v → kind v = .mirror name archive →
      getMirrors conf name = .ok (some ms) → m ∈ ms → Leads conf u (Path.joinPath m [archive])

/-- All sources of `u` have the file `c`. -/
structure Sources (net : Net) (conf : Option (List Str)) (fs : FS) (destdir u c : Str) : Prop where
  remote : ∀ v, Leads conf u v → kind v = .remote → Honest (net v) c
  loc : ∀ v src, Leads conf u v → kind v = .loc src → src ≠ target destdir u ∧ src ≠ part (target destdir u) ∧
    fs.get src = some (.file c)

/-- A fetch of `u` (with any sources that have `c`) leads from one state to another; it may be cut off. -/
inductive Attempt (destdir fn c : Str) (fs : FS) : FS → Prop
  | mk (net : Net) (conf : Option (List Str)) (u : Str) (n : Nat) (fs' : FS) : filename u = fn →
      Sources net conf fs destdir u c → fs' ∈ (fetch net conf destdir n fs u).1 → Attempt destdir fn c fs fs'

end Pisi.Fetch
