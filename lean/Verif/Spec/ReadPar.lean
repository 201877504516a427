import Verif.Model.ReadPar
import Verif.Spec.FetchPar

/-!
# What reading package files is to give (C233)
-/
namespace Pisi.ReadPar

open FetchPar (Blob Complete)

/-- What the package file has under a name. -/
def Pkg.body (p : Pkg) (n : Str) : Str := (p.blocks n).flatten

/-- The package has both control files. -/
def Pkg.Whole (p : Pkg) : Prop := metaName ∈ p.names ∧ filesName ∈ p.names

/-- Process `q` has not begun, or does nothing any more. -/
def AtRest (s : State) (q : Nat) : Prop := match s.ph q with
  | .idle | .done _ _ | .dead => True
  | _ => False

/-- A state in which nobody has begun.  The directories may have any files; none has two names. -/
structure Start (s : State) : Prop where
  idle : ∀ q, s.ph q = .idle
  used : ∀ d n i, s.names d n = some i → i < s.next
  one : ∀ d n d' n' i, s.names d n = some i → s.names d' n' = some i → d = d' ∧ n = n'

/-- Any processes take steps in any order, and at any time files are deleted by delete-cache. -/
def Run (dir : Nat → Nat) (pkg : Nat → Pkg) : State → State → Prop :=
  Relation.ReflTransGen fun s t => Clean s t ∨ ∃ q, Step dir pkg q s t

/-- Any steps, but while `q` is at work no other process reads packages in its directory. -/
def RunApart (dir : Nat → Nat) (pkg : Nat → Pkg) (q : Nat) : State → State → Prop :=
  Relation.ReflTransGen fun s t => Clean s t ∨ ∃ q', Step dir pkg q' s t ∧ (q' ≠ q → dir q' = dir q → AtRest s q)

/-- A process begins only while all others rest: one command at a time, apart from delete-cache. -/
def RunAlone (dir : Nat → Nat) (pkg : Nat → Pkg) : State → State → Prop :=
  Relation.ReflTransGen fun s t => Clean s t ∨ ∃ q, Step dir pkg q s t ∧ (s.ph q = .idle → ∀ q', q' ≠ q → AtRest s q')

/-- What process `q` read is what its package file has. -/
def ReadsOwn (pkg : Nat → Pkg) (s : State) (q : Nat) : Prop := ∀ m f, s.ph q = .done m f →
  (pkg q).Whole ∧ Complete m ((pkg q).body metaName) ∧ Complete f ((pkg q).body filesName)

/-- Only characters of `c`, at their places; some may be missing. -/
def Holey (b : Blob) (c : Str) : Prop := b.len ≤ c.length ∧ ∀ p x, b.at_ p = some x → c[p]? = some x

end Pisi.ReadPar
