import Verif.Model.FetchPar
import Mathlib.Logic.Relation

/-!
# What fetching a file in several processes is to give (C232)
-/
namespace Pisi.FetchPar

/-- Process `q` has not begun, or does nothing any more. -/
def AtRest (s : State) (q : Nat) : Prop := match s.ph q with
  | .idle | .ended _ | .broken _ _ | .failed => True
  | _ => False

/-- A state in which nobody has begun; `dest` may have an earlier file. -/
structure Start (s : State) : Prop where
  idle : ∀ q, s.ph q = .idle
  part : s.part = none
  dest : ∀ i, s.dest = some i → i < s.next

/-- Any processes take steps in any order. -/
def Run (c : Str) (lens : Bool) : State → State → Prop := Relation.ReflTransGen fun s t => ∃ q, Step c lens q s t

/-- Steps where a process begins only while all others rest, as under the lock of C101. -/
def RunAlone (c : Str) (lens : Bool) : State → State → Prop :=
  Relation.ReflTransGen fun s t => ∃ q, Step c lens q s t ∧ (s.ph q = .idle → ∀ q', q' ≠ q → AtRest s q')

/-- The content is exactly `c`. -/
def Complete (b : Blob) (c : Str) : Prop := b.len = c.length ∧ ∀ p, p < c.length → b.at_ p = c[p]?

/-- The destination is what it was. -/
def AsBefore (s0 s : State) : Prop := s.dest = s0.dest ∧ ∀ i, s0.dest = some i → s.ino i = s0.ino i

/-- The destination is the whole file. -/
def Whole (s : State) (c : Str) : Prop := ∃ i, s.dest = some i ∧ Complete (s.ino i) c

/-- The destination has only right characters, at their places; some may be missing. -/
def Holey (s : State) (c : Str) : Prop :=
  ∃ i, s.dest = some i ∧ (s.ino i).len ≤ c.length ∧ ∀ p x, (s.ino i).at_ p = some x → c[p]? = some x

end Pisi.FetchPar
