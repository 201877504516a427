/-
When the records about a package agree with the system.
-/
import Verif.Model.InstallOp

namespace Pisi.InstallOpSpec

open Pisi.InstallOp

variable {α ν φ : Type}

/-- The databases, the stored file lists and the disk agree about a package:
it is not recorded, and there is nothing of it; or a version of it is recorded,
exactly the file list of this version is stored, and exactly its files are on
the disk. -/
def Agrees (P : Pkgs α ν φ) (s : Sys α ν φ) (p : α) : Prop :=
  match s.db p with
  | none => (∀ v, s.info p v = false) ∧ ∀ x, s.disk p x = false
  | some (v, _) => (∀ w, s.info p w = true ↔ w = v) ∧ ∀ x, s.disk p x = true ↔ x ∈ P.files p v

/-- COMAR knows exactly the scripts of the recorded version, and nothing waits
for configuration. -/
def Registered (P : Pkgs α ν φ) (s : Sys α ν φ) (p : α) : Prop :=
  match s.db p with
  | none => s.reg p = none
  | some (v, pending) => pending = false ∧ s.reg p = if P.scripts p v then some v else none

/-- Everything succeeds. -/
def Lucky (l : Luck φ) : Prop :=
  l.checks = true ∧ l.preCalls = true ∧ l.unregister = true ∧ l.extract = none ∧ l.store = true ∧
  l.register = true ∧ l.postCalls = true ∧ l.commit = true

/-- Nothing of a package but what belongs to it changed. -/
def OnlyAt (p : α) (s s' : Sys α ν φ) : Prop :=
  ∀ q, q ≠ p → s'.db q = s.db q ∧ s'.info q = s.info q ∧ s'.disk q = s.disk q ∧ s'.reg q = s.reg q

/-- Nothing of a package changed. -/
def Unchanged (s s' : Sys α ν φ) (p : α) : Prop :=
  s'.db p = s.db p ∧ s'.info p = s.info p ∧ s'.disk p = s.disk p ∧ s'.reg p = s.reg p

end Pisi.InstallOpSpec
