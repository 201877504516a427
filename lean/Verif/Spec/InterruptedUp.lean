import Verif.Spec.Interrupted
import Verif.Spec.UpgradeFiles

/-!
# Interrupted upgrades

What a user expects: whenever pisi is killed or the power fails while the files of a new version are put over those of the old one,
upgrading again does what the first upgrade would have done.
-/
namespace Pisi.FS
open Pisi.Path

/-- The package, of whose configuration files only those are kept as such that are also configuration files of the old version. -/
def Pack.over (old : List FileInfo) (p : Pack) : Pack :=
  { p with l := p.l.map fun n => { n with conf := n.conf && old.any (fun o => o.path == n.path && o.conf) } }

/-- The place `k` is empty, has what it had in `s`, or a text that the old version records for it. -/
def Quiet (sha : Str → Str) (dest : Str) (old : List FileInfo) (s : FS) (k : Str) (c : FS) : Prop :=
  c.get k = none ∨ c.get k = s.get k ∨ ∃ x, c.get k = some (.file x) ∧ ∀ o ∈ old, joinPath dest [o.path] = k → o.hash = some (sha x)

end Pisi.FS
