import Verif.Spec.FileHistory

/-!
# Interrupted installations

What a user expects: whenever pisi is killed or the power fails while the files of a package are installed, installing it again does what
the first installation would have done.
-/
namespace Pisi.FS
open Pisi.Path

/-- Any number of installations were started over `s`, and each was interrupted after one of its steps, in a state that satisfies `ok`; `c`
is what is there then.  `old` is what the database records of the package, which is not changed before the files are there,
pisi/op/install.py:100-112. -/
inductive Interrupted (sha : Str → Str) (dest : Str) (old : Option (List FileInfo)) (p : Pack) (ok : FS → Prop) (s : FS) : FS → Prop
  | start : Interrupted sha dest old p ok s s
  | again {c c' : FS} : Interrupted sha dest old p ok s c → c' ∈ (extractInstall sha dest old p.l (p.is.map Item.entry) c).1 → ok c' →
      Interrupted sha dest old p ok s c'

/-- As `Room`, but beside configuration files there may be others that were kept. -/
structure RoomOver (dest : Str) (s : FS) (p : Pack) : Prop where
  isOpen : Open p.is s
  plain : ∀ f ∈ p.l, f.conf = true → s.get (joinPath dest [f.path]) = none ∨ ∃ c, s.get (joinPath dest [f.path]) = some (.file c)
  oldFile : ∀ f ∈ p.l, f.conf = true →
    s.get (joinPath dest [f.path] ++ ".old".toList) = none ∨ ∃ c, s.get (joinPath dest [f.path] ++ ".old".toList) = some (.file c)
  newFree : ∀ f ∈ p.l, f.conf = true → s.get (joinPath dest [f.path] ++ ".newconfig".toList) ≠ some .dir

/-- A place of the package or of its configuration files. -/
def Pack.Own (dest : Str) (p : Pack) (k : Str) : Prop := (∃ i ∈ p.is, ∃ q, q <+: i.comps ∧ k = pathOf q) ∨
  ∃ f ∈ p.l, f.conf = true ∧ (k = joinPath dest [f.path] ++ ".old".toList ∨ k = joinPath dest [f.path] ++ ".newconfig".toList)

/-- `k` is the place of a configuration file. -/
def Pack.Conf (dest : Str) (p : Pack) (k : Str) : Prop := ∃ f ∈ p.l, f.conf = true ∧ joinPath dest [f.path] = k

/-- The file at `k` is not there, as it was in `s` or as in the package. -/
def Pack.Uncut (p : Pack) (s : FS) (k : Str) (c : FS) : Prop :=
  c.get k = none ∨ c.get k = s.get k ∨ ∃ i ∈ p.is, k = pathOf i.comps ∧ c.get k = some i.node

end Pisi.FS
