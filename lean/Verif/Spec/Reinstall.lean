import Verif.Spec.RoundTrip

/-!
# Installing a package again

What a user expects: whatever is missing or broken is as in the package again, the changed configuration files are kept, with those of
the package beside them, and nothing else changes.
-/
namespace Pisi.FS
open Pisi.Path

/-- `p` is a configuration file of the package that the user has changed. -/
def Changed (sha : Str → Str) (dest : Str) (l : List FileInfo) (s : FS) (p : Str) : Prop :=
  ∃ f ∈ l, f.conf = true ∧ joinPath dest [f.path] = p ∧ ∃ c, s.get p = some (.file c) ∧ f.hash ≠ some (sha c)

/-- The file system `t` after installing the package with the files `is` again over `s`. -/
structure Reinstalled (sha : Str → Str) (dest : Str) (l : List FileInfo) (is : List Item) (s t : FS) : Prop where
  /-- changed configuration files stay -/
  kept : ∀ p, Changed sha dest l s p → t.get p = s.get p
  /-- and those of the package are beside them -/
  beside : ∀ i ∈ is, Changed sha dest l s (pathOf i.comps) → t.get (pathOf i.comps ++ ".newconfig".toList) = some i.node
  /-- everything else of the package is there -/
  repaired : ∀ i ∈ is, ¬ Changed sha dest l s (pathOf i.comps) → t.get (pathOf i.comps) = some i.node
  /-- in its directories -/
  dirs : ∀ i ∈ is, ∀ q, q <+: i.comps → q ≠ i.comps → t.get (pathOf q) = some .dir
  /-- and nothing else has changed -/
  rest : ∀ k, (∀ i ∈ is, ∀ q, q <+: i.comps → k ≠ pathOf q) →
    (∀ p, Changed sha dest l s p → k ≠ p ++ ".newconfig".toList) → t.get k = s.get k

/-- Where a directory belongs there is nothing or a directory; where a file or link belongs there is no directory. -/
structure Open (is : List Item) (s : FS) : Prop where
  dir : ∀ i ∈ is, i.node = .dir → s.get (pathOf i.comps) = none ∨ s.get (pathOf i.comps) = some .dir
  nodir : ∀ i ∈ is, i.node ≠ .dir → s.get (pathOf i.comps) ≠ some .dir
  way : ∀ i ∈ is, ∀ q, q <+: i.comps → q ≠ i.comps → s.get (pathOf q) = none ∨ s.get (pathOf q) = some .dir

/-- The configuration files are files, if they are there, and the names for keeping the changed ones are no names of the package; no
`.old` is in use and no `.newconfig` is a directory. -/
structure Keepable (sha : Str → Str) (dest : Str) (l : List FileInfo) (is : List Item) (s : FS) : Prop where
  plain : ∀ f ∈ l, f.conf = true → s.get (joinPath dest [f.path]) = none ∨ ∃ c, s.get (joinPath dest [f.path]) = some (.file c)
  old : ∀ p, Changed sha dest l s p → s.get (p ++ ".old".toList) = none
  new : ∀ p, Changed sha dest l s p → s.get (p ++ ".newconfig".toList) ≠ some .dir
  names : ∀ p, Changed sha dest l s p → ∀ i ∈ is, ∀ q, q <+: i.comps →
    p ++ ".old".toList ≠ pathOf q ∧ p ++ ".newconfig".toList ≠ pathOf q

/-- The same, except that a `.old` may be in use. -/
structure KeepableOver (sha : Str → Str) (dest : Str) (l : List FileInfo) (is : List Item) (s : FS) : Prop where
  plain : ∀ f ∈ l, f.conf = true → s.get (joinPath dest [f.path]) = none ∨ ∃ c, s.get (joinPath dest [f.path]) = some (.file c)
  old : ∀ p, Changed sha dest l s p → s.get (p ++ ".old".toList) = none ∨ ∃ c, s.get (p ++ ".old".toList) = some (.file c)
  new : ∀ p, Changed sha dest l s p → s.get (p ++ ".newconfig".toList) ≠ some .dir
  names : ∀ p, Changed sha dest l s p → ∀ i ∈ is, ∀ q, q <+: i.comps →
    p ++ ".old".toList ≠ pathOf q ∧ p ++ ".newconfig".toList ≠ pathOf q

/-- As `Reinstalled`, except that the `.old` beside changed configuration files are gone. -/
structure ReinstalledOver (sha : Str → Str) (dest : Str) (l : List FileInfo) (is : List Item) (s t : FS) : Prop where
  kept : ∀ p, Changed sha dest l s p → t.get p = s.get p
  beside : ∀ i ∈ is, Changed sha dest l s (pathOf i.comps) → t.get (pathOf i.comps ++ ".newconfig".toList) = some i.node
  repaired : ∀ i ∈ is, ¬ Changed sha dest l s (pathOf i.comps) → t.get (pathOf i.comps) = some i.node
  dirs : ∀ i ∈ is, ∀ q, q <+: i.comps → q ≠ i.comps → t.get (pathOf q) = some .dir
  gone : ∀ p, Changed sha dest l s p → t.get (p ++ ".old".toList) = none
  rest : ∀ k, (∀ i ∈ is, ∀ q, q <+: i.comps → k ≠ pathOf q) →
    (∀ p, Changed sha dest l s p → k ≠ p ++ ".newconfig".toList ∧ k ≠ p ++ ".old".toList) → t.get k = s.get k

end Pisi.FS
