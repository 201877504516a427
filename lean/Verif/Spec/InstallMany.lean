import Verif.Spec.UpgradeFiles

/-!
# Installing several packages

What a user expects: afterwards all of them are in place.
-/
namespace Pisi.FS
open Pisi.Path

/-- A package that is to be installed: its list of files, its members, and whether it is installed already. -/
structure Pack where
  l : List FileInfo
  is : List Item
  again : Bool := false

/-- One installation after the other. -/
def installMany (sha : Str → Str) (dest : Str) : List Pack → FS → Except FErr FS
  | [], s => .ok s
  | p :: ps, s => match (extractInstall sha dest (if p.again then some p.l else none) p.l (p.is.map Item.entry) s).2 with
    | .ok t => installMany sha dest ps t
    | .error e => .error e

/-- A package that could be installed over `s`: the conditions of C208; its configuration files are files. -/
structure Fits (sha : Str → Str) (dest : Str) (s : FS) (p : Pack) : Prop where
  sound : Sound p.is
  lists : Lists dest p.l p.is
  isOpen : Open p.is s
  keepable : Keepable sha dest p.l p.is s
  files : ∀ f ∈ p.l, f.conf = true → ∀ i ∈ p.is, joinPath dest [f.path] = pathOf i.comps → i.node ≠ .dir

/-- What two packages have in common are directories; and the members of `b` have other names than those under which the configuration files of `a` are kept. -/
structure Beside (dest : Str) (a b : Pack) : Prop where
  dirs : ∀ i ∈ a.is, ∀ j ∈ b.is, i.comps <+: j.comps → i.node = .dir
  names : ∀ f ∈ a.l, f.conf = true → ∀ j ∈ b.is, ∀ q, q <+: j.comps →
    joinPath dest [f.path] ++ ".old".toList ≠ pathOf q ∧ joinPath dest [f.path] ++ ".newconfig".toList ≠ pathOf q

/-- The files of the user that are kept. -/
def Keeps (sha : Str → Str) (dest : Str) (ps : List Pack) (s : FS) (p : Str) : Prop := ∃ a ∈ ps, Changed sha dest a.l s p

/-- **C213, full statement.**  If each of some packages without common files could be installed, they can be installed one after the
other, and then all are in place. -/
def ManyFull : Prop := ∀ (sha : Str → Str) (dest : Str) (s : FS) (ps : List Pack), (∀ p ∈ ps, Fits sha dest s p) →
  ps.Pairwise (fun a b => ∀ f ∈ a.l, ∀ g ∈ b.l, f.path ≠ g.path) →
  ∃ t, installMany sha dest ps s = .ok t ∧ PutOver (Keeps sha dest ps s) (ps.flatMap Pack.is) s t

end Pisi.FS
