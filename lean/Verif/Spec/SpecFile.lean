import Verif.Model.SpecFile

/-!
# What the metadata of a package should say
-/
namespace Pisi.Pspec

/-- An own text, or else the one of the source. -/
def OwnOr {β : Type} (missing : β → Prop) (own inherited result : β) : Prop :=
  (¬ missing own → result = own) ∧ (missing own → result = inherited)

/-- A missing string: none or empty. -/
def Missing (s : Option Str) : Prop := s = none ∨ s = some []

/-- The component of the source: the one it names, or else the one of the directory. -/
def SourceComponent (comp : Option Str) (src : Source) (c : Option Str) : Prop :=
  OwnOr Missing src.partOf comp c

/-- What package `p` of the specification `s` (as written by the packager, in a directory of component `comp`) is described by. -/
structure Describes (comp : Option Str) (s : SpecFile) (p : Package) (m : MPackage) : Prop where
  name : m.name = p.name
  summary : OwnOr (· = []) p.summary s.source.summary m.summary
  description : OwnOr (· = []) p.description s.source.description m.description
  license : OwnOr (· = []) p.license s.source.license m.license
  icon : OwnOr Missing p.icon s.source.icon m.icon
  partOf : ∃ c, SourceComponent comp s.source c ∧ OwnOr Missing p.partOf c m.partOf
  isA : m.isA = p.isA ++ s.source.isA
  deps : m.deps = p.deps
  compDeps : m.compDeps = p.compDeps
  files : m.files = p.files
  conflicts : m.conflicts = p.conflicts
  comar : m.comar = p.comar
  additional : m.additional = p.additional
  history : m.history = s.history

/-- The version and release of the latest update. -/
def Latest (h : List Update) (v r : Option Str) : Prop := ∃ u t, h = u :: t ∧ v = some u.version ∧ r = some u.release

end Pisi.Pspec
