import Verif.Model.Info

/-!
# Specification: what info should tell
-/
namespace Pisi.Info
variable {κ ρ φ : Type}

/-- There is something to tell about the name. -/
def Known (w : View κ ρ φ) (a : Str) : Prop :=
  (∃ c, w.comp a = some c) ∨ (∃ f, w.file a = some f ∧ PkgName.packageSuffix <:+ a) ∨ w.installed a = true ∨ w.inRepos a = true

/-- The argument is the name of a component, which can be shown. -/
def IsComp (o : Opts) (w : View κ ρ φ) (a : Str) (c : κ) : Prop := w.comp a = some c ∧ (o.short = true ∨ w.shown c = true)

/-- The argument is no component but a package file that can be read and shown. -/
def IsFile (o : Opts) (w : View κ ρ φ) (a : Str) (f : PkgFile ρ φ) : Prop :=
  w.comp a = none ∧ PkgName.packageSuffix <:+ a ∧ w.file a = some f ∧ (o.short = true ∨ f.compDeps = [])

/-- Nothing is known by the name. -/
def IsUnknown (w : View κ ρ φ) (a : Str) : Prop :=
  w.comp a = none ∧ ¬ PkgName.packageSuffix <:+ a ∧ w.installed a = false ∧ w.inRepos a = false

/-- What is told about an argument. -/
inductive Told (o : Opts) (w : View κ ρ φ) : Str → List (Out κ ρ φ) → Prop where
  | comp (a : Str) (c : κ) : IsComp o w a c → Told o w a [if o.short = true then .compShort c else .comp c]
  | file (a : Str) (f : PkgFile ρ φ) (l : List φ) : IsFile o w a f → l.Perm f.list →
      Told o w a ([.packageFile a, if o.short = true then .pkgShort f.pkg else .pkg f.pkg] ++
        (if o.files = true then .filesHead :: l.map .fileInfo
         else if o.filesPath = true then .filesHead :: l.map .filePath else []) ++
        (if o.short = true then [] else [.blank]))
  | unknown (a : Str) : IsUnknown w a → Told o w a []

end Pisi.Info
