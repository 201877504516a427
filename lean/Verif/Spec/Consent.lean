import Verif.Model.Consent

/-! # What users expect of `--dry-run` and of the questions -/
namespace Pisi.ConsentSpec
open Pisi.Consent

/-- A question and its answer. -/
def Talk : Ev → Prop
  | .said _ _ => True
  | _ => False

/-- Something is done to a package, or the databases are made anew. -/
def Touch : Ev → Prop
  | .did _ => True
  | .rebuilt => True
  | _ => False

/-- The names a question shows. -/
def shown : Ask → List Str
  | .extra l | .removal l | .conflicts l | .external l => l

/-- The names that were given, components replaced by their packages; `pisi upgrade` alone means everything that is installed. -/
def wanted {σ : Type} (m : Machine σ) (s : σ) : Cmd → List Str
  | .install args => args ++ m.expand args
  | .remove args => m.expand args
  | .upgrade args => m.expand (if args = [] then m.allInstalled s else args)

/-- What is known of the plans: they have the packages that are to be treated, and nothing twice; plans for files have the names of the
files.  Components stand for packages, none of them twice. -/
structure Fair {σ : Type} (m : Machine σ) : Prop where
  expand : ∀ A, (m.expand A).Nodup
  install : ∀ s A l, A.Nodup → m.planInstall s A = .ok l → l.Nodup ∧ ∀ x ∈ A, x ∈ l
  upgrade : ∀ s A l, A.Nodup → m.planUpgrade s A = .ok l → l.Nodup ∧ ∀ x ∈ A, x ∈ l
  remove : ∀ s A l, A.Nodup → m.planRemove s A = .ok l → l.Nodup ∧ ∀ x ∈ A, x ∈ l
  select : ∀ s A l, m.select s A = .ok l → l.Sublist A
  files : ∀ l d, m.readFiles l = .ok d → ∀ e ∈ d, e.2 ∈ l
  plan : ∀ s d l, m.planFiles s d = .ok l → ∀ x ∈ l, ∃ e ∈ d, e.1 = x

/-- Nothing is done to a package that was not named, unless a question that showed it was answered with yes before. -/
def Agreed {σ : Type} (m : Machine σ) (l : List Str) (t : List Ev) : Prop := ∀ pre x post, t = pre ++ .did x :: post →
  x ∈ l ∨ ∃ q, .said q true ∈ pre ∧ (x ∈ shown q ∨ x ∈ m.expand (shown q))

end Pisi.ConsentSpec
