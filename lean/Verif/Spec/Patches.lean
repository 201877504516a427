import Verif.Model.Patches

/-! # What it means that patches are applied -/
namespace Pisi.PatchesSpec
open Pisi.Patches

variable {T : Type}

/-- What a patch says: the content of its file, decompressed if need be. -/
def text (m : Machine T) (files : Str → Option Str) (dir : Str) (p : Patch) : Option Str :=
  (files (dir ++ '/' :: p.filename)).bind fun c => match p.ctype with
    | none => some c
    | some t => if t = ['g', 'z'] then m.gunzip c else if t = ['b', 'z', '2'] then m.bunzip c else if t = [] then some c else none

/-- The arguments `patch` is meant to get: the level, 0 if there is none, and the file to be changed, if one is given. -/
def args (p : Patch) : List Str :=
  ('-' :: 'p' :: Nat.toDigits 10 (p.level.getD 0)) :: (match p.target with
    | some (c :: t) => [c :: t]
    | _ => [])

/-- `t'` is `t` with all of these patches applied without failure, one after the other. -/
inductive Applied (m : Machine T) (files : Str → Option Str) (dir : Str) : T → List Patch → T → Prop where
  | nil (t : T) : Applied m files dir t [] t
  | cons (t t' t'' : T) (p : Patch) (l : List Patch) (c : Str) : text m files dir p = some c → m.patch t (args p) c = (t', 0) →
      Applied m files dir t' l t'' → Applied m files dir t (p :: l) t''

/-- Names the shell takes as they are. -/
def Plain (p : Patch) : Prop := ShellSpec.safe p.filename = true ∧ p.filename.head? ≠ some '/' ∧
  (∀ t, p.target = some t → t = [] ∨ ShellSpec.safe t = true)

end Pisi.PatchesSpec
