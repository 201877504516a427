import Verif.Model.Search
import Verif.Spec.Database

/-!
# What a search is to find
-/
namespace Pisi.Search
open Pisi.DB Pisi.DBSpec

variable {α : Type} [DecidableEq α]

/-- Document `d` was indexed under term `t` in store `r`, and not removed from under it since. -/
def Indexed (ops : List (IdxOp α)) (t : Str) (r : RepoId) (d : α) : Prop :=
  Since (fun _ x => ∃ ts, t ∈ ts ∧ x = .add d ts r) (fun o => ∀ ts, o = .remove d ts r → t ∉ ts) ops

/-- The stores an unqualified query looks into. -/
def Active (repoList : List Str) (q : Query) (r : RepoId) : Prop := match r with
  | .repo n => n ∈ repoList
  | _ => q = .alldb

/-- `s` consists of the words `ws` in this order, with separators around them and at least one between any two. -/
inductive Words (sep : Char → Bool) : Str → List Str → Prop
  | nil : Words sep [] []
  | sep (c : Char) (s ws) : sep c = true → Words sep s ws → Words sep (c :: s) ws
  | last (w : Str) : w ≠ [] → (∀ c ∈ w, sep c = false) → Words sep w [w]
  | word (w : Str) (c : Char) (s ws) : w ≠ [] → (∀ x ∈ w, sep x = false) → sep c = true → Words sep s ws →
      Words sep (w ++ c :: s) (w :: ws)

/-- The field `f` of a description contains the word `t` in language `lang`, up to the lower-casing of that language. -/
def Contains (low : Char → Char) (m : Meta α) (f : Field) (lang t : Str) : Prop :=
  ∃ s ws w, (lang, s) ∈ texts m f ∧ Words isSep s ws ∧ w ∈ ws ∧ t = lower low lang w

end Pisi.Search
