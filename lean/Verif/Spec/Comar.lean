/-
What the answers of COMAR to one request look like, and what the requests of
pisi ought to be.
-/
import Verif.Model.Comar

namespace Pisi.ComarSpec

open Pisi.Comar

/-- The answer to a request: replies to skip, then one reply; or the answers of
several scripts between `RESULT_START` and `RESULT_END`. -/
inductive Answer : List Reply → Prop where
  | one (skip : List Reply) (r : Reply) :
      (∀ x ∈ skip, x = .other) →
      r ∈ [Reply.result, .none, .fail, .error, .denied] → Answer (skip ++ [r])
  | many (skip : List Reply) (inner : List Reply) :
      (∀ x ∈ skip, x = .other) →
      (∀ x ∈ inner, x ∈ [Reply.result, .none, .fail, .error, .denied, .other]) →
      Answer (skip ++ .resultStart :: inner ++ [.resultEnd])

/-- No script failed and nothing was denied. -/
def Good (a : List Reply) : Prop := ∀ x ∈ a, x ≠ .fail ∧ x ≠ .error ∧ x ≠ .denied

/-- The server answers every request. -/
def Answers {σ : Type} (S : Server σ) : Prop := ∀ s r, Answer (S.handle s r).2

/-- Requests are handled one after the other, each after a good answer to the
one before: the server goes from one state to another. -/
inductive Goes {σ : Type} (S : Server σ) : σ → List Request → σ → Prop where
  | nil (s : σ) : Goes S s [] s
  | cons (s : σ) (r : Request) (rs : List Request) (s' : σ) :
      Good (S.handle s r).2 → Goes S (S.handle s r).1 rs s' → Goes S s (r :: rs) s'

/-- The requests of installing a package: its scripts are registered in order,
the handlers are called, and last its own script if it has one. -/
def installRequests (p : Str) (scripts : List Script) : List Request :=
  scripts.map (fun s => Request.register s.om p s.file) ++ [.setup p] ++
    (if ∃ s ∈ scripts, s.om = ['S','y','s','t','e','m','.','P','a','c','k','a','g','e']
      then [.postInstall p] else [])

/-- The requests of removing a package. -/
def removeRequests (p : Str) : List Request := [.preRemove p, .cleanup p, .unregister p]

end Pisi.ComarSpec
