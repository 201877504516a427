import Verif.Model.RemoveSteps

/-!
# What one system call does to a disk

`SameBut a b ks`: outside `ks` the two disks hold the same.
-/
namespace Pisi.FS

def SameBut (a b : FS) (ks : List Str) : Prop := ∀ q, q ∉ ks → b.get q = a.get q

/-- One step: a system call, or one more character of a file that is being written. -/
inductive Call (a b : FS) : Prop where
  | unlink (p : Str) (n : Node) (h : a.get p = some n) (hn : n ≠ .dir) (h' : b.get p = none) (hs : SameBut a b [p])
  | rmdir (p : Str) (h : a.get p = some .dir) (he : ∀ q, q ≠ p → dirname q = p → a.get q = none) (h' : b.get p = none) (hs : SameBut a b [p])
  | mkdir (p : Str) (h : a.get p = none) (h' : b.get p = some .dir) (hs : SameBut a b [p])
  | symlink (p t : Str) (h : a.get p = none) (h' : b.get p = some (.link t)) (hs : SameBut a b [p])
  | rename (p q : Str) (n : Node) (hn : n ≠ .dir) (hpq : p ≠ q) (h : a.get p = some n) (hq : a.get q ≠ some .dir) (h' : b.get p = none)
      (hq' : b.get q = some n) (hs : SameBut a b [p, q])
  | create (p : Str) (h : a.get p = none ∨ ∃ c, a.get p = some (.file c)) (h' : b.get p = some (.file [])) (hs : SameBut a b [p])
  | byte (p c : Str) (x : Char) (h : a.get p = some (.file c)) (h' : b.get p = some (.file (c ++ [x]))) (hs : SameBut a b [p])
  | rmtree (p : Str) (h : a.get p = some .dir) (h' : b.get p = none) (hb : ∀ q, Below p q → b.get q = none)
      (hs : ∀ q, q ≠ p → ¬ Below p q → b.get q = a.get q)

/-- The steps that only take one thing away: a file, a link or an empty directory. -/
inductive Drop (a b : FS) : Prop where
  | unlink (p : Str) (n : Node) (h : a.get p = some n) (hn : n ≠ .dir) (h' : b.get p = none) (hs : SameBut a b [p])
  | rmdir (p : Str) (h : a.get p = some .dir) (he : ∀ q, q ≠ p → dirname q = p → a.get q = none) (h' : b.get p = none)
      (hs : SameBut a b [p])

/-- `l` are the disks one after another on the way from `s` to `t`, each one step `R` after the one before. -/
inductive Calls (R : FS → FS → Prop) : FS → List FS → FS → Prop where
  | nil (s : FS) : Calls R s [] s
  | cons {s t u : FS} {l : List FS} : R s t → Calls R t l u → Calls R s (t :: l) u

end Pisi.FS
